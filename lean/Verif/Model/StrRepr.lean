import Verif.Model.Scanner
/-!
# `repr` of a string

Models the case of strings of `safe_to_repr_str` (vm/value/mod.rs:230-233) with Rust's `{:?}` of strings.  Which characters other than
those with an escape of their own are shown as they are (a table of Unicode in Rust's library) is a parameter.
-/
namespace Cordy.StrRepr

/-- models: Rust's `{:x}` -/
def hex (n : Nat) : List Char := if n < 16 then [Nat.digitChar n] else hex (n / 16) ++ [Nat.digitChar (n % 16)]

/-- models: `char::escape_debug_ext` as `<str as Debug>::fmt` calls it: single quotes are not escaped -/
def debugChar (plain : Char → Bool) (c : Char) : List Char :=
  if c = '\x00' then ['\\', '0']
  else if c = '\t' then ['\\', 't']
  else if c = '\r' then ['\\', 'r']
  else if c = '\n' then ['\\', 'n']
  else if c = '\\' then ['\\', '\\']
  else if c = '"' then ['\\', '"']
  else if plain c then [c]
  else '\\' :: 'u' :: '{' :: hex c.toNat ++ ['}']

/-- models: `format!("{:?}", s)` -/
def debug (plain : Char → Bool) (s : List Char) : List Char := '"' :: s.flatMap (debugChar plain) ++ ['"']

/-- models: vm/value/mod.rs:231-232: what is between the double quotes (two bytes, two characters), between single quotes -/
def repr (plain : Char → Bool) (s : List Char) : List Char :=
  '\'' :: ((debug plain s).drop 1).take ((debug plain s).length - 2) ++ ['\'']

end Cordy.StrRepr
