import Verif.Model.Strings
/-!
# `trim`, `to_lower`, `to_upper`

Models core/strings.rs:12-31 with the functions of the Rust standard library it calls.
-/
namespace Cordy.Trim
open Cordy.Op

/-- The error of these functions, `TypeErrorArgMustBeStr`. -/
inductive Error where
  | argStr
  deriving DecidableEq, Repr

/-- `char::is_whitespace`: the characters with the Unicode property White_Space -/
def white (c : Char) : Bool :=
  let n := c.toNat
  (9 ≤ n && n ≤ 13) || n = 32 || n = 0x85 || n = 0xA0 || n = 0x1680 || (0x2000 ≤ n && n ≤ 0x200A) || n = 0x2028 || n = 0x2029 || n = 0x202F || n = 0x205F || n = 0x3000

/-- `str::trim` -/
def trimChars (s : List Char) : List Char := ((s.dropWhile white).reverse.dropWhile white).reverse

/-- models: core/strings.rs:26-31 `trim` -/
def trim : Val → Except Error Val
  | .str s => .ok (.str (trimChars s))
  | _ => .error .argStr

/-- `char::to_lowercase` on ASCII -/
def lowerChar (c : Char) : Char := if 65 ≤ c.toNat ∧ c.toNat ≤ 90 then Char.ofNat (c.toNat + 32) else c
/-- `char::to_uppercase` on ASCII -/
def upperChar (c : Char) : Char := if 97 ≤ c.toNat ∧ c.toNat ≤ 122 then Char.ofNat (c.toNat - 32) else c

/-- models: core/strings.rs:12-17 `to_lower`. Simplified: `rest` stands for the Unicode tables, which are used as soon as there is a character that is not ASCII. -/
def toLower (rest : List Char → List Char) : Val → Except Error Val
  | .str s => .ok (.str (if s.all (fun c => c.toNat < 128) then s.map lowerChar else rest s))
  | _ => .error .argStr

/-- models: core/strings.rs:19-24 `to_upper`. Simplified as `toLower`. -/
def toUpper (rest : List Char → List Char) : Val → Except Error Val
  | .str s => .ok (.str (if s.all (fun c => c.toNat < 128) then s.map upperChar else rest s))
  | _ => .error .argStr

end Cordy.Trim
