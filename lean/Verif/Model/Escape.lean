/-!
# Escapes in patterns

Models core/strings.rs:113-125 `escape_regex`, which prepares the text of every pattern of `search`, `replace` and `split`.
-/
namespace Cordy.Escape

/-- models: core/strings.rs:117-122: the text for one character -/
def escapeChar (c : Char) : List Char :=
  if c = '\t' then ['\\', 't'] else if c = '\r' then ['\\', 'r'] else if c = '\n' then ['\\', 'n'] else [c]

/-- models: core/strings.rs:114-125 `escape_regex` -/
def escape : List Char → List Char
  | [] => []
  | c :: cs => escapeChar c ++ escape cs

end Cordy.Escape
