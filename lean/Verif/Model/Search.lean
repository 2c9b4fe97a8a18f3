import Verif.Model.Strings
/-!
# `search`, `replace` and `split` with regular expressions

Models core/strings.rs:34-93, 95-105, 118-165 and util.rs:24-43, over any regular expression engine.

The engine (crate fancy-regex 0.11.0, not in the repository) is a parameter: what it finds in the text from a position on. `iterN` is its iterator over matches, which `split` and `replace` use.
Positions are counted in characters, in the code in bytes. A replacement string is taken to have no `$` (with `$1` etc. it is expanded by the crate).
-/
namespace Cordy.Search

/-- A match: where it begins and ends, and where its groups do (a group need not take part in the match). -/
structure Match where
  start : Nat
  stop : Nat
  groups : List (Option (Nat × Nat))
  deriving DecidableEq

/-- models: the result of `captures_from_pos`: an error (too much backtracking), no match, or the leftmost match -/
inductive Found where
  | gaveUp
  | nothing
  | found (m : Match)

/-- A compiled pattern, with a text: what is found from a position on. -/
structure Regex where
  find : Nat → Found

/-- models: fancy-regex 0.11.0 `Matches::next`, collected: after an empty match it goes on one character later, and an empty match directly after a match is skipped. The matches, and whether it gave up after these. `none`: more steps are needed. -/
def iterN (R : Regex) (len : Nat) : Nat → Nat → Option Nat → Option (List Match × Bool)
  | 0, _, _ => none
  | n + 1, p, prev =>
    if p > len then some ([], false)
    else
      match R.find p with
      | .gaveUp => some ([], true)
      | .nothing => some ([], false)
      | .found m =>
        if m.start = m.stop then
          if prev = some m.stop then iterN R len n (m.stop + 1) prev
          else (iterN R len n (m.stop + 1) (some m.stop)).map fun r => (m :: r.1, r.2)
        else (iterN R len n m.stop (some m.stop)).map fun r => (m :: r.1, r.2)

/-- models: core/strings.rs:58-76: the loop of `search`, from position `start` on. `.error`: the `unwrap` fails. `none`: more steps are needed. -/
def searchN (R : Regex) : Nat → Nat → Option (Except Unit (List Match))
  | 0, _ => none
  | n + 1, start =>
    match R.find start with
    | .gaveUp => some (.error ())
    | .nothing => some (.ok [])
    | .found m => if start = m.stop then some (.ok []) else (searchN R n m.stop).map fun r => r.map (m :: ·)

/-- A part of the text. -/
def part (text : List Char) (a b : Nat) : List Char := (text.drop a).take (b - a)

/-- What a function or program gets for a match: the text, or a vector of the text and the groups (`none`: nil). -/
inductive Result where
  | str (s : List Char)
  | vec (xs : List (Option (List Char)))
  deriving DecidableEq

/-- models: core/strings.rs:95-105 `as_result` -/
def asResult (text : List Char) (m : Match) : Result :=
  if m.groups.length + 1 = 1 then .str (part text m.start m.stop)
  else .vec (some (part text m.start m.stop) :: m.groups.map (fun g => g.map fun p => part text p.1 p.2))

/-- models: core/strings.rs:88-92, 142-165 `split` with `FancySplit`: if the engine gives up, the iteration ends there -/
def split (text : List Char) : List Match × Bool → List (List Char)
  | (ms, false) => Str.splitAt text 0 (ms.map fun m => (m.start, m.stop))
  | (ms, true) => (Str.splitAt text 0 (ms.map fun m => (m.start, m.stop))).take ms.length

variable {E S : Type}

/-- models: fancy-regex 0.11.0 `Regex::replacen`: what is between the matches is copied; `rep` gives the text for each match -/
def replaceLoop (rep : Match → S → List Char × S) (text : List Char) : List Match → Nat → S → List Char × S
  | [], last, s => (text.drop last, s)
  | m :: ms, last, s =>
    let r := rep m s
    let rest := replaceLoop rep text ms m.stop r.2
    (part text last m.start ++ (r.1 ++ rest.1), rest.2)

/-- models: core/strings.rs:47-51 `replace` with a string; `none`: the crate panics if the engine gives up -/
def replaceStr (new : List Char) (text : List Char) : List Match × Bool → Option (List Char)
  | (ms, false) => some (replaceLoop (S := Unit) (fun _ s => (new, s)) text ms 0 ()).1
  | (_, true) => none

/-- models: util.rs:24-34 `catch`, in the closure of `replace` (strings.rs:40-45): the text that the function gives; or no text, and the error is kept -/
def catchCall (f : Result → S → Except E (List Char) × S) (text : List Char) (m : Match) (st : Option E × S) : List Char × (Option E × S) :=
  match f (asResult text m) st.2 with
  | (.ok new, s) => (new, (st.1, s))
  | (.error e, s) => ([], (some e, s))

/-- models: core/strings.rs:37-46 and util.rs:36-43 `join`: `replace` with a function `f`, which changes the state. `none`: panic. -/
def replaceFn (f : Result → S → Except E (List Char) × S) (text : List Char) (s : S) : List Match × Bool → Option (Except E (List Char) × S)
  | (ms, false) =>
    match replaceLoop (catchCall f text) text ms 0 (none, s) with
    | (_, (some e, s)) => some (.error e, s)
    | (new, (none, s)) => some (.ok new, s)
  | (_, true) => none

end Cordy.Search
