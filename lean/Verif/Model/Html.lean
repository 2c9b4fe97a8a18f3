import Verif.Model.Syntax
/-!
# Rendering highlighted code

Models the two formatters that the highlighter of `syntax.rs` (`Model/Syntax.lean`) is used with: `RenderedFormatter` of `cordy/src/main.rs` (an HTML page,
`cordy --format`) and `TerminalFormatter` of `cordy-web/src/lib.rs` (the markup of the terminal in the web page).
-/
namespace Cordy.Html
open Cordy.Syntax

/-- models: main.rs:238-248: the class names -/
def className : Ty → List Char
  | .keyword => "keyword".toList
  | .constant => "constant".toList
  | .native => "native".toList
  | .type => "type".toList
  | .number => "number".toList
  | .string => "string".toList
  | .syntax => "syntax".toList
  | .blank => []
  | .comment => "comment".toList

def spanOpen : List Char := "<span class=\"cordy-".toList
def spanEnd : List Char := "\">".toList
def spanClose : List Char := "</span>".toList

/-- models: main.rs:259-270 `push`: a character of the text; a tab is four spaces -/
def pushChar (c : Char) : List Char :=
  if c = '\r' then []
  else if c = '\t' then [' ', ' ', ' ', ' ']
  else if c = '<' then "&lt;".toList
  else if c = '>' then "&gt;".toList
  else if c = '"' then "&quot;".toList
  else if c = '\'' then "&#39;".toList
  else if c = '&' then "&amp;".toList
  else [c]

/-- models: main.rs:234-271 `RenderedFormatter`: what one call appends to `inner`; `skip` are the classes of `--format-no=` -/
def renderEv (skip : List Ty) : Ev → List Char
  | .begin t => if t ≠ .blank ∧ t ∉ skip then spanOpen ++ className t ++ spanEnd else []
  | .fin t => if t ∉ skip then spanClose else []
  | .push c => pushChar c

def render (skip : List Ty) (es : List Ev) : List Char := es.flatMap (renderEv skip)

def pageOpen : List Char := "<code class=\"cordy\"><pre>".toList
def pageClose : List Char := "</pre></code>".toList

/-- models: main.rs:154-163 `run_main` with `--format`: the line with the code (the `<style>` before it is constant) -/
def page (find : List Char → Option Bool) (skip : List Ty) (input : List Char) : Option (List Char) :=
  (highlight find input []).map fun es => pageOpen ++ render skip (blocking none es) ++ pageClose

/-! ## The terminal of the web page -/

/-- models: cordy-web/src/lib.rs:92-102 `begin` -/
def termOpen : Ty → List Char
  | .keyword => "[[b;#b5f;]".toList
  | .constant => "[[b;#27f;]".toList
  | .native => "[[;#b80;]".toList
  | .type => "[[;#2aa;]".toList
  | .number => "[[;#385;]".toList
  | .string => "[[;#b10;]".toList
  | .comment => "[[;#aaa;]".toList
  | _ => []

/-- models: lib.rs:104-110 `end` -/
def termClose : Ty → List Char
  | .syntax => []
  | .blank => []
  | _ => [']']

/-- models: lib.rs:112-119 `push` -/
def termChar (c : Char) : List Char :=
  if c = '[' then "&#91;".toList
  else if c = '\\' then "&#92;".toList
  else if c = ']' then "&#93;".toList
  else [c]

def termEv : Ev → List Char
  | .begin t => termOpen t
  | .fin t => termClose t
  | .push c => termChar c

def termRender (es : List Ev) : List Char := es.flatMap termEv

/-- models: lib.rs:44-52 `scan` -/
def terminal (find : List Char → Option Bool) (input pre : List Char) : Option (List Char) :=
  (highlight find input pre).map fun es => termRender (blocking none es)

end Cordy.Html
