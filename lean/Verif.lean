import Verif.Props.Repr
import Verif.Props.Arith
import Verif.Props.Value
import Verif.Props.Range
import Verif.Props.Collections
import Verif.Props.Functional
import Verif.Props.Combin
import Verif.Props.Sort
import Verif.Props.Operator
import Verif.Props.Strings
import Verif.Props.Text
import Verif.Props.Format
import Verif.Props.Scanner
import Verif.Props.Graph
import Verif.Props.Peephole
import Verif.Props.Closures
import Verif.Props.Syntax
import Verif.Props.SyntaxClasses
import Verif.Props.Reporting
import Verif.Props.Decls
import Verif.Props.Repl
import Verif.Props.Codegen
import Verif.Props.ExprOpt
import Verif.Props.Natives
import Verif.Props.Calls
import Verif.Props.Grammar
import Verif.Props.Memo
import Verif.Props.Refs
import Verif.Props.Pattern
import Verif.Props.Resolve
import Verif.Props.Objects
import Verif.Props.ParseInt
import Verif.Props.ScannerWords
import Verif.Props.Stmt
import Verif.Props.LateBinding
import Verif.Props.Layout
import Verif.Props.Html
import Verif.Props.Ffi
import Verif.Props.Cli
import Verif.Props.Parser
import Verif.Props.Continuation
import Verif.Props.Iter
import Verif.Props.Full
import Verif.Props.Typeof
import Verif.Props.Program
import Verif.Props.Search
import Verif.Props.Io
import Verif.Props.Session
import Verif.Props.Source
import Verif.Props.SourceStmt
import Verif.Props.SourceFn
import Verif.Props.Rational
import Verif.Props.Trim
import Verif.Props.Escape
import Verif.Props.Sum
import Verif.Props.Literal
import Verif.Props.Listing
import Verif.Props.StrRepr
import Verif.Props.Truth
