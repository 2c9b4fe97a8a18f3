import Verif.Model.Value
/-! # Runtime errors

Models `vm/error.rs:9-82`: the variants used by the model, without the payloads that only affect the message.
`panic` stands for a Rust panic (process abort), which no `RuntimeError` describes. -/
namespace Cordy

/-- models: error.rs:9-82 -/
inductive Err where
  | exit | yield_ | assertFailed
  | notEvaluable
  | incorrectArgs
  | indexOutOfBounds | stepZero | tooLarge | notDeclaredYet
  | mustBeNonNegative | argMustBeNonNegative | mustBePositive | opMustNotBeNegative
  | powNegative | divZero | modZero | nonEmpty
  | badInt | unpackGreater | unpackEqual | cannotCollectDict | keyNotPresent | badOrdinal
  | badFormatChar | formatUnused | formatMissing | evalUnit | recursiveHash
  | typeUnary | typeBinary | typeIs | fieldNotPresent
  | argInt | argIntOrStr | argComplex | argStr | argChar | argIterable | argIndexable | argSliceable
  | argList | argSet | argDict | argFunction | argCmpOrKey
  | panic
  | user (n : Nat)
  deriving DecidableEq, Repr

/-- Results of fallible runtime functions (`ErrorResult`, `ValueResult`). -/
abbrev Res (α : Type) := Except Err α

end Cordy
