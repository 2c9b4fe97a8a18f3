import Verif.Model.Functional
import Verif.Model.Operator
/-!
# `sum` and `concat`
-/
namespace Cordy.Sums
open Cordy.Op Cordy.Repr

/-- models: core/collections.rs:151-157 `sum`: the loop with its variable of 64 bits; the error is `TypeErrorArgMustBeInt` with the value -/
def sumLoop : I64 → List Val → Except Val I64
  | acc, [] => .ok acc
  | acc, v :: vs =>
    match intOf v with
    | some i => sumLoop (acc + i) vs
    | none => .error v

/-- models: core/collections.rs:151-157 `sum` -/
def sum (vs : List Val) : Except Val Val :=
  match sumLoop 0 vs with
  | .ok i => .ok (boxI i)
  | .error v => .error v

variable {σ α γ : Type}

/-- models: core/collections.rs:378-395 `flat_map` without a function, as `concat` calls it (core/mod.rs:905) -/
def concat (items : γ → σ → Res (List α)) (get : σ → Nat → Option γ) (fuel : Nat) (s : σ) : Option (Res (List α) × σ) :=
  Fun.finish (ρ := List α) id (Fun.forLoop get (fun acc x s =>
    match items x s with
    | .ok es => (.ok (.inl (acc ++ es)), s)
    | .error e => (.error e, s)) fuel [] 0 s)

end Cordy.Sums
