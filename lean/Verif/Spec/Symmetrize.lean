import Verif.Model.Symmetrize
import Verif.Spec.Tensor

/-! # Running the written `symmetrize_tensor` -/

namespace TF.Spec.Sym

open TF.Sym TF.Spec.Tensor

/-- The value returned for `order = k`. -/
def run {R : Type} [CommRing R] (f : SymFn) (k : Nat) (x : Arr R) : Arr R :=
  if k ∈ f.same then x
  else fun v => (f.blocks.map fun b => if b.1 = k then (b.2.map fun axes => transpose axes x v).sum else 0).sum

/-- A call is accepted by Python if every positional argument has a parameter and every keyword names a
parameter that has no value yet, and all parameters get a value; otherwise `TypeError`. -/
def accepts (params : List String) (positional : Nat) (keywords : List String) : Prop :=
  positional ≤ params.length ∧ keywords.Nodup ∧ (∀ k ∈ keywords, k ∈ params.drop positional) ∧
    positional + keywords.length = params.length

end TF.Spec.Sym
