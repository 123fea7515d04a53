import Verif.Spec.W
import Verif.Spec.Tensor
import Mathlib.Algebra.Algebra.Rat

/-! # The arrays computed by the generated W functions -/

namespace TF.Spec.W

open TF.W TF.Spec.Tensor

variable {R : Type} [CommRing R] [Algebra Rat R]

/-- The array computed by an einsum of a W function; `t n` is the amplitude of order `n`. -/
def einsumValue (A N : Nat) (t : Nat → Arr R) (e : Einsum) : Arr R := einsum A N (e.subs.zip (e.ts.map t)) e.out

/-- The array to which the executed statements `W += 1/.. * (..)` were added, starting from zeros. -/
def added (A N : Nat) (t : Nat → Arr R) (ds : List (Done Einsum)) : Arr R := fun v =>
  (ds.map fun d => overFactorials d.pref •
    ((d.direct.toList.map fun n => t n v).sum + (d.items.map fun e => einsumValue A N t e v).sum)).sum

/-- The value a function returns: `symmetrize_tensor` sums over all permutations of the modes. -/
def returned (f : WFunction) (x : Arr R) : Arr R :=
  match f.sym with
  | none => x
  | some k => symSum k x

/-- The products of amplitudes of the orders `s`, in this sequence, are part of the W operator: by the
ansatz (only the single amplitude; one amplitude times singles; everything) and by the truncation (the
largest amplitude is included, singles always are). -/
structure Enters (env : Env) (s : List Nat) : Prop where
  pos : ∀ x ∈ s, 1 ≤ x
  ansatz : s.length = 1 ∨ (env.mixed = true ∧ AtMostOneBig s) ∨ (env.mixed = false ∧ env.cc = true)
  truncation : ∀ x ∈ s, (∀ y ∈ s, y ≤ x) → x = 1 ∨ env.fl x = true

end TF.Spec.W
