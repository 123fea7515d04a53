import Verif.Spec.FullCCRun
import Verif.Spec.Tensor
import Mathlib.Algebra.Algebra.Rat
import Mathlib.Data.List.Permutation

/-!
# The arrays computed by the functions of a generated full-CC module

`Spec/FullCCRun.lean` gives the additions to `R` a function performs; here they are evaluated.
-/

namespace TF.Spec.CCRun

open TF.Py TF.CC TF.Spec TF.Spec.Tensor

/-! ## The text of a prefactor -/

/-- A product of factorials as it is written: `1`, or `(factorial(2) * factorial(3))`. -/
def productText (l : List Nat) : String :=
  if l = [] then "1" else "(" ++ " * ".intercalate (l.map fun k => "factorial(" ++ toString k ++ ")") ++ ")"

/-- The text before the bracket of `R += text(einsum + einsum + ...)` stands for the factor `q`: it is empty and
`q = 1`, or it is a quotient of two products of factorials, then a `*`. -/
def Means (s : String) (q : Rat) : Prop :=
  (s = "" ∧ q = 1) ∨
  ∃ num den : List Nat, s = productText num ++ "/" ++ productText den ++ " * " ∧
    q = ((num.map Nat.factorial).prod : Rat) / ((den.map Nat.factorial).prod : Rat)

/-- The factor a text stands for (there is at most one: `means_unique`). -/
noncomputable def textValue (s : String) : Rat := Classical.epsilon (Means s)

/-! ## Arrays -/

variable {R : Type} [CommRing R] [Algebra Rat R]

/-- `np.einsum('.., .. -> ab..', h_args[..], t_args[..], ..)` -/
def itemValue (A N : Nat) (h t : Nat × Nat → Arr R) (e : Einsum) : Arr R :=
  einsum A N (e.subs.zip (h e.h :: e.ts.map t)) (['a', 'b'] ++ e.out)

/-- The array added to `R`. -/
noncomputable def addedValue (A N : Nat) (h t : Nat × Nat → Arr R) : Added Einsum → Arr R
  | .h key => h key
  | .sum pref items => fun v => textValue pref • (items.map fun e => itemValue A N h t e v).sum

/-- The array returned: `R` starts as zeros. -/
noncomputable def returned (A N : Nat) (h t : Nat × Nat → Arr R) (r : List (Added Einsum)) : Arr R := fun v =>
  (r.map fun a => addedValue A N h t a v).sum

/-! ## The value of a term -/

/-- The electronic matrices of the amplitudes `ts` of a ground-state term, in the order of `ts`: every amplitude takes the next `m_h` of the
modes `K` it shares with the Hamiltonian and the next `m_o` of the modes `I` it shares with the projection operator. -/
def amps (A : Nat) (t : Nat × Nat → Arr R) : List T → List Nat → List Nat → List (Matrix (Fin A) (Fin A) R)
  | [], _, _ => []
  | x :: ts, K, I => mat A (t (x.m_h + x.m_o, 0)) (K.take x.m_h ++ I.take x.m_o) :: amps A t ts (K.drop x.m_h) (I.drop x.m_o)

/-- What is computed for a ground-state term with the Hamiltonian `h^m_n` and the amplitudes `ts`, for the modes `v` of the
projection operator: the first `m` of them are on the Hamiltonian, `n` modes are summed over.  With `k >= 2` amplitudes it is
`x!/(m! n! k!)` times the sum of the products of the matrices over all `k!` orders of the amplitudes, where `x` is the number of
different amplitudes that touch the Hamiltonian; with one amplitude it is the one product, multiplied by `r!`, `r` the number of modes `v`. -/
def termValue (A N : Nat) (h : Arr R) (t : Nat × Nat → Arr R) (m n : Nat) (ts : List T) (v : List Nat) : Matrix (Fin A) (Fin A) R :=
  (((distinctTouching ts).factorial : Rat) / (m.factorial * n.factorial * ts.length.factorial)) •
    ((if ts.length = 1 then v.length.factorial else 1) • ∑ K : Fin n → Fin N,
      mat A h (List.ofFn (fun i => (K i).val) ++ v.take m) *
        ((amps A t ts (List.ofFn fun i => (K i).val) (v.drop m)).permutations.map List.prod).sum)

end TF.Spec.CCRun
