import Verif.Spec.FullCCValue
import Verif.Spec.Fock

/-!
# The terms of `H e^T`

`H e^T` applied to the vibrational ground state is the sum over all ways to contract the annihilation operators of a
term of the Hamiltonian with the amplitudes of the cluster operator (Wick's theorem).
-/

namespace TF.Spec.Wick

open TF.Spec TF.Spec.Tensor TF.Spec.Fock TF.Spec.CCRun
open TF.CC (T)

/-- The terms `h^m_n` of a Hamiltonian of the given rank. -/
def hamiltonianOf (rank : Nat) : Finset (Nat × Nat) := (Finset.range (rank + 1) ×ˢ Finset.range (rank + 1)).filter fun o => o.1 + o.2 ≤ rank

/-- The number of ways to permute equal letters. -/
def repeats {α : Type} [DecidableEq α] (l : List α) : Nat := ∏ x ∈ l.toFinset, (l.count x).factorial

/-- The product of the factorials of the numbers of modes every amplitude shares with the Hamiltonian and with the projection operator. -/
def blockFactorials (ts : List T) : Nat := (ts.map fun x => x.m_h.factorial * x.m_o.factorial).prod

variable {R : Type} [CommRing R]

/-- `h^I_K` does not depend on the order of the `n` modes `K`. -/
def LowerSymmetric (m n : Nat) (h : Arr R) : Prop :=
  ∀ a b : Nat, ∀ K K' I : List Nat, K.length = n → I.length = m → K.Perm K' → h (a :: b :: (K ++ I)) = h (a :: b :: (K' ++ I))

variable [Algebra Rat R]

/-- The term `h^m_n` contracted with amplitudes in the given order, with `k` modes left: the first `m` of the modes left are those of
the Hamiltonian, the others those of the amplitudes. -/
noncomputable def ordered (A N : Nat) (h : Arr R) (t : Nat × Nat → Arr R) (m n k : Nat) (xs : List T) : Matrix (Fin A) (Fin A) (MvPolynomial (Fin N) R) :=
  (1 / ((xs.length.factorial * m.factorial * blockFactorials xs : Nat) : Rat)) • ∑ v : Fin k → Fin N, ∑ K : Fin n → Fin N,
    create (R := R) v • (mat A h (modes K ++ (modes v).take m) * (amps A t xs (modes K) ((modes v).drop m)).prod).map MvPolynomial.C

/-- The same for amplitudes in any order: every different order once. -/
noncomputable def contribution (A N : Nat) (h : Arr R) (t : Nat × Nat → Arr R) (m n k : Nat) (ts : List T) : Matrix (Fin A) (Fin A) (MvPolynomial (Fin N) R) :=
  ∑ xs ∈ ts.permutations.toFinset, ordered A N h t m n k xs

/-- The factor with which a term enters the function of a generated full-CC module; `x!/(m! n! j!)` is what is written, the other factors are
from the sum over all orders and from the number of copies of a term with one amplitude. -/
def factor (n k : Nat) (ts : List T) : Rat :=
  (((distinctTouching ts).factorial * blockFactorials ts * repeats ts * (if ts.length = 1 then k.factorial else 1) : Nat) : Rat) / ((n.factorial * k.factorial : Nat) : Rat)

end TF.Spec.Wick
