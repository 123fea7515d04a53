import Verif.Spec.DtValue
import Mathlib.Algebra.MvPolynomial.PDeriv
import Mathlib.RingTheory.MvPolynomial.Homogeneous

/-!
# States and operators of the vibrational modes

A creation operator is multiplication by a variable, an annihilation operator the derivative with respect to it; a
state is a polynomial in the creation operators, with an electronic matrix of coefficients.
-/

namespace TF.Spec.Fock

open TF.Spec.Tensor

variable {R : Type} [CommRing R]

/-- Product of creation operators. -/
noncomputable def create {N m : Nat} (I : Fin m → Fin N) : MvPolynomial (Fin N) R := ∏ i, MvPolynomial.X (I i)

/-- Product of annihilation operators. -/
noncomputable def annihilate {N n : Nat} (K : Fin n → Fin N) (p : MvPolynomial (Fin N) R) : MvPolynomial (Fin N) R :=
  (List.ofFn K).foldr (fun i p => MvPolynomial.pderiv i p) p

/-- The modes as indices of an array. -/
def modes {N k : Nat} (v : Fin k → Fin N) : List Nat := List.ofFn fun i => (v i).val

variable [Algebra Rat R]

/-- The state with `k` modes whose coefficients are the entries of an array: `1/k! sum_v x_v a+_v`. -/
noncomputable def state (A N k : Nat) (x : Arr R) : Matrix (Fin A) (Fin A) (MvPolynomial (Fin N) R) :=
  (1 / (k.factorial : Rat)) • ∑ v : Fin k → Fin N, create (R := R) v • (mat A x (modes v)).map MvPolynomial.C

/-- `1/(m! n!) sum_(I,K) h^I_K a+_I a_K` applied to a state. -/
noncomputable def term (A N m n : Nat) (h : Arr R) (Ψ : Matrix (Fin A) (Fin A) (MvPolynomial (Fin N) R)) : Matrix (Fin A) (Fin A) (MvPolynomial (Fin N) R) :=
  (1 / ((m.factorial * n.factorial : Nat) : Rat)) • ∑ I : Fin m → Fin N, ∑ K : Fin n → Fin N,
    create (R := R) I • ((mat A h (modes K ++ modes I)).map MvPolynomial.C * Ψ.map (annihilate K))

/-- The Hamiltonian with the given terms, applied to a state. -/
noncomputable def hamiltonian (A N : Nat) (terms : Finset (Nat × Nat)) (h : Nat × Nat → Arr R) (Ψ : Matrix (Fin A) (Fin A) (MvPolynomial (Fin N) R)) :
    Matrix (Fin A) (Fin A) (MvPolynomial (Fin N) R) :=
  ∑ o ∈ terms, term A N o.1 o.2 (h o) Ψ

/-- The part of a state with `k` modes. -/
noncomputable def part {A N : Nat} (k : Nat) (Ψ : Matrix (Fin A) (Fin A) (MvPolynomial (Fin N) R)) : Matrix (Fin A) (Fin A) (MvPolynomial (Fin N) R) :=
  Ψ.map (MvPolynomial.homogeneousComponent k)

/-- The cluster operator: the amplitudes of the given orders. -/
noncomputable def cluster (A N : Nat) (orders : Finset Nat) (t : Nat → Arr R) : Matrix (Fin A) (Fin A) (MvPolynomial (Fin N) R) :=
  ∑ j ∈ orders, state A N j (t j)

/-- The exponential series up to order `M`. -/
noncomputable def expUpTo {A N : Nat} (M : Nat) (T : Matrix (Fin A) (Fin A) (MvPolynomial (Fin N) R)) : Matrix (Fin A) (Fin A) (MvPolynomial (Fin N) R) :=
  ∑ m ∈ Finset.range (M + 1), (1 / (m.factorial : Rat)) • T ^ m

/-- The terms of the exponential series of `T1 + T2` with at most one factor `T2`. -/
noncomputable def expMixed {A N : Nat} (M : Nat) (T1 T2 : Matrix (Fin A) (Fin A) (MvPolynomial (Fin N) R)) : Matrix (Fin A) (Fin A) (MvPolynomial (Fin N) R) :=
  ∑ m ∈ Finset.range (M + 1), (1 / (m.factorial : Rat)) • (T1 ^ m + ∑ i ∈ Finset.range m, T1 ^ i * T2 * T1 ^ (m - 1 - i))

end TF.Spec.Fock
