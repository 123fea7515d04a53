import Verif.Spec.ETRun
import Verif.Spec.Tensor
import Verif.Spec.Fock

/-!
# Arrays returned by the functions of a generated e^T module, and the operators they stand for

On the right-hand side h is an electronic matrix, z an electronic vector and t a number for every mode; on the left-hand
side dT is a number as well.
-/

namespace TF.Spec.ETValue

open TF.Spec.Tensor TF.Spec.Fock MvPolynomial
open TF.ETPy (Einsum Operand)

variable {R : Type} [CommRing R]

/-- The number of electronic axes of an argument; they are the first axes. -/
def electronic (name : String) : Nat :=
  if name = "h_args" then 2 else if name = "z_args" ∨ name = "dz_args" then 1 else 0

/-- The length of the axis a letter stands for; `ops` are the numbers of electronic axes and the letters of the operands. -/
def axis (A N : Nat) (ops : List (Nat × List Char)) (c : Char) : Nat :=
  if c ∈ ops.flatMap (fun o => o.2.take o.1) then A else N

/-- `np.einsum('s1, s2, .. -> out', x1, x2, ..)`: entry `v` of the result is the sum over all letters that are not in `out` of the
product of the entries of the operands.  The operand `name[(m, n)]` is `args name (m, n)`. -/
def einsum (A N : Nat) (args : String → Nat × Nat → Arr R) (e : Einsum) : Arr R := fun v =>
  sumOver (axis A N (List.zipWith (fun o s => (electronic o.name, s)) e.operands e.subs))
    (e.subs.flatten.filter fun c => decide (c ∉ e.out)).dedup (fun c => v.getD (e.out.idxOf c) 0)
    fun σ => (List.zipWith (fun (o : Operand) (s : List Char) => args o.name (o.m, o.n) (s.map σ)) e.operands e.subs).prod

variable [Algebra Rat R]

/-- The array a function returns: `np.zeros(...)`, then `R += pref * np.einsum(...)` for each product. -/
def returned (A N : Nat) (args : String → Nat × Nat → Arr R) (r : List (Rat × Einsum)) : Arr R := fun v =>
  (r.map fun x => x.1 • einsum A N args x.2 v).sum

/-- The array does not change when its `k` modes are permuted; it has `q` electronic axes. -/
def ModesSymmetric (q k : Nat) (x : Arr R) : Prop :=
  ∀ e l l' : List Nat, e.length = q → l.length = k → l.Perm l' → x (e ++ l) = x (e ++ l')

/-- A state with `A` electronic components. -/
abbrev Ket (R : Type) [CommRing R] (A N : Nat) := Fin A → MvPolynomial (Fin N) R

/-- `sum_v x_v a+_v`. -/
noncomputable def sumModes (A N k : Nat) (x : Arr R) : Ket R A N := fun a => ∑ v : Fin k → Fin N, create v * C (x (a.val :: modes v))

/-- `1/k! sum_v z_v a+_v`. -/
noncomputable def ket (A N k : Nat) (z : Arr R) : Ket R A N := (1 / (k.factorial : Rat)) • sumModes A N k z

/-- `Z`: the states of the given orders. -/
noncomputable def kets (A N : Nat) (orders : Finset Nat) (z : Nat × Nat → Arr R) : Ket R A N := ∑ k ∈ orders, ket A N k (z (k, 0))

/-- `1/(m! n!) sum_(I,K) h^I_K a+_I a_K` applied to a state. -/
noncomputable def term (A N m n : Nat) (h : Arr R) (Ψ : Ket R A N) : Ket R A N := fun a =>
  (1 / ((m.factorial * n.factorial : Nat) : Rat)) • ∑ I : Fin m → Fin N, ∑ K : Fin n → Fin N, ∑ b : Fin A,
    create I * C (h (a.val :: b.val :: (modes I ++ modes K))) * annihilate K (Ψ b)

/-- The Hamiltonian with the given terms, applied to a state. -/
noncomputable def hamiltonian (A N : Nat) (terms : Finset (Nat × Nat)) (h : Nat × Nat → Arr R) (Ψ : Ket R A N) : Ket R A N :=
  ∑ o ∈ terms, term A N o.1 o.2 (h o) Ψ

/-- `1/m! sum_I x_I a+_I`, without electronic part. -/
noncomputable def raising (N m : Nat) (x : Arr R) : MvPolynomial (Fin N) R := (1 / (m.factorial : Rat)) • ∑ I : Fin m → Fin N, create I * C (x (modes I))

/-- `sum_i t_i a_i`. -/
noncomputable def lowering {N : Nat} (t : Arr R) (p : MvPolynomial (Fin N) R) : MvPolynomial (Fin N) R := ∑ i : Fin N, C (t [i.val]) * pderiv i p

/-- The exponential series of `sum_i t_i a_i` up to order `K`. -/
noncomputable def expLowering {N : Nat} (K : Nat) (t : Arr R) (p : MvPolynomial (Fin N) R) : MvPolynomial (Fin N) R :=
  ∑ k ∈ Finset.range (K + 1), (1 / (k.factorial : Rat)) • (lowering t)^[k] p

/-- The terms of the Hamiltonian of the e^T equations: `h^m_n` with `m + n` up to the truncation, and no creation operators from rank 3 on. -/
def terms (hMax : Nat) : Finset (Nat × Nat) :=
  (Finset.range (hMax + 1) ×ˢ Finset.range (hMax + 1)).filter fun o => o.1 + o.2 ≤ hMax ∧ (o.1 + o.2 < 3 ∨ o.1 = 0)

/-- The terms of the Hamiltonian the truncation object asks for. -/
def askedTerms (hMax : Nat) (env : ETRun.Caller) : Finset (Nat × Nat) := (terms hMax).filter fun o => max o.1 o.2 = 0 ∨ env.h (max o.1 o.2) = true

/-- The orders of z the truncation object asks for. -/
def askedOrders (cc : Nat) (env : ETRun.Caller) : Finset Nat := (Finset.range (cc + 1)).filter fun m => m = 0 ∨ env.z m = true

/-- The highest order of the exponential series the truncation object asks for. -/
def askedTaylor (K : Nat) (env : ETRun.Caller) : Nat := if env.t 1 = true then K else 0

/-- The orders of dT on the left-hand side the truncation object asks for; there are none above two. -/
def askedDT (hMax : Nat) (env : ETRun.Caller) : Finset Nat := (Finset.range (hMax + 1)).filter fun m => 1 ≤ m ∧ m ≤ 2 ∧ env.h m = true

end TF.Spec.ETValue
