import Verif.Spec.Dt
import Verif.Spec.Tensor
import Mathlib.Data.Finset.Powerset

/-! # The arrays computed by the generated residual and derivative functions -/

namespace TF.Spec.Dt

open TF.Dt TF.W TF.Spec.W TF.Spec.Tensor

variable {R : Type} [CommRing R] [Algebra Rat R]

/-- The array computed by an einsum of the derivative code. -/
def einsumValue (A N : Nat) (t dt : Nat → Arr R) (e : DEinsum) : Arr R :=
  einsum A N (e.subs.zip (e.ts.map fun o => if o.der then dt o.n else t o.n)) e.out

/-- The array the statements of the disconnected terms add up to. -/
def disconnected (A N : Nat) (t dt : Nat → Arr R) (ds : List (DBlock DEinsum)) : Arr R := fun v =>
  (ds.map fun d => overFactorials d.pref • (d.items.map fun e => einsumValue A N t dt e v).sum).sum

/-- The array added by a line of a residual function; `h (m, n)` is the array of the Hamiltonian term with
`m` upper and `n` lower labels. -/
def lineValue (A N : Nat) (h : Nat × Nat → Arr R) (w : Nat → Arr R) (l : TF.Residual.Line) : Arr R := fun v =>
  Residual.value l.pref • match l.product with
    | none => h l.h v
    | some (j, s1, s2, out) => einsum A N [(s1, h l.h), (s2, w j)] out v

/-- The array a residual function returns. -/
def residualValue (A N : Nat) (h : Nat × Nat → Arr R) (w : Nat → Arr R) (ls : List TF.Residual.Line) : Arr R := fun v =>
  (ls.map fun l => lineValue A N h w l v).sum

/-- The array returned by `solve_.._equations`. -/
def returned (A N : Nat) (h : Nat × Nat → Arr R) (t dt w : Nat → Arr R) (ε : Arr R) (r : Result DEinsum) : Arr R :=
  symSum r.sym fun v =>
    residualValue A N h w r.residual v
      - (1 / (r.epsilon.1.factorial : Rat)) • einsum A N (r.epsilon.2.2.subs.zip [w r.epsilon.2.1, ε]) r.epsilon.2.2.out v
      - disconnected A N t dt (r.linked ++ r.unlinked) v

/-! ## The equation of motion -/

/-- The modes with positions in `S`. -/
def pick {k : Nat} (v : Fin k → Nat) (S : Finset (Fin k)) : List Nat := ((List.finRange k).filter fun i => decide (i ∈ S)).map v

/-- W operators by order; that of order 0 is the identity. -/
def withIdentity (w : Nat → Arr R) (j : Nat) : Arr R :=
  if j = 0 then fun v => if v.getD 0 0 = v.getD 1 0 then 1 else 0 else w j

/-- The part with `k` modes of the product of the Hamiltonian term with `m` creation and `n` annihilation
operators and the W operator: `m` of the `k` modes are created by `h`, the others belong to W, and
the annihilators are contracted with further modes of W, which are summed over:
`1/n! sum_S sum_K h^S_K W_{K, S^c}`. -/
def hamW (A N : Nat) (h w : Arr R) (m n : Nat) {k : Nat} (v : Fin k → Nat) : Matrix (Fin A) (Fin A) R :=
  (1 / (n.factorial : Rat)) • ∑ S ∈ Finset.univ.powersetCard m, ∑ K : Fin n → Fin N,
    mat A h (List.ofFn (fun i => (K i).val) ++ pick v S) * mat A w (List.ofFn (fun i => (K i).val) ++ pick v Sᶜ)

/-- The array of a Hamiltonian term does not change when its `m` creation operators are permuted. -/
def UpperSymmetric (m n : Nat) (h : Arr R) : Prop :=
  ∀ a b : Nat, ∀ K I I' : List Nat, K.length = n → I.length = m → I.Perm I' → h (a :: b :: (K ++ I)) = h (a :: b :: (K ++ I'))

/-- The terms `h^m_n` of a Hamiltonian of the given rank: all of them, the quadratic ones other than `h^1_1` only if the truncation is quadratic. -/
def hamiltonianTerms (rank : Nat) (q : Bool) : Finset (Nat × Nat) :=
  (Finset.range (rank + 1) ×ˢ Finset.range (rank + 1)).filter fun o => o.1 + o.2 ≤ rank ∧ (o.1 + o.2 = 2 ∧ o ≠ (1, 1) → q = true)

end TF.Spec.Dt
