import Verif.Spec.Zhz
import Verif.Spec.ETValue

/-!
# Reading a printed z_t equation as an operator

h is an electronic matrix, z an electronic vector; superscripts are creation operators, subscripts annihilation operators.
-/

namespace TF.Spec.ZhzValue

open TF.Zhz TF.Spec.Zhz TF.Spec.Tensor TF.Spec.Fock TF.Spec.ETValue MvPolynomial

variable {R : Type} [CommRing R] {N : Nat}

/-- The creation operator of mode `i`. -/
noncomputable def up (N i : Nat) : MvPolynomial (Fin N) R := if h : i < N then X ⟨i, h⟩ else 0

/-- The annihilation operator of mode `i`. -/
noncomputable def down (i : Nat) (p : MvPolynomial (Fin N) R) : MvPolynomial (Fin N) R := if h : i < N then pderiv ⟨i, h⟩ p else 0

/-- The superscripts of a factor (a factor of rank 0 has none). -/
def upperOf : Option Lab → List Char
  | none => []
  | some l => letters l.upper

/-- The subscripts of a factor. -/
def lowerOf : Option Lab → List Char
  | none => []
  | some l => letters l.lower

/-- The letters of a term that are not summation letters, in superscripts (`true`) or subscripts (`false`). -/
def free (upper : Bool) (t : PTerm) : List Char :=
  ((occurrences t).filter fun o => o.upper == upper && decide (o.letter ∉ zSummation)).map Occ.letter

/-- The entry of a tensor with these superscripts and subscripts; `e` are the electronic indices. -/
def entry (x : Nat × Nat → Arr R) (e : List Nat) (σ : Char → Nat) (l : Option Lab) : R :=
  x ((upperOf l).length, (lowerOf l).length) (e ++ ((upperOf l).map σ ++ (lowerOf l).map σ))

variable [Algebra Rat R]

/-- The operator a printed term `f^.. fbar^.. pref h^.._.. z^.._..` stands for: all letters run over the modes, a free superscript comes with a creation
operator and a free subscript with an annihilation operator. -/
noncomputable def operator (A : Nat) (f fbar : R) (h z : Nat × Nat → Arr R) (t : PTerm) (p : MvPolynomial (Fin N) R) : Ket R A N := fun a =>
  ((t.pref.map prefValue).getD 1) • sumOver (fun _ => N) ((occurrences t).map Occ.letter).dedup (fun _ => 0) fun σ =>
    ((free true t).map fun c => up N (σ c)).prod *
      C (f ^ t.f * fbar ^ t.fbar * ∑ b : Fin A, entry h [a.val, b.val] σ t.h * (match t.right with | none => 1 | some l => entry z [b.val] σ l)) *
      (free false t).foldr (fun c p => down (σ c) p) p

/-- The operator of a sum of printed terms. -/
noncomputable def total (A : Nat) (f fbar : R) (h z : Nat × Nat → Arr R) (ts : List PTerm) (p : MvPolynomial (Fin N) R) : Ket R A N :=
  (ts.map fun t => operator A f fbar h z t p).sum

omit [Algebra Rat R] in
/-- `sum_(v,w) x_(v,w) a+_v a_w` with `n` creation and `m` annihilation operators. -/
noncomputable def normal (A n m : Nat) (x : Arr R) (p : MvPolynomial (Fin N) R) : Ket R A N := fun a =>
  ∑ v : Fin n → Fin N, ∑ w : Fin m → Fin N, create v * C (x (a.val :: (modes v ++ modes w))) * annihilate w p

/-- The arrays of h do not change when their superscripts or their subscripts are permuted, those of z when their superscripts are permuted. -/
structure Symmetric (h z : Nat × Nat → Arr R) : Prop where
  h : ∀ m n : Nat, ∀ e u u' l l' : List Nat, e.length = 2 → u.length = m → l.length = n → u.Perm u' → l.Perm l' →
    h (m, n) (e ++ (u ++ l)) = h (m, n) (e ++ (u' ++ l'))
  z : ∀ m, ModesSymmetric 1 m (z (m, 0))

end TF.Spec.ZhzValue
