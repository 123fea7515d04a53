import Verif.Spec.Fock
import Mathlib.RingTheory.MvPolynomial.EulerIdentity
import Mathlib.Data.Fin.Tuple.Basic

/-! # Sums of monomials with matrix coefficients -/

namespace TF.Fock

open TF.Spec.Tensor TF.Spec.Fock MvPolynomial

variable {R : Type} [CommRing R] {A N : Nat}

/-- Matrices of polynomials. -/
abbrev Op (R : Type) [CommRing R] (A N : Nat) := Matrix (Fin A) (Fin A) (MvPolynomial (Fin N) R)

/-- `sum_v F_v a+_v`. -/
noncomputable def series (N k : Nat) (F : List Nat → Matrix (Fin A) (Fin A) R) : Op R A N :=
  ∑ v : Fin k → Fin N, create (R := R) v • (F (modes v)).map C

theorem map_C_sum {ι : Type} (s : Finset ι) (f : ι → Matrix (Fin A) (Fin A) R) : (∑ i ∈ s, f i).map (C : R →+* MvPolynomial (Fin N) R) = ∑ i ∈ s, (f i).map C := by
  ext1 a b
  rw [Matrix.sum_apply, Matrix.map_apply, Matrix.sum_apply, map_sum]
  rfl

theorem series_zero (F : List Nat → Matrix (Fin A) (Fin A) R) : series N 0 F = (F []).map C := by
  unfold series
  rw [Fintype.sum_unique]
  simp [create, modes]

theorem series_succ (k : Nat) (F : List Nat → Matrix (Fin A) (Fin A) R) :
    series N (k + 1) F = ∑ i : Fin N, (X i : MvPolynomial (Fin N) R) • series N k (fun l => F (i.val :: l)) := by
  unfold series
  simp only [Finset.smul_sum]
  rw [← Fintype.sum_prod_type']
  refine (Fintype.sum_equiv (Fin.consEquiv fun _ : Fin (k + 1) => Fin N) _ _ fun p => ?_).symm
  obtain ⟨i, v⟩ := p
  simp only [create, modes, Fin.consEquiv, Equiv.coe_fn_mk, Fin.prod_univ_succ, Fin.cons_zero, Fin.cons_succ, List.ofFn_succ]
  rw [smul_smul]

theorem series_add (k : Nat) (F G : List Nat → Matrix (Fin A) (Fin A) R) : series N k (fun l => F l + G l) = series N k F + series N k G := by
  unfold series
  rw [← Finset.sum_add_distrib]
  refine Finset.sum_congr rfl fun v _ => ?_
  rw [← smul_add]
  congr 1
  ext1 a b
  simp

theorem series_sum {ι : Type} (s : Finset ι) (k : Nat) (F : ι → List Nat → Matrix (Fin A) (Fin A) R) :
    series N k (fun l => ∑ i ∈ s, F i l) = ∑ i ∈ s, series N k (F i) := by
  unfold series
  rw [Finset.sum_comm]
  refine Finset.sum_congr rfl fun v _ => ?_
  rw [map_C_sum, Finset.smul_sum]

theorem series_smul [Algebra Rat R] (k : Nat) (q : Rat) (F : List Nat → Matrix (Fin A) (Fin A) R) : series N k (fun l => q • F l) = q • series N k F := by
  unfold series
  rw [Finset.smul_sum]
  refine Finset.sum_congr rfl fun v _ => ?_
  rw [smul_comm]
  congr 1
  ext1 a b
  simp only [Matrix.map_apply, Matrix.smul_apply]
  rw [Algebra.smul_def, Algebra.smul_def, C_mul]
  rfl

theorem modes_length {k : Nat} (v : Fin k → Fin N) : (modes v).length = k := by simp [modes]

theorem series_congr {k : Nat} {F G : List Nat → Matrix (Fin A) (Fin A) R} (h : ∀ v : Fin k → Fin N, F (modes v) = G (modes v)) : series N k F = series N k G := by
  unfold series
  exact Finset.sum_congr rfl fun v _ => by rw [h v]

theorem map_C_mul (F G : Matrix (Fin A) (Fin A) R) : (F * G).map (C : R →+* MvPolynomial (Fin N) R) = F.map C * G.map C := Matrix.map_mul

theorem map_C_mul_series (k : Nat) (F : Matrix (Fin A) (Fin A) R) (G : List Nat → Matrix (Fin A) (Fin A) R) :
    F.map C * series N k G = series N k fun l => F * G l := by
  unfold series
  rw [Finset.mul_sum]
  refine Finset.sum_congr rfl fun v _ => ?_
  rw [Matrix.mul_smul, map_C_mul]

/-- The modes distributed over two factors in order. -/
theorem series_mul (m : Nat) : ∀ (j : Nat) (F G : List Nat → Matrix (Fin A) (Fin A) R),
    series N (m + j) (fun l => F (l.take m) * G (l.drop m)) = series N m F * series N j G := by
  induction m with
  | zero =>
    intro j F G
    rw [series_zero, Nat.zero_add, map_C_mul_series]
    rfl
  | succ m ih =>
    intro j F G
    rw [Nat.add_right_comm, series_succ, series_succ, Finset.sum_mul]
    refine Finset.sum_congr rfl fun i _ => ?_
    rw [Matrix.smul_mul]
    congr 1
    simp only [List.take_succ_cons, List.drop_succ_cons]
    exact ih j (fun l => F (i.val :: l)) G

/-- Permuting the modes does not change the sum. -/
theorem series_perm {k : Nat} (π : Equiv.Perm (Fin k)) (F G : List Nat → Matrix (Fin A) (Fin A) R)
    (h : ∀ v : Fin k → Fin N, G (modes v) = F (modes fun i => v (π i))) : series N k G = series N k F := by
  unfold series
  refine Fintype.sum_equiv (Equiv.arrowCongr π.symm (Equiv.refl _)) _ _ fun v => ?_
  have e : (Equiv.arrowCongr π.symm (Equiv.refl (Fin N))) v = fun i => v (π i) := by
    funext i; simp [Equiv.arrowCongr]
  rw [e, h]
  congr 1
  unfold create
  exact (Equiv.prod_comp π fun i => (X (v i) : MvPolynomial (Fin N) R)).symm

theorem create_homogeneous {k : Nat} (v : Fin k → Fin N) : (create (R := R) v).IsHomogeneous k := by
  unfold create
  have := IsHomogeneous.prod (R := R) Finset.univ (fun i : Fin k => (X (v i) : MvPolynomial (Fin N) R)) (fun _ => 1) fun i _ => isHomogeneous_X R (v i)
  simpa using this

/-- All entries are homogeneous of a degree. -/
def Homog (k : Nat) (M : Op R A N) : Prop := ∀ a b, (M a b).IsHomogeneous k

theorem homog_sum {ι : Type} {k : Nat} (s : Finset ι) (f : ι → Op R A N) (h : ∀ i ∈ s, Homog k (f i)) : Homog k (∑ i ∈ s, f i) := by
  intro a b
  rw [Matrix.sum_apply]
  exact IsHomogeneous.sum _ _ _ fun i hi => h i hi a b

theorem homog_mul {j k : Nat} {F G : Op R A N} (hF : Homog j F) (hG : Homog k G) : Homog (j + k) (F * G) := by
  intro a b
  rw [Matrix.mul_apply]
  exact IsHomogeneous.sum _ _ _ fun i _ => (hF a i).mul (hG i b)

theorem homog_smul {j k : Nat} {p : MvPolynomial (Fin N) R} {G : Op R A N} (hp : p.IsHomogeneous j) (hG : Homog k G) : Homog (j + k) (p • G) :=
  fun a b => hp.mul (hG a b)

theorem homog_qsmul [Algebra Rat R] {k : Nat} (q : Rat) {G : Op R A N} (hG : Homog k G) : Homog k (q • G) := by
  intro a b
  have : (q • G) a b = C (algebraMap Rat R q) * G a b := by
    rw [Matrix.smul_apply, Algebra.smul_def]; rfl
  rw [this]
  have := (isHomogeneous_C (Fin N) (algebraMap Rat R q)).mul (hG a b)
  rwa [Nat.zero_add] at this

theorem homog_C (F : Matrix (Fin A) (Fin A) R) : Homog 0 (F.map (C : R →+* MvPolynomial (Fin N) R)) := fun a b => isHomogeneous_C _ _

theorem homog_series (k : Nat) (F : List Nat → Matrix (Fin A) (Fin A) R) : Homog k (series N k F) := by
  refine homog_sum _ _ fun v _ => ?_
  have := homog_smul (create_homogeneous (R := R) v) (homog_C (N := N) (F (modes v)))
  exact this

theorem part_of_homog {j k : Nat} {M : Op R A N} (h : Homog j M) : part k M = if j = k then M else 0 := by
  unfold part
  ext1 a b
  rw [Matrix.map_apply, homogeneousComponent_of_mem (h a b)]
  by_cases e : j = k
  · rw [if_pos e.symm, if_pos e]
  · rw [if_neg (fun h => e h.symm), if_neg e]; rfl

theorem part_sum {ι : Type} (k : Nat) (s : Finset ι) (f : ι → Op R A N) : part k (∑ i ∈ s, f i) = ∑ i ∈ s, part k (f i) := by
  unfold part
  ext1 a b
  rw [Matrix.map_apply, Matrix.sum_apply, Matrix.sum_apply, map_sum]
  rfl

theorem part_qsmul [Algebra Rat R] (k : Nat) (q : Rat) (M : Op R A N) : part k (q • M) = q • part k M := by
  unfold part
  ext1 a b
  rw [Matrix.map_apply, Matrix.smul_apply, Matrix.smul_apply, Matrix.map_apply, Algebra.smul_def, Algebra.smul_def]
  exact homogeneousComponent_C_mul _ _ _

/-! ## Derivatives -/

/-- The matrices do not depend on the order of the `k` modes. -/
def Symm (k : Nat) (F : List Nat → Matrix (Fin A) (Fin A) R) : Prop := ∀ l l', l.length = k → l.Perm l' → F l = F l'

theorem pderiv_series (i : Fin N) (k : Nat) : ∀ (F : List Nat → Matrix (Fin A) (Fin A) R), Symm (k + 1) F →
    (series N (k + 1) F).map (pderiv i) = ((k + 1 : Nat) : MvPolynomial (Fin N) R) • series N k fun l => F (i.val :: l) := by
  induction k with
  | zero =>
    intro F _
    rw [series_succ, series_zero]
    simp only [series_zero]
    ext1 a b
    rw [Matrix.map_apply, Matrix.sum_apply, map_sum]
    simp only [Matrix.smul_apply, Matrix.map_apply, smul_eq_mul, Derivation.leibniz, pderiv_C, zero_add, pderiv_X]
    rw [Finset.sum_eq_single i]
    · simp
    · intro j _ hj
      simp [hj.symm]
    · simp
  | succ k ih =>
    intro F hF
    have hs : ∀ j : Fin N, Symm (k + 1) fun l => F (j.val :: l) := fun j l l' hl h => hF _ _ (by simp [hl]) (h.cons _)
    rw [series_succ]
    ext1 a b
    rw [Matrix.map_apply, Matrix.sum_apply, map_sum]
    have e1 : ∀ j : Fin N, pderiv i ((((X j : MvPolynomial (Fin N) R) • series N (k + 1) fun l => F (j.val :: l)) : Op R A N) a b) =
        X j * (((k + 1 : Nat) : MvPolynomial (Fin N) R) * (series N k fun l => F (i.val :: j.val :: l)) a b) + (if j = i then (series N (k + 1) fun l => F (j.val :: l)) a b else 0) := by
      intro j
      have h1 : pderiv i ((series N (k + 1) fun l => F (j.val :: l)) a b) = ((k + 1 : Nat) : MvPolynomial (Fin N) R) * (series N k fun l => F (i.val :: j.val :: l)) a b := by
        have := congrFun (congrFun (ih (fun l => F (j.val :: l)) (hs j)) a) b
        rw [Matrix.map_apply, Matrix.smul_apply, smul_eq_mul] at this
        rw [this]
        congr 1
        refine congrFun (congrFun (series_congr (R := R) fun v => ?_) a) b
        exact hF _ _ (by simp [modes_length]) (List.Perm.swap _ _ _)
      rw [Matrix.smul_apply, smul_eq_mul, Derivation.leibniz, smul_eq_mul, smul_eq_mul, h1, pderiv_X]
      congr 1
      by_cases h : j = i
      · subst h; simp
      · simp [h]
    rw [Finset.sum_congr rfl fun j _ => e1 j, Finset.sum_add_distrib, Finset.sum_ite_eq' Finset.univ i, if_pos (Finset.mem_univ _), Matrix.smul_apply, smul_eq_mul]
    have e2 : (series N (k + 1) fun l => F (i.val :: l)) a b = ∑ j : Fin N, X j * (series N k fun l => F (i.val :: j.val :: l)) a b := by
      rw [series_succ, Matrix.sum_apply]
      rfl
    have e3 : ∑ j : Fin N, X j * (((k + 1 : Nat) : MvPolynomial (Fin N) R) * (series N k fun l => F (i.val :: j.val :: l)) a b) =
        ((k + 1 : Nat) : MvPolynomial (Fin N) R) * (series N (k + 1) fun l => F (i.val :: l)) a b := by
      rw [e2, Finset.mul_sum]
      exact Finset.sum_congr rfl fun j _ => by ring
    rw [e3]
    push_cast
    ring

theorem pderiv_const (i : Fin N) (F : List Nat → Matrix (Fin A) (Fin A) R) : (series N 0 F).map (pderiv i) = 0 := by
  rw [series_zero]
  ext1 a b
  simp

theorem annihilate_zero {n : Nat} (K : Fin n → Fin N) : annihilate K (0 : MvPolynomial (Fin N) R) = 0 := by
  unfold annihilate
  induction List.ofFn K with
  | nil => rfl
  | cons i l ih => rw [List.foldr_cons, ih, map_zero]

theorem annihilate_succ {n : Nat} (K : Fin (n + 1) → Fin N) (p : MvPolynomial (Fin N) R) :
    annihilate K p = pderiv (K 0) (annihilate (fun i => K i.succ) p) := by
  unfold annihilate
  rw [List.ofFn_succ, List.foldr_cons]

theorem annihilate_add {n : Nat} (K : Fin n → Fin N) (p q : MvPolynomial (Fin N) R) : annihilate K (p + q) = annihilate K p + annihilate K q := by
  unfold annihilate
  induction List.ofFn K with
  | nil => rfl
  | cons i l ih => rw [List.foldr_cons, ih, map_add]; rfl

theorem annihilate_C_mul {n : Nat} (K : Fin n → Fin N) (c : R) (p : MvPolynomial (Fin N) R) : annihilate K (C c * p) = C c * annihilate K p := by
  unfold annihilate
  induction List.ofFn K with
  | nil => rfl
  | cons i l ih => rw [List.foldr_cons, ih, pderiv_C_mul]; rfl

theorem annihilate_step {n : Nat} (K : Fin (n + 1) → Fin N) (M : Op R A N) :
    M.map (annihilate K) = (M.map (annihilate fun i => K i.succ)).map (pderiv (K 0)) := by
  ext1 a b
  simp only [Matrix.map_apply]
  rw [annihilate_succ]

theorem map_pderiv_nsmul (i : Fin N) (c : Nat) (M : Op R A N) :
    ((c : MvPolynomial (Fin N) R) • M).map (pderiv i) = (c : MvPolynomial (Fin N) R) • M.map (pderiv i) := by
  ext1 a b
  simp only [Matrix.map_apply, Matrix.smul_apply, smul_eq_mul]
  have : (c : MvPolynomial (Fin N) R) = C (c : R) := by simp
  rw [this, pderiv_C_mul]

/-- The derivatives of a state with symmetric coefficients. -/
theorem annihilate_series (n : Nat) : ∀ (j : Nat) (K : Fin n → Fin N) (F : List Nat → Matrix (Fin A) (Fin A) R), Symm (n + j) F →
    (series N (n + j) F).map (annihilate K) = (((n + j).descFactorial n : Nat) : MvPolynomial (Fin N) R) • series N j fun l => F (modes K ++ l) := by
  induction n with
  | zero =>
    intro j K F _
    ext1 a b
    simp [annihilate, modes]
  | succ n ih =>
    intro j K F hF
    rw [annihilate_step]
    have e : n + 1 + j = n + (j + 1) := by omega
    rw [e] at hF ⊢
    rw [ih (j + 1) _ F hF, map_pderiv_nsmul, pderiv_series, smul_smul]
    · rw [← Nat.cast_mul, Nat.descFactorial_succ]
      have e3 : n + (j + 1) - n = j + 1 := by omega
      rw [e3, Nat.mul_comm (j + 1)]
      congr 1
      refine series_congr fun v => hF _ _ (by simp [modes_length]) ?_
      rw [show modes K = (K 0).val :: modes (fun i => K i.succ) by simp [modes, List.ofFn_succ]]
      exact List.perm_middle
    · intro l l' hl h
      exact hF _ _ (by simp [modes_length, hl]) (h.append_left _)

theorem annihilate_homogeneous (n : Nat) : ∀ (K : Fin n → Fin N) {j : Nat} {p : MvPolynomial (Fin N) R}, p.IsHomogeneous j →
    (n ≤ j → (annihilate K p).IsHomogeneous (j - n)) ∧ (j < n → annihilate K p = 0) := by
  induction n with
  | zero => exact fun K j p h => ⟨fun _ => h, fun h => absurd h (by omega)⟩
  | succ n ih =>
    intro K j p h
    obtain ⟨h1, h2⟩ := ih (fun i => K i.succ) h
    rw [annihilate_succ]
    constructor
    · intro hj
      exact (h1 (by omega)).pderiv
    · intro hj
      by_cases hjn : j < n
      · rw [h2 hjn, map_zero]
      · have h3 := h1 (by omega)
        rw [show j - n = 0 by omega] at h3
        rw [← totalDegree_zero_iff_isHomogeneous, totalDegree_eq_zero_iff_eq_C] at h3
        rw [h3, pderiv_C]

/-! ## Uniqueness of the coefficients -/

theorem create_monomial {k : Nat} (v : Fin k → Fin N) : create (R := R) v = monomial (∑ i, Finsupp.single (v i) 1) 1 := by
  rw [monomial_sum_one]
  rfl

theorem same_modes {k : Nat} {v w : Fin k → Fin N} (h : ∑ i, Finsupp.single (v i) 1 = ∑ i, Finsupp.single (w i) 1) : ∃ π : Equiv.Perm (Fin k), ∀ i, w (π i) = v i := by
  have hc : ∀ x, Fintype.card {i // v i = x} = Fintype.card {i // w i = x} := by
    intro x
    have := DFunLike.congr_fun h x
    simp only [Finsupp.coe_finsetSum, Finset.sum_apply, Finsupp.single_apply, Finset.sum_boole, Nat.cast_id] at this
    rw [Fintype.card_subtype, Fintype.card_subtype]
    exact this
  exact ⟨Equiv.ofFiberEquiv fun x => Fintype.equivOfCardEq (hc x), fun i => Equiv.ofFiberEquiv_map _ i⟩

/-- Symmetric coefficients are determined by the sum. -/
theorem coefficients_zero [Algebra Rat R] {k : Nat} (F : (Fin k → Fin N) → R) (hF : ∀ v (π : Equiv.Perm (Fin k)), F (fun i => v (π i)) = F v)
    (h : ∑ v, create (R := R) v * C (F v) = 0) (v : Fin k → Fin N) : F v = 0 := by
  classical
  have h1 := congrArg (coeff (∑ i, Finsupp.single (v i) 1)) h
  rw [coeff_sum, coeff_zero] at h1
  have e1 : ∀ w : Fin k → Fin N, coeff (∑ i, Finsupp.single (v i) 1) (create (R := R) w * C (F w)) =
      if ∑ i, Finsupp.single (w i) 1 = ∑ i, Finsupp.single (v i) 1 then F v else 0 := by
    intro w
    rw [create_monomial, mul_comm, coeff_C_mul, coeff_monomial]
    split
    · rename_i e
      obtain ⟨π, hπ⟩ := same_modes e
      rw [mul_one, ← hF v π]
      congr 1
      funext i; exact (hπ i).symm
    · rw [mul_zero]
  rw [Finset.sum_congr rfl fun w _ => e1 w, ← Finset.sum_filter, Finset.sum_const, ← Nat.cast_smul_eq_nsmul Rat] at h1
  set c := (Finset.univ.filter fun w : Fin k → Fin N => ∑ i, Finsupp.single (w i) 1 = ∑ i, Finsupp.single (v i) 1).card with hc
  have hc0 : (c : Rat) ≠ 0 := by
    rw [Nat.cast_ne_zero, hc, Finset.card_ne_zero]
    exact ⟨v, by simp⟩
  have := congrArg (fun z => (c : Rat)⁻¹ • z) h1
  simpa [smul_smul, hc0] using this

end TF.Fock
