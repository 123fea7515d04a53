import Verif.Spec.ETValue
import Verif.Lemmas.Fock
import Mathlib.Algebra.BigOperators.NatAntidiagonal
import Mathlib.Tactic.FieldSimp
import Mathlib.Tactic.Ring

/-! # The exponential of a linear combination of annihilation operators -/

namespace TF.Fock

open TF.Spec.Tensor TF.Spec.Fock TF.Spec.ETValue MvPolynomial

variable {R : Type} [CommRing R] {N : Nat}

/-! ## Sums of monomials with numbers as coefficients -/

/-- `sum_v f_v a+_v` -/
noncomputable def mono (N k : Nat) (f : List Nat → R) : MvPolynomial (Fin N) R := ∑ v : Fin k → Fin N, create v * C (f (modes v))

/-- the numbers as matrices -/
def sc (f : List Nat → R) : List Nat → Matrix (Fin 1) (Fin 1) R := fun l => Matrix.of fun _ _ => f l

theorem mono_eq (k : Nat) (f : List Nat → R) : mono N k f = series N k (sc f) 0 0 := by
  unfold mono series
  rw [Matrix.sum_apply]
  rfl

theorem mono_congr {k : Nat} {f g : List Nat → R} (h : ∀ v : Fin k → Fin N, f (modes v) = g (modes v)) : mono N k f = mono N k g :=
  Finset.sum_congr rfl fun v _ => by rw [h v]

theorem mono_sum {ι : Type} (s : Finset ι) (k : Nat) (f : ι → List Nat → R) : mono N k (fun l => ∑ i ∈ s, f i l) = ∑ i ∈ s, mono N k (f i) := by
  unfold mono
  rw [Finset.sum_comm]
  refine Finset.sum_congr rfl fun v _ => ?_
  rw [map_sum, Finset.mul_sum]

theorem mono_C_mul (k : Nat) (c : R) (f : List Nat → R) : mono N k (fun l => c * f l) = C c * mono N k f := by
  unfold mono
  rw [Finset.mul_sum]
  refine Finset.sum_congr rfl fun v _ => ?_
  rw [C_mul]
  ring

theorem mono_smul [Algebra Rat R] (k : Nat) (q : Rat) (f : List Nat → R) : mono N k (fun l => q • f l) = q • mono N k f := by
  have h : ∀ x : R, q • x = algebraMap Rat R q * x := fun x => Algebra.smul_def q x
  simp only [h]
  rw [mono_C_mul, Algebra.smul_def]
  rfl

theorem mono_add (k : Nat) (f g : List Nat → R) : mono N k (fun l => f l + g l) = mono N k f + mono N k g := by
  unfold mono
  rw [← Finset.sum_add_distrib]
  exact Finset.sum_congr rfl fun v _ => by rw [C_add, mul_add]

theorem mono_list_sum {α : Type} (l : List α) (k : Nat) (f : α → List Nat → R) :
    mono N k (fun v => (l.map fun x => f x v).sum) = (l.map fun x => mono N k (f x)).sum := by
  induction l with
  | nil => simp [mono]
  | cons x l ih =>
    simp only [List.map_cons, List.sum_cons]
    rw [mono_add, ih]

theorem mono_mul (m j : Nat) (f g : List Nat → R) : mono N m f * mono N j g = mono N (m + j) fun l => f (l.take m) * g (l.drop m) := by
  rw [mono_eq, mono_eq, mono_eq]
  have h := congrFun (congrFun (series_mul (N := N) m j (sc f) (sc g)) 0) 0
  rw [Matrix.mul_apply, Fin.sum_univ_one] at h
  rw [← h]
  congr 1
  congr 1
  funext l
  ext a b
  rw [Matrix.mul_apply, Fin.sum_univ_one]
  rfl

theorem mono_homogeneous (k : Nat) (f : List Nat → R) : (mono N k f).IsHomogeneous k := by
  rw [mono_eq]
  exact homog_series k _ 0 0

/-- the numbers do not depend on the order of the modes -/
def SymmR (k : Nat) (f : List Nat → R) : Prop := ∀ l l' : List Nat, l.length = k → l.Perm l' → f l = f l'

theorem symm_sc {k : Nat} {f : List Nat → R} (h : SymmR k f) : Symm k (sc f) := by
  intro l l' hl hp
  unfold sc
  rw [h l l' hl hp]

theorem annihilate_mono (n j : Nat) (K : Fin n → Fin N) (f : List Nat → R) (h : SymmR (n + j) f) :
    annihilate K (mono N (n + j) f) = (((n + j).descFactorial n : Nat) : MvPolynomial (Fin N) R) * mono N j fun l => f (modes K ++ l) := by
  have h1 := congrFun (congrFun (annihilate_series n j K (sc f) (symm_sc h)) 0) 0
  rw [mono_eq, mono_eq]
  exact h1

theorem annihilate_mono_zero {n j : Nat} (hj : j < n) (K : Fin n → Fin N) (f : List Nat → R) : annihilate K (mono N j f) = 0 :=
  (annihilate_homogeneous n K (mono_homogeneous j f)).2 hj

/-! ## The lowering operator -/

variable (t : Arr R)

theorem lowering_add (p q : MvPolynomial (Fin N) R) : lowering t (p + q) = lowering t p + lowering t q := by
  unfold lowering
  rw [← Finset.sum_add_distrib]
  exact Finset.sum_congr rfl fun i _ => by rw [map_add, mul_add]

theorem lowering_C_mul (c : R) (p : MvPolynomial (Fin N) R) : lowering t (C c * p) = C c * lowering t p := by
  unfold lowering
  rw [Finset.mul_sum]
  refine Finset.sum_congr rfl fun i _ => ?_
  rw [pderiv_C_mul]
  ring

theorem lowering_mul (p q : MvPolynomial (Fin N) R) : lowering t (p * q) = lowering t p * q + p * lowering t q := by
  unfold lowering
  rw [Finset.sum_mul, Finset.mul_sum, ← Finset.sum_add_distrib]
  refine Finset.sum_congr rfl fun i _ => ?_
  rw [Derivation.leibniz, smul_eq_mul, smul_eq_mul]
  ring

/-- as a linear map -/
noncomputable def low : MvPolynomial (Fin N) R →ₗ[R] MvPolynomial (Fin N) R where
  toFun := lowering t
  map_add' := lowering_add t
  map_smul' c p := by
    simp only [smul_eq_C_mul, RingHom.id_apply]
    exact lowering_C_mul t c p

theorem iterate_eq (k : Nat) (p : MvPolynomial (Fin N) R) : (lowering t)^[k] p = (low t ^ k) p := by
  rw [Module.End.pow_apply]
  rfl

theorem annihilate_sum {n : Nat} (K : Fin n → Fin N) {ι : Type} (s : Finset ι) (f : ι → MvPolynomial (Fin N) R) :
    annihilate K (∑ i ∈ s, f i) = ∑ i ∈ s, annihilate K (f i) := by
  induction s using Finset.cons_induction with
  | empty => simp [annihilate_zero]
  | cons a s h ih => rw [Finset.sum_cons, Finset.sum_cons, annihilate_add, ih]

theorem pderiv_annihilate (i : Fin N) {n : Nat} (K : Fin n → Fin N) (p : MvPolynomial (Fin N) R) :
    annihilate (Fin.cons i K : Fin (n + 1) → Fin N) p = pderiv i (annihilate K p) := by
  rw [annihilate_succ]
  simp

/-- `T^k` is the sum over `k` modes. -/
theorem lowering_iterate (k : Nat) (p : MvPolynomial (Fin N) R) :
    (lowering t)^[k] p = ∑ I : Fin k → Fin N, C (∏ i, t [(I i).val]) * annihilate I p := by
  induction k with
  | zero =>
    rw [Fintype.sum_unique]
    simp [annihilate]
  | succ k ih =>
    rw [Function.iterate_succ_apply', ih]
    rw [← Equiv.sum_comp (Fin.consEquiv (fun _ : Fin (k + 1) => Fin N)) , Fintype.sum_prod_type]
    unfold lowering
    refine Finset.sum_congr rfl fun i _ => ?_
    rw [map_sum, Finset.mul_sum]
    refine Finset.sum_congr rfl fun I _ => ?_
    show _ = C (∏ x, t [((Fin.cons i I : Fin (k + 1) → Fin N) x).val]) * annihilate (Fin.cons i I : Fin (k + 1) → Fin N) p
    rw [pderiv_C_mul, pderiv_annihilate, Fin.prod_univ_succ]
    simp only [Fin.cons_zero, Fin.cons_succ]
    rw [C_mul, mul_assoc]

variable [Algebra Rat R]

/-- `T^k / k!` -/
noncomputable def dp (k : Nat) (p : MvPolynomial (Fin N) R) : MvPolynomial (Fin N) R := (1 / (k.factorial : Rat)) • (lowering t)^[k] p

theorem expLowering_eq (K : Nat) (p : MvPolynomial (Fin N) R) : expLowering K t p = ∑ k ∈ Finset.range (K + 1), dp t k p := rfl

theorem rat_smul (q : Rat) (p : MvPolynomial (Fin N) R) : q • p = C (algebraMap Rat R q) * p := by
  rw [Algebra.smul_def]
  rfl

theorem lowering_smul (q : Rat) (p : MvPolynomial (Fin N) R) : lowering t (q • p) = q • lowering t p := by
  rw [rat_smul, rat_smul, lowering_C_mul]

theorem dp_sum {ι : Type} (k : Nat) (s : Finset ι) (f : ι → MvPolynomial (Fin N) R) : dp t k (∑ i ∈ s, f i) = ∑ i ∈ s, dp t k (f i) := by
  unfold dp
  simp only [iterate_eq]
  rw [map_sum, Finset.smul_sum]

theorem dp_smul (k : Nat) (q : Rat) (p : MvPolynomial (Fin N) R) : dp t k (q • p) = q • dp t k p := by
  unfold dp
  simp only [iterate_eq]
  rw [rat_smul q, ← smul_eq_C_mul, map_smul, smul_eq_C_mul, ← rat_smul, smul_comm]

theorem lowering_dp (k : Nat) (p : MvPolynomial (Fin N) R) : lowering t (dp t k p) = ((k + 1 : Nat) : Rat) • dp t (k + 1) p := by
  unfold dp
  rw [lowering_smul, smul_smul, Function.iterate_succ_apply']
  congr 1
  rw [Nat.factorial_succ]
  have h1 : ((k + 1 : Nat) : Rat) ≠ 0 := by positivity
  have h2 : (k.factorial : Rat) ≠ 0 := by positivity
  push_cast at h1 ⊢
  field_simp

/-- Leibniz' rule. -/
theorem dp_mul (k : Nat) : ∀ p q : MvPolynomial (Fin N) R, dp t k (p * q) = ∑ x ∈ Finset.antidiagonal k, dp t x.1 p * dp t x.2 q := by
  induction k with
  | zero =>
    intro p q
    simp [dp]
  | succ k ih =>
    intro p q
    have h0 : ((k + 1 : Nat) : Rat) ≠ 0 := by positivity
    have h1 : ((k + 1 : Nat) : Rat) • dp t (k + 1) (p * q) = ((k + 1 : Nat) : Rat) • ∑ x ∈ Finset.antidiagonal (k + 1), dp t x.1 p * dp t x.2 q := by
      rw [← lowering_dp, ih]
      have h2 : lowering t (∑ x ∈ Finset.antidiagonal k, dp t x.1 p * dp t x.2 q) =
          ∑ x ∈ Finset.antidiagonal k, ((((x.1 + 1 : Nat) : Rat) • (dp t (x.1 + 1) p * dp t x.2 q)) + (((x.2 + 1 : Nat) : Rat) • (dp t x.1 p * dp t (x.2 + 1) q))) := by
        have := map_sum (low t) (fun x : Nat × Nat => dp t x.1 p * dp t x.2 q) (Finset.antidiagonal k)
        refine this.trans (Finset.sum_congr rfl fun x _ => ?_)
        show lowering t _ = _
        rw [lowering_mul, lowering_dp, lowering_dp, smul_mul_assoc, mul_smul_comm]
      rw [h2, Finset.sum_add_distrib]
      have h3 : ∀ x ∈ Finset.antidiagonal (k + 1), ((k + 1 : Nat) : Rat) • (dp t x.1 p * dp t x.2 q) =
          ((x.1 : Nat) : Rat) • (dp t x.1 p * dp t x.2 q) + ((x.2 : Nat) : Rat) • (dp t x.1 p * dp t x.2 q) := by
        intro x hx
        rw [← add_smul, ← Finset.mem_antidiagonal.1 hx]
        push_cast
        rfl
      rw [Finset.smul_sum, Finset.sum_congr rfl h3, Finset.sum_add_distrib]
      congr 1
      · rw [Finset.Nat.sum_antidiagonal_succ (f := fun x : Nat × Nat => ((x.1 : Nat) : Rat) • (dp t x.1 p * dp t x.2 q))]
        simp
      · rw [Finset.Nat.sum_antidiagonal_succ' (f := fun x : Nat × Nat => ((x.2 : Nat) : Rat) • (dp t x.1 p * dp t x.2 q))]
        simp
    have := congrArg (fun z => (((k + 1 : Nat) : Rat))⁻¹ • z) h1
    simpa only [smul_smul, inv_mul_cancel₀ h0, one_smul] using this

/-- the contraction of `i` modes with t -/
noncomputable def withT (N i : Nat) (f : List Nat → R) : List Nat → R := fun l => ∑ I : Fin i → Fin N, (∏ x, t [(I x).val]) * f (modes I ++ l)

theorem smul_nat_fact (m i : Nat) (h : i ≤ m) (p : MvPolynomial (Fin N) R) :
    (1 / (m.factorial : Rat)) • (((m.descFactorial i : Nat) : MvPolynomial (Fin N) R) * p) = (1 / ((m - i).factorial : Rat)) • p := by
  have e : ((m.descFactorial i : Nat) : MvPolynomial (Fin N) R) * p = ((m.descFactorial i : Nat) : Rat) • p := by
    rw [rat_smul]
    congr 1
    simp
  rw [e, smul_smul]
  congr 1
  have := Nat.factorial_mul_descFactorial h
  have h1 : ((m - i).factorial : Rat) ≠ 0 := by positivity
  have h2 : (m.factorial : Rat) ≠ 0 := by positivity
  rw [← this]
  push_cast
  have h3 : ((m.descFactorial i : Nat) : Rat) ≠ 0 := by
    rw [← this] at h2
    push_cast at h2
    exact (mul_ne_zero_iff.1 h2).2
  field_simp

/-- annihilation operators on a state -/
theorem annihilate_ket (n m : Nat) (K : Fin n → Fin N) (f : List Nat → R) (h : SymmR m f) :
    annihilate K ((1 / (m.factorial : Rat)) • mono N m f) = if n ≤ m then (1 / ((m - n).factorial : Rat)) • mono N (m - n) fun l => f (modes K ++ l) else 0 := by
  rw [rat_smul, annihilate_C_mul, ← rat_smul]
  split
  · rename_i hn
    obtain ⟨j, rfl⟩ : ∃ j, m = n + j := ⟨m - n, by omega⟩
    rw [annihilate_mono n j K f h, smul_nat_fact _ _ hn]
    simp
  · rw [annihilate_mono_zero (by omega), smul_zero]

/-- the exponential on a state -/
theorem dp_ket (i m : Nat) (f : List Nat → R) (h : SymmR m f) :
    dp t i ((1 / (m.factorial : Rat)) • mono N m f) =
      if i ≤ m then (1 / ((i.factorial * (m - i).factorial : Nat) : Rat)) • mono N (m - i) (withT t N i f) else 0 := by
  unfold dp
  rw [lowering_iterate]
  simp only [annihilate_ket _ _ _ _ h]
  split
  · rename_i hi
    have e : mono N (m - i) (withT t N i f) = ∑ I : Fin i → Fin N, C (∏ x, t [(I x).val]) * mono N (m - i) fun l => f (modes I ++ l) := by
      unfold withT
      rw [mono_sum]
      exact Finset.sum_congr rfl fun I _ => mono_C_mul _ _ _
    simp only [mul_smul_comm]
    rw [← Finset.smul_sum, smul_smul, e]
    congr 1
    push_cast
    rw [div_mul_div_comm, one_mul]
  · simp

omit [CommRing R] [Algebra Rat R] in
theorem symm_append {n j : Nat} {f : List Nat → R} (h : SymmR (n + j) f) (K : List Nat) (hK : K.length = n) : SymmR j fun l => f (K ++ l) :=
  fun l l' hl hp => h _ _ (by simp [hl, hK]) (hp.append_left _)

end TF.Fock
