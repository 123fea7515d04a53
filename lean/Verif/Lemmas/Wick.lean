import Verif.Props.Fock
import Verif.Spec.FullCCValue
import Mathlib.Data.Nat.Choose.Sum
import Mathlib.Algebra.BigOperators.NatAntidiagonal

/-! # Wick's theorem for one normal-ordered term and a power of the cluster operator -/

namespace TF.Fock

open TF.Spec.Tensor TF.Spec.Fock MvPolynomial
open TF.CC (T)
open TF.Spec.CCRun (amps)

variable {R : Type} [CommRing R] {A N : Nat}

/-! ## Leibniz' rule -/

theorem annihilate_last {n : Nat} (K : Fin n → Fin N) (i : Fin N) (p : MvPolynomial (Fin N) R) :
    annihilate (Fin.snoc K i : Fin (n + 1) → Fin N) p = annihilate K (pderiv i p) := by
  unfold annihilate
  rw [List.ofFn_succ_last, List.foldr_append]
  simp

theorem modes_snoc {n : Nat} (K : Fin n → Fin N) (i : Fin N) : modes (Fin.snoc K i : Fin (n + 1) → Fin N) = modes K ++ [i.val] := by
  unfold modes
  rw [List.ofFn_succ_last]
  simp

theorem sum_snoc {P : Type} [AddCommMonoid P] (n : Nat) (f : (Fin (n + 1) → Fin N) → P) :
    ∑ K : Fin (n + 1) → Fin N, f K = ∑ i : Fin N, ∑ K : Fin n → Fin N, f (Fin.snoc K i : Fin (n + 1) → Fin N) := by
  rw [← Fintype.sum_prod_type']
  exact (Fintype.sum_equiv (Fin.snocEquiv fun _ : Fin (n + 1) => Fin N) _ _ fun p => rfl).symm

theorem sum_append {P : Type} [AddCommMonoid P] (c e : Nat) (f : List Nat → P) :
    ∑ K : Fin (c + e) → Fin N, f (modes K) = ∑ K : Fin c → Fin N, ∑ L : Fin e → Fin N, f (modes K ++ modes L) := by
  rw [← Fintype.sum_prod_type']
  refine (Fintype.sum_equiv (Fin.appendEquiv c e) _ _ fun p => ?_).symm
  obtain ⟨K, L⟩ := p
  congr 1
  unfold modes
  rw [← List.ofFn_fin_append]
  congr 1
  funext i
  refine Fin.addCases (fun i => ?_) (fun i => ?_) i <;> simp

theorem map_annihilate_last {n : Nat} (K : Fin n → Fin N) (i : Fin N) (M : Op R A N) :
    M.map (annihilate (Fin.snoc K i : Fin (n + 1) → Fin N)) = (M.map (pderiv i)).map (annihilate K) := by
  ext1 a b
  simp only [Matrix.map_apply]
  rw [annihilate_last]

theorem map_annihilate_add {n : Nat} (K : Fin n → Fin N) (M M' : Op R A N) :
    (M + M').map (annihilate K) = M.map (annihilate K) + M'.map (annihilate K) := by
  ext1 a b
  simp only [Matrix.map_apply, Matrix.add_apply]
  rw [annihilate_add]

theorem map_pderiv_mul (i : Fin N) (P Q : Op R A N) : (P * Q).map (pderiv i) = P.map (pderiv i) * Q + P * Q.map (pderiv i) := by
  ext1 a b
  simp only [Matrix.map_apply, Matrix.add_apply, Matrix.mul_apply]
  rw [map_sum, ← Finset.sum_add_distrib]
  refine Finset.sum_congr rfl fun c _ => ?_
  rw [Derivation.leibniz]
  simp only [smul_eq_mul]
  ring

/-- The term with `c` derivatives of the first factor and `e` of the second. -/
noncomputable def split (H : List Nat → Op R A N) (P Q : Op R A N) (c e : Nat) : Op R A N :=
  ∑ K : Fin c → Fin N, ∑ L : Fin e → Fin N, H (modes K ++ modes L) * (P.map (annihilate K) * Q.map (annihilate L))

/-- Leibniz' rule for a symmetric sum of derivatives. -/
theorem leibniz (n : Nat) : ∀ (H : List Nat → Op R A N) (_ : ∀ l l' : List Nat, l.length = n → l.Perm l' → H l = H l') (P Q : Op R A N),
    ∑ K : Fin n → Fin N, H (modes K) * (P * Q).map (annihilate K) = ∑ p ∈ Finset.antidiagonal n, n.choose p.1 • split H P Q p.1 p.2 := by
  induction n with
  | zero =>
    intro H _ P Q
    have h0 : ∀ (K : Fin 0 → Fin N) (M : Op R A N), M.map (annihilate K) = M := fun K M => by
      ext1 a b
      simp [annihilate]
    simp [split, modes, h0]
  | succ n ih =>
    intro H hH P Q
    rw [sum_snoc, Finset.sum_antidiagonal_choose_succ_nsmul]
    have hi : ∀ i : Fin N, ∀ l l' : List Nat, l.length = n → l.Perm l' → H (l ++ [i.val]) = H (l' ++ [i.val]) :=
      fun i l l' hl h => hH _ _ (by simp [hl]) (h.append_right _)
    have e1 : ∀ i : Fin N, ∑ K : Fin n → Fin N, H (modes (Fin.snoc K i : Fin (n + 1) → Fin N)) * (P * Q).map (annihilate (Fin.snoc K i : Fin (n + 1) → Fin N)) =
        ∑ p ∈ Finset.antidiagonal n, n.choose p.1 • split (fun l => H (l ++ [i.val])) P (Q.map (pderiv i)) p.1 p.2 +
          ∑ p ∈ Finset.antidiagonal n, n.choose p.1 • split (fun l => H (l ++ [i.val])) (P.map (pderiv i)) Q p.1 p.2 := by
      intro i
      rw [← ih _ (hi i), ← ih _ (hi i), ← Finset.sum_add_distrib]
      refine Finset.sum_congr rfl fun K _ => ?_
      rw [modes_snoc, map_annihilate_last, map_pderiv_mul, map_annihilate_add, mul_add, add_comm]
    rw [Finset.sum_congr rfl fun i _ => e1 i, Finset.sum_add_distrib]
    congr 1
    · rw [Finset.sum_comm]
      refine Finset.sum_congr rfl fun p hp => ?_
      rw [← Finset.smul_sum]
      congr 1
      unfold split
      rw [Finset.sum_comm]
      refine Finset.sum_congr rfl fun K _ => ?_
      rw [sum_snoc]
      refine Finset.sum_congr rfl fun i _ => Finset.sum_congr rfl fun L _ => ?_
      rw [modes_snoc, map_annihilate_last, ← List.append_assoc]
    · rw [Finset.sum_comm]
      refine Finset.sum_congr rfl fun p hp => ?_
      have hp' := Finset.mem_antidiagonal.1 hp
      rw [← Finset.smul_sum]
      congr 1
      · rw [← hp']
        exact Nat.choose_symm_add
      unfold split
      rw [sum_snoc]
      refine Finset.sum_congr rfl fun i _ => Finset.sum_congr rfl fun K _ => Finset.sum_congr rfl fun L _ => ?_
      rw [modes_snoc, map_annihilate_last]
      congr 1
      refine hH _ _ ?_ ?_
      · simp [modes_length]; omega
      · rw [List.append_assoc, List.append_assoc]
        exact List.Perm.append_left _ List.perm_append_comm

/-! ## Powers of the cluster operator -/

theorem map_annihilate_sum {n : Nat} {ι : Type} (K : Fin n → Fin N) (s : Finset ι) (f : ι → Op R A N) :
    (∑ i ∈ s, f i).map (annihilate K) = ∑ i ∈ s, (f i).map (annihilate K) := by
  classical
  induction s using Finset.induction_on with
  | empty =>
    ext1 a b
    simp [annihilate_zero]
  | insert i s hi ih => rw [Finset.sum_insert hi, Finset.sum_insert hi, map_annihilate_add, ih]

variable [Algebra Rat R]

theorem map_annihilate_qsmul {n : Nat} (K : Fin n → Fin N) (q : Rat) (M : Op R A N) : (q • M).map (annihilate K) = q • M.map (annihilate K) := by
  ext1 a b
  rw [Matrix.map_apply, Matrix.smul_apply, Matrix.smul_apply, Matrix.map_apply, Algebra.smul_def, Algebra.smul_def]
  exact annihilate_C_mul K _ _

theorem annihilate_state (c b : Nat) {x : Arr R} (hx : ModeSymmetric (c + b) x) (K : Fin c → Fin N) :
    (state A N (c + b) x).map (annihilate K) = (1 / (b.factorial : Rat)) • series N b fun l => mat A x (modes K ++ l) := by
  have h0 := annihilate_series c b K (mat A x) (fun l l' hl hp => TF.W.mat_perm hx hl hp)
  rw [state_series, map_annihilate_qsmul, h0, Nat.cast_smul_eq_nsmul, ← Nat.cast_smul_eq_nsmul Rat, smul_smul]
  congr 1
  have h2 := Nat.factorial_mul_descFactorial (n := c + b) (k := c) (by omega)
  rw [Nat.add_sub_cancel_left] at h2
  have h3 : ((c + b).factorial : Rat) = (b.factorial : Rat) * ((c + b).descFactorial c : Rat) := by
    rw [← h2]; push_cast; rfl
  have h4 : (b.factorial : Rat) ≠ 0 := by exact_mod_cast Nat.factorial_ne_zero _
  have h5 : ((c + b).factorial : Rat) ≠ 0 := by exact_mod_cast Nat.factorial_ne_zero _
  have h6 : ((c + b).descFactorial c : Rat) ≠ 0 := by
    intro h; rw [h, mul_zero] at h3; exact h5 h3
  rw [h3]
  field_simp

theorem annihilate_state_zero {c o : Nat} (h : o < c) (x : Arr R) (K : Fin c → Fin N) : (state A N o x).map (annihilate K) = 0 := by
  ext1 a b
  exact (annihilate_homogeneous c K (homog_state o x a b)).2 h

/-- The amplitudes of a cluster operator of rank `cc`, by the numbers of modes that are contracted and that stay. -/
def alphabet (cc : Nat) : Finset T :=
  ((Finset.range (cc + 1) ×ˢ Finset.range (cc + 1)).filter fun p => 1 ≤ p.1 + p.2 ∧ p.1 + p.2 ≤ cc).image fun p => ⟨p.1, 0, p.2, 0⟩

theorem mem_alphabet {cc : Nat} {x : T} : x ∈ alphabet cc ↔ TF.Spec.AmpAllowed cc true x := by
  unfold alphabet TF.Spec.AmpAllowed TF.Spec.ampRank
  obtain ⟨a, b, c, d⟩ := x
  simp only [Finset.mem_image, Finset.mem_filter, Finset.mem_product, Finset.mem_range, Prod.exists, T.mk.injEq]
  constructor
  · rintro ⟨p, q, ⟨_, h1, h2⟩, rfl, rfl, rfl, rfl⟩
    omega
  · rintro ⟨h1, h2, h3⟩
    obtain ⟨rfl, rfl⟩ := h3 trivial
    exact ⟨a, c, by omega, rfl, rfl, rfl, rfl⟩

/-- Derivatives of the cluster operator. -/
theorem annihilate_cluster (cc c : Nat) (t : Nat → Arr R) (ht : ∀ k, ModeSymmetric k (t k)) (K : Fin c → Fin N) :
    (cluster A N (Finset.Icc 1 cc) t).map (annihilate K) = ∑ x ∈ alphabet cc, if x.m_h = c then
      (1 / (x.m_o.factorial : Rat)) • series N x.m_o (fun l => mat A (t (x.m_h + x.m_o)) (modes K ++ l)) else 0 := by
  unfold cluster
  rw [map_annihilate_sum, ← Finset.sum_filter]
  have h0 : ∀ o ∈ Finset.Icc 1 cc, (state A N o (t o)).map (annihilate K) = if c ≤ o then (state A N o (t o)).map (annihilate K) else 0 := by
    intro o _
    split
    · rfl
    · exact annihilate_state_zero (by omega) _ _
  rw [Finset.sum_congr rfl h0, ← Finset.sum_filter]
  refine (Finset.sum_nbij' (fun x : T => x.m_h + x.m_o) (fun o => (⟨c, 0, o - c, 0⟩ : T)) ?_ ?_ ?_ ?_ ?_).symm
  · intro x hx
    obtain ⟨h1, h2⟩ := Finset.mem_filter.1 hx
    have h3 := mem_alphabet.1 h1
    unfold TF.Spec.AmpAllowed TF.Spec.ampRank at h3
    obtain ⟨h4, h5, h6⟩ := h3
    have := h6 rfl
    rw [Finset.mem_filter, Finset.mem_Icc]
    omega
  · intro o ho
    obtain ⟨h1, h2⟩ := Finset.mem_filter.1 ho
    rw [Finset.mem_Icc] at h1
    rw [Finset.mem_filter, mem_alphabet]
    unfold TF.Spec.AmpAllowed TF.Spec.ampRank
    exact ⟨⟨by simp only; omega, by simp only; omega, fun _ => ⟨rfl, rfl⟩⟩, rfl⟩
  · intro x hx
    obtain ⟨h1, h2⟩ := Finset.mem_filter.1 hx
    have h3 := (mem_alphabet.1 h1).2.2 rfl
    obtain ⟨a, b, d, e⟩ := x
    simp only at h2 h3
    simp only [T.mk.injEq]
    omega
  · intro o ho
    have := (Finset.mem_filter.1 ho).2
    simp only
    omega
  · intro x hx
    obtain ⟨h1, h2⟩ := Finset.mem_filter.1 hx
    subst h2
    exact (annihilate_state x.m_h x.m_o (ht _) K).symm

/-- One over the factorials of the numbers of contracted and remaining modes of all amplitudes. -/
def seqWeight (xs : List T) : Rat := 1 / ((xs.map fun x => x.m_h.factorial * x.m_o.factorial).prod : Nat)

/-- The contribution of a sequence of amplitudes. -/
noncomputable def seqSeries (A N : Nat) (t : Nat → Arr R) (G : List Nat → List Nat → Matrix (Fin A) (Fin A) R) (n d : Nat) (xs : List T) : Op R A N :=
  series N (d + (xs.map T.m_o).sum) fun v => ∑ K : Fin n → Fin N, G (modes K) (v.take d) * (amps A (fun p => t p.1) xs (modes K) (v.drop d)).prod

/-- The coefficient after the first amplitude. -/
def afterFirst (A : Nat) (t : Nat → Arr R) (G : List Nat → List Nat → Matrix (Fin A) (Fin A) R) (d : Nat) (x : T) (K : List Nat) (L v : List Nat) : Matrix (Fin A) (Fin A) R :=
  G (K ++ L) (v.take d) * mat A (t (x.m_h + x.m_o)) (K ++ v.drop d)

theorem seqSeries_cons (t : Nat → Arr R) (G : List Nat → List Nat → Matrix (Fin A) (Fin A) R) (e d : Nat) (x : T) (xs : List T) :
    seqSeries A N t G (x.m_h + e) d (x :: xs) = ∑ K : Fin x.m_h → Fin N, seqSeries A N t (afterFirst A t G d x (modes K)) e (d + x.m_o) xs := by
  unfold seqSeries
  rw [List.map_cons, List.sum_cons, ← Nat.add_assoc, ← series_sum]
  refine series_congr fun v => ?_
  rw [sum_append x.m_h e fun l => G l ((modes v).take d) * (amps A (fun p => t p.1) (x :: xs) l ((modes v).drop d)).prod]
  refine Finset.sum_congr rfl fun K _ => Finset.sum_congr rfl fun L _ => ?_
  unfold afterFirst
  rw [amps, List.prod_cons, List.take_left' (modes_length K), List.drop_left' (modes_length K), List.take_take, Nat.min_eq_left (by omega), List.drop_drop,
    List.drop_take, Nat.add_sub_cancel_left, mul_assoc]

theorem seqWeight_cons (x : T) (xs : List T) : seqWeight (x :: xs) = 1 / (x.m_h.factorial : Rat) * (1 / (x.m_o.factorial : Rat)) * seqWeight xs := by
  unfold seqWeight
  rw [List.map_cons, List.prod_cons]
  push_cast
  rw [one_div_mul_one_div, one_div_mul_one_div]

/-- Wick's theorem: derivatives of a power of the cluster operator, contracted with a symmetric coefficient. -/
theorem wick_power (cc : Nat) (t : Nat → Arr R) (ht : ∀ k, ModeSymmetric k (t k)) (j : Nat) : ∀ (n d : Nat) (G : List Nat → List Nat → Matrix (Fin A) (Fin A) R)
    (_ : ∀ I l l' : List Nat, I.length = d → l.length = n → l.Perm l' → G l I = G l' I),
    (1 / (n.factorial : Rat)) • ∑ K : Fin n → Fin N, series N d (G (modes K)) * (cluster A N (Finset.Icc 1 cc) t ^ j).map (annihilate K) =
      ∑ xs ∈ words (alphabet cc) j, if (xs.map T.m_h).sum = n then seqWeight xs • seqSeries A N t G n d xs else 0 := by
  induction j with
  | zero =>
    intro n d G _
    rw [words, Finset.sum_singleton, pow_zero]
    obtain _ | n := n
    · have h0 : ∀ (K : Fin 0 → Fin N) (M : Op R A N), M.map (annihilate K) = M := fun K M => by
        ext1 a b
        simp [annihilate]
      simp only [h0, mul_one]
      rw [Fintype.sum_unique]
      simp only [List.map_nil, List.sum_nil, if_true, seqWeight, seqSeries, List.prod_nil, amps, add_zero]
      simp only [Nat.factorial_zero, Nat.cast_one, div_one, one_smul]
      refine series_congr fun v => ?_
      rw [Fintype.sum_unique, mul_one]
      congr 1
      rw [List.take_of_length_le]
      rw [modes_length]
    · rw [Finset.sum_eq_zero, smul_zero, if_neg (by simp)]
      intro K _
      have : (1 : Op R A N).map (annihilate K) = 0 := by
        have h1 := homog_C (N := N) (1 : Matrix (Fin A) (Fin A) R)
        rw [map_C_one] at h1
        ext1 a b
        exact (annihilate_homogeneous (n + 1) K (h1 a b)).2 (by omega)
      rw [this, mul_zero]
  | succ j ih =>
    intro n d G hG
    set C := cluster A N (Finset.Icc 1 cc) t with hC
    rw [sum_words, pow_succ', leibniz n (fun l => series N d (G l)) (fun l l' hl hp => series_congr fun v => hG _ l l' (modes_length v) hl hp), Finset.smul_sum]
    have e1 : ∀ p ∈ Finset.antidiagonal n, (1 / (n.factorial : Rat)) • n.choose p.1 • split (fun l => series N d (G l)) C (C ^ j) p.1 p.2 =
        ∑ x ∈ alphabet cc, ∑ xs ∈ words (alphabet cc) j, if x.m_h = p.1 ∧ (xs.map T.m_h).sum = p.2 then seqWeight (x :: xs) • seqSeries A N t G n d (x :: xs) else 0 := by
      intro p hp
      obtain ⟨c, e⟩ := p
      have hn : c + e = n := Finset.mem_antidiagonal.1 hp
      simp only
      have e2 : split (fun l => series N d (G l)) C (C ^ j) c e = ∑ x ∈ alphabet cc, if x.m_h = c then ∑ K : Fin c → Fin N,
          (1 / (x.m_o.factorial : Rat)) • ∑ L : Fin e → Fin N, series N (d + x.m_o) (afterFirst A t G d x (modes K) (modes L)) * (C ^ j).map (annihilate L) else 0 := by
        unfold split
        have e3 : ∀ x ∈ alphabet cc, (if x.m_h = c then ∑ K : Fin c → Fin N,
            (1 / (x.m_o.factorial : Rat)) • ∑ L : Fin e → Fin N, series N (d + x.m_o) (afterFirst A t G d x (modes K) (modes L)) * (C ^ j).map (annihilate L) else 0) =
            ∑ K : Fin c → Fin N, ∑ L : Fin e → Fin N, series N d (G (modes K ++ modes L)) * ((if x.m_h = c then
              (1 / (x.m_o.factorial : Rat)) • series N x.m_o (fun l => mat A (t (x.m_h + x.m_o)) (modes K ++ l)) else 0) * (C ^ j).map (annihilate L)) := by
          intro x _
          split
          · refine Finset.sum_congr rfl fun K _ => ?_
            rw [Finset.smul_sum]
            refine Finset.sum_congr rfl fun L _ => ?_
            rw [smul_mul_assoc, mul_smul_comm, ← mul_assoc, ← series_mul]
            rfl
          · simp
        rw [Finset.sum_congr rfl e3]
        refine Eq.trans (Finset.sum_congr rfl fun K _ => ?_) Finset.sum_comm
        refine Eq.trans (Finset.sum_congr rfl fun L _ => ?_) Finset.sum_comm
        rw [hC, annihilate_cluster cc c t ht K, Finset.sum_mul, Finset.mul_sum]
      rw [e2, Finset.smul_sum, Finset.smul_sum]
      refine Finset.sum_congr rfl fun x _ => ?_
      by_cases hx : x.m_h = c
      · subst hx
        simp only [if_true, true_and]
        have e4 : ∀ K : Fin x.m_h → Fin N, ∑ L : Fin e → Fin N, series N (d + x.m_o) (afterFirst A t G d x (modes K) (modes L)) * (C ^ j).map (annihilate L) =
            (e.factorial : Rat) • ∑ xs ∈ words (alphabet cc) j, if (xs.map T.m_h).sum = e then seqWeight xs • seqSeries A N t (afterFirst A t G d x (modes K)) e (d + x.m_o) xs else 0 := by
          intro K
          rw [← ih e (d + x.m_o) (afterFirst A t G d x (modes K)), smul_smul, mul_one_div_cancel (by exact_mod_cast Nat.factorial_ne_zero e), one_smul]
          intro I l l' hI hl hp
          unfold afterFirst
          rw [hG _ (modes K ++ l) (modes K ++ l') (by rw [List.length_take, hI]; omega) (by simp [modes_length, hl, hn]) (hp.append_left _)]
        rw [Finset.sum_congr rfl fun K _ => congrArg (fun M => (1 / (x.m_o.factorial : Rat)) • M) (e4 K)]
        simp only [smul_smul, Finset.smul_sum]
        rw [Finset.sum_comm]
        refine Finset.sum_congr rfl fun xs _ => ?_
        split
        · rw [← hn, seqSeries_cons, seqWeight_cons, Finset.smul_sum]
          refine Finset.sum_congr rfl fun K _ => ?_
          rw [← Nat.cast_smul_eq_nsmul Rat, smul_smul, smul_smul, smul_smul]
          congr 1
          have hch := Nat.add_choose_mul_factorial_mul_factorial x.m_h e
          have h1 : ((x.m_h + e).factorial : Rat) = ((x.m_h + e).choose x.m_h : Rat) * x.m_h.factorial * e.factorial := by rw [← hch, ← Nat.choose_symm_add]; push_cast; rfl
          have h2 : (x.m_h.factorial : Rat) ≠ 0 := by exact_mod_cast Nat.factorial_ne_zero _
          have h3 : (e.factorial : Rat) ≠ 0 := by exact_mod_cast Nat.factorial_ne_zero _
          have h4 : (x.m_o.factorial : Rat) ≠ 0 := by exact_mod_cast Nat.factorial_ne_zero _
          have h5 : ((x.m_h + e).choose x.m_h : Rat) ≠ 0 := by exact_mod_cast (Nat.choose_pos (by omega)).ne'
          rw [h1]
          field_simp
        · simp
      · simp [hx]
    rw [Finset.sum_congr rfl e1, Finset.sum_comm]
    refine Finset.sum_congr rfl fun x _ => ?_
    rw [Finset.sum_comm]
    refine Finset.sum_congr rfl fun xs _ => ?_
    rw [List.map_cons, List.sum_cons]
    split
    · rename_i h
      rw [Finset.sum_eq_single (x.m_h, (xs.map T.m_h).sum)]
      · simp
      · intro p hp hne
        rw [if_neg]
        rintro ⟨h1, h2⟩
        exact hne (Prod.ext h1.symm h2.symm)
      · intro hp
        exact absurd (Finset.mem_antidiagonal.2 h) hp
    · rename_i h
      refine Finset.sum_eq_zero fun p hp => ?_
      rw [if_neg]
      rintro ⟨h1, h2⟩
      have := Finset.mem_antidiagonal.1 hp
      omega

/-! ## Lists of choices -/

/-- Sum over all ways to replace every letter of a list by one of its options. -/
def choices {α β P : Type} [AddCommMonoid P] (S : α → Finset β) : List α → (List β → P) → P
  | [], F => F []
  | x :: xs, F => ∑ b ∈ S x, choices S xs fun bs => F (b :: bs)

section choices

variable {α β P : Type} [AddCommMonoid P] (S : α → Finset β)

theorem choices_add (xs : List α) : ∀ (F G : List β → P), choices S xs (fun bs => F bs + G bs) = choices S xs F + choices S xs G := by
  induction xs with
  | nil => exact fun F G => rfl
  | cons x xs ih =>
    intro F G
    simp only [choices]
    rw [← Finset.sum_add_distrib]
    exact Finset.sum_congr rfl fun b _ => ih _ _

theorem choices_sum {ι : Type} (s : Finset ι) (xs : List α) : ∀ F : ι → List β → P, choices S xs (fun bs => ∑ i ∈ s, F i bs) = ∑ i ∈ s, choices S xs (F i) := by
  induction xs with
  | nil => exact fun F => rfl
  | cons x xs ih =>
    intro F
    simp only [choices]
    rw [Finset.sum_comm]
    exact Finset.sum_congr rfl fun b _ => ih _

theorem choices_insert (x : α) (ys : List α) : ∀ F : List β → P, ((ys.permutations'Aux x).map fun zs => choices S zs F).sum =
    ∑ b ∈ S x, choices S ys fun bs => ((bs.permutations'Aux b).map F).sum := by
  induction ys with
  | nil => intro F; simp [choices, List.permutations'Aux]
  | cons y ys ih =>
    intro F
    rw [List.permutations'Aux, List.map_cons, List.sum_cons, List.map_map]
    have e1 : ((ys.permutations'Aux x).map ((fun zs => choices S zs F) ∘ List.cons y)).sum = ∑ c ∈ S y, ∑ b ∈ S x, choices S ys fun bs => ((bs.permutations'Aux b).map fun ps => F (c :: ps)).sum := by
      have : ∀ l : List (List α), (l.map ((fun zs => choices S zs F) ∘ List.cons y)).sum = ∑ c ∈ S y, (l.map fun zs => choices S zs fun bs => F (c :: bs)).sum := by
        intro l
        induction l with
        | nil => simp
        | cons z l ih => simp only [List.map_cons, List.sum_cons, Finset.sum_add_distrib, ih]; rfl
      rw [this]
      exact Finset.sum_congr rfl fun c _ => ih _
    rw [e1, Finset.sum_comm]
    simp only [choices]
    rw [← Finset.sum_add_distrib]
    refine Finset.sum_congr rfl fun b _ => ?_
    rw [← Finset.sum_add_distrib]
    refine Finset.sum_congr rfl fun c _ => ?_
    rw [← choices_add]
    congr 1
    funext bs
    rw [List.permutations'Aux, List.map_cons, List.sum_cons, List.map_map]
    rfl

theorem choices_perms' (xs : List α) : ∀ F : List β → P, (xs.permutations'.map fun ys => choices S ys F).sum = choices S xs fun bs => (bs.permutations'.map F).sum := by
  induction xs with
  | nil => intro F; simp [choices]
  | cons x xs ih =>
    intro F
    rw [List.permutations', List.map_flatMap, List.flatMap_def, List.sum_flatten, List.map_map]
    have e1 : (List.sum ∘ fun zs : List α => (zs.permutations'Aux x).map fun ys => choices S ys F) =
        fun zs => choices S zs fun bs => ∑ b ∈ S x, ((bs.permutations'Aux b).map F).sum := by
      funext zs
      rw [Function.comp, choices_insert, choices_sum]
    rw [e1, ih, choices, ← choices_sum]
    congr 1
    funext bs
    have : ∀ l : List (List β), (l.map fun zs => ∑ b ∈ S x, ((zs.permutations'Aux b).map F).sum).sum = ∑ b ∈ S x, (l.map fun zs => ((zs.permutations'Aux b).map F).sum).sum := by
      intro l
      induction l with
      | nil => simp
      | cons z l ih => simp only [List.map_cons, List.sum_cons, Finset.sum_add_distrib, ih]
    rw [this]
    refine Finset.sum_congr rfl fun b _ => ?_
    rw [List.permutations', List.map_flatMap, List.flatMap_def, List.sum_flatten, List.map_map]
    rfl

theorem choices_perms (xs : List α) (F : List β → P) : (xs.permutations.map fun ys => choices S ys F).sum = choices S xs fun bs => (bs.permutations.map F).sum := by
  rw [((List.permutations_perm_permutations' xs).map _).sum_eq, choices_perms']
  congr 1
  funext bs
  rw [((List.permutations_perm_permutations' bs).map _).sum_eq]

theorem choices_congr (xs : List α) : ∀ {F G : List β → P}, (∀ bs, List.Forall₂ (fun x b => b ∈ S x) xs bs → F bs = G bs) → choices S xs F = choices S xs G := by
  induction xs with
  | nil => exact fun h => h [] .nil
  | cons x xs ih =>
    intro F G h
    exact Finset.sum_congr rfl fun b hb => ih fun bs hbs => h _ (.cons hb hbs)

end choices

/-! ## Amplitudes with their modes -/

/-- An amplitude with its contracted and its remaining modes. -/
abbrev Block (N : Nat) := T × List (Fin N) × List (Fin N)

def blocks (N : Nat) (x : T) : Finset (Block N) :=
  (Finset.univ : Finset ((Fin x.m_h → Fin N) × (Fin x.m_o → Fin N))).image fun p => (x, List.ofFn p.1, List.ofFn p.2)

theorem sum_blocks {P : Type} [AddCommMonoid P] (x : T) (f : Block N → P) :
    ∑ b ∈ blocks N x, f b = ∑ K : Fin x.m_h → Fin N, ∑ I : Fin x.m_o → Fin N, f (x, List.ofFn K, List.ofFn I) := by
  unfold blocks
  rw [Finset.sum_image, ← Fintype.sum_prod_type']
  rintro ⟨K, I⟩ _ ⟨K', I'⟩ _ h
  simp only [Prod.mk.injEq, true_and] at h
  exact Prod.ext (List.ofFn_injective h.1) (List.ofFn_injective h.2)

/-- The modes as numbers. -/
def vals (l : List (Fin N)) : List Nat := l.map Fin.val

theorem modes_vals {n : Nat} (K : Fin n → Fin N) : modes K = vals (List.ofFn K) := by
  unfold modes vals
  rw [List.map_ofFn]
  rfl

def blockMat (A : Nat) (t : Nat → Arr R) (b : Block N) : Matrix (Fin A) (Fin A) R := mat A (t (b.1.m_h + b.1.m_o)) (vals b.2.1 ++ vals b.2.2)

theorem sum_append' {P : Type} [AddCommMonoid P] (c e : Nat) (f : List (Fin N) → P) :
    ∑ K : Fin (c + e) → Fin N, f (List.ofFn K) = ∑ K : Fin c → Fin N, ∑ L : Fin e → Fin N, f (List.ofFn K ++ List.ofFn L) := by
  rw [← Fintype.sum_prod_type']
  refine (Fintype.sum_equiv (Fin.appendEquiv c e) _ _ fun p => ?_).symm
  obtain ⟨K, L⟩ := p
  simp only [Fin.appendEquiv, Equiv.coe_fn_mk]
  rw [List.ofFn_fin_append]

theorem vals_append (l l' : List (Fin N)) : vals (l ++ l') = vals l ++ vals l' := List.map_append

/-- Summing over all modes is summing over the modes of every amplitude. -/
theorem sum_choices {P : Type} [AddCommMonoid P] (t : Nat → Arr R) (xs : List T) : ∀ Z : List (Fin N) → List (Fin N) → List (Matrix (Fin A) (Fin A) R) → P,
    ∑ K : Fin (xs.map T.m_h).sum → Fin N, ∑ I : Fin (xs.map T.m_o).sum → Fin N,
      Z (List.ofFn K) (List.ofFn I) (amps A (fun p => t p.1) xs (vals (List.ofFn K)) (vals (List.ofFn I))) =
    choices (blocks N) xs fun bs => Z (bs.flatMap fun b => b.2.1) (bs.flatMap fun b => b.2.2) (bs.map (blockMat A t)) := by
  induction xs with
  | nil =>
    intro Z
    show ∑ K : Fin 0 → Fin N, ∑ I : Fin 0 → Fin N, _ = _
    rw [Fintype.sum_unique, Fintype.sum_unique]
    have h0 : ∀ f : Fin 0 → Fin N, List.ofFn f = [] := fun f => by simp
    exact congrArg₂ (fun a b => Z a b []) (h0 _) (h0 _)
  | cons x xs ih =>
    intro Z
    refine (sum_append' x.m_h (xs.map T.m_h).sum fun l => ∑ I : Fin (x.m_o + (xs.map T.m_o).sum) → Fin N, Z l (List.ofFn I) (amps A (fun p => t p.1) (x :: xs) (vals l) (vals (List.ofFn I)))).trans ?_
    rw [choices, sum_blocks]
    refine Finset.sum_congr rfl fun K _ => ?_
    have e1 : ∀ L : Fin (xs.map T.m_h).sum → Fin N,
        ∑ I : Fin (x.m_o + (xs.map T.m_o).sum) → Fin N, Z (List.ofFn K ++ List.ofFn L) (List.ofFn I) (amps A (fun p => t p.1) (x :: xs) (vals (List.ofFn K ++ List.ofFn L)) (vals (List.ofFn I))) =
        ∑ I : Fin x.m_o → Fin N, ∑ J : Fin (xs.map T.m_o).sum → Fin N, Z (List.ofFn K ++ List.ofFn L) (List.ofFn I ++ List.ofFn J)
          (blockMat A t (x, List.ofFn K, List.ofFn I) :: amps A (fun p => t p.1) xs (vals (List.ofFn L)) (vals (List.ofFn J))) := by
      intro L
      rw [sum_append' x.m_o _ fun l => Z (List.ofFn K ++ List.ofFn L) l (amps A (fun p => t p.1) (x :: xs) (vals (List.ofFn K ++ List.ofFn L)) (vals l))]
      refine Finset.sum_congr rfl fun I _ => Finset.sum_congr rfl fun J _ => ?_
      rw [amps, vals_append, vals_append, List.take_left' (by simp [vals]), List.take_left' (by simp [vals]), List.drop_left' (by simp [vals]), List.drop_left' (by simp [vals])]
      rfl
    rw [Finset.sum_congr rfl fun L _ => e1 L, Finset.sum_comm]
    refine Finset.sum_congr rfl fun I _ => ?_
    rw [ih fun k i l => Z (List.ofFn K ++ k) (List.ofFn I ++ i) (blockMat A t (x, List.ofFn K, List.ofFn I) :: l)]
    rfl

/-- Product of creation operators. -/
noncomputable def createL (R : Type) [CommRing R] (l : List (Fin N)) : MvPolynomial (Fin N) R := (l.map X).prod

theorem create_createL {k : Nat} (v : Fin k → Fin N) : create (R := R) v = createL R (List.ofFn v) := by
  unfold create createL
  rw [List.map_ofFn, List.prod_ofFn]
  rfl

theorem createL_append (l l' : List (Fin N)) : createL R (l ++ l') = createL R l * createL R l' := by
  unfold createL
  rw [List.map_append, List.prod_append]

/-- A sum over modes as a sum over amplitudes with their modes. -/
theorem series_choices (t : Nat → Arr R) (G : List Nat → List Nat → Matrix (Fin A) (Fin A) R) (d : Nat) (Q : List (Matrix (Fin A) (Fin A) R) → Matrix (Fin A) (Fin A) R) (xs : List T) :
    series N (d + (xs.map T.m_o).sum) (fun v => ∑ K : Fin (xs.map T.m_h).sum → Fin N, G (modes K) (v.take d) * Q (amps A (fun p => t p.1) xs (modes K) (v.drop d))) =
      ∑ I : Fin d → Fin N, choices (blocks N) xs fun bs => (create (R := R) I * createL R (bs.flatMap fun b => b.2.2)) •
        (G (vals (bs.flatMap fun b => b.2.1)) (modes I) * Q (bs.map (blockMat A t))).map C := by
  unfold series
  simp only [create_createL, modes_vals]
  rw [sum_append' d _ fun l => createL R l • Matrix.map (∑ K : Fin (xs.map T.m_h).sum → Fin N, G (vals (List.ofFn K)) ((vals l).take d) * Q (amps A (fun p => t p.1) xs (vals (List.ofFn K)) ((vals l).drop d))) C]
  refine Finset.sum_congr rfl fun I _ => ?_
  rw [← sum_choices t xs fun k i l => (createL R (List.ofFn I) * createL R i) • (G (vals k) (vals (List.ofFn I)) * Q l).map (C : R →+* MvPolynomial (Fin N) R)]
  rw [Finset.sum_comm]
  refine Finset.sum_congr rfl fun J _ => ?_
  rw [map_C_sum, Finset.smul_sum]
  refine Finset.sum_congr rfl fun K _ => ?_
  rw [createL_append, vals_append, List.take_left' (by simp [vals]), List.drop_left' (by simp [vals])]

theorem createL_perm {l l' : List (Fin N)} (h : l.Perm l') : createL R l = createL R l' := (h.map _).prod_eq

/-- The sum over the orders of the matrices is the sum over the orders of the amplitudes. -/
theorem series_orders (t : Nat → Arr R) (G : List Nat → List Nat → Matrix (Fin A) (Fin A) R) (n d : Nat)
    (hG : ∀ I l l' : List Nat, I.length = d → l.length = n → l.Perm l' → G l I = G l' I) (xs : List T) (hn : (xs.map T.m_h).sum = n) :
    series N (d + (xs.map T.m_o).sum) (fun v => ∑ K : Fin n → Fin N, G (modes K) (v.take d) * ((amps A (fun p => t p.1) xs (modes K) (v.drop d)).permutations.map List.prod).sum) =
      (xs.permutations.map fun ys => seqSeries A N t G n d ys).sum := by
  subst hn
  rw [series_choices t G d (fun l => (l.permutations.map List.prod).sum) xs]
  have e1 : ∀ ys ∈ xs.permutations, seqSeries A N t G (xs.map T.m_h).sum d ys = ∑ I : Fin d → Fin N, choices (blocks N) ys fun bs => (create (R := R) I * createL R (bs.flatMap fun b => b.2.2)) •
        (G (vals (bs.flatMap fun b => b.2.1)) (modes I) * (bs.map (blockMat A t)).prod).map C := by
    intro ys hy
    have hp := List.mem_permutations.1 hy
    rw [← (hp.map T.m_h).sum_eq]
    exact series_choices t G d List.prod ys
  refine Eq.trans ?_ (congrArg List.sum (List.map_congr_left e1)).symm
  have e2 : ∀ l : List (List T), (l.map fun ys => ∑ I : Fin d → Fin N, choices (blocks N) ys fun bs => (create (R := R) I * createL R (bs.flatMap fun b => b.2.2)) •
        (G (vals (bs.flatMap fun b => b.2.1)) (modes I) * (bs.map (blockMat A t)).prod).map (C : R →+* MvPolynomial (Fin N) R)).sum =
      ∑ I : Fin d → Fin N, (l.map fun ys => choices (blocks N) ys fun bs => (create (R := R) I * createL R (bs.flatMap fun b => b.2.2)) •
        (G (vals (bs.flatMap fun b => b.2.1)) (modes I) * (bs.map (blockMat A t)).prod).map (C : R →+* MvPolynomial (Fin N) R)).sum := by
    intro l
    induction l with
    | nil => simp
    | cons z l ih => simp only [List.map_cons, List.sum_cons, Finset.sum_add_distrib, ih]
  rw [e2]
  refine Finset.sum_congr rfl fun I _ => ?_
  rw [choices_perms]
  refine choices_congr _ _ fun bs hbs => ?_
  rw [← List.map_permutations, List.map_map]
  have hlen : ∀ (xs : List T) (bs : List (Block N)), List.Forall₂ (fun x b => b ∈ blocks N x) xs bs → (vals (bs.flatMap fun b => b.2.1)).length = (xs.map T.m_h).sum := by
    intro xs bs h
    induction h with
    | nil => rfl
    | cons hb _ ih =>
      unfold blocks at hb
      obtain ⟨p, _, rfl⟩ := Finset.mem_image.1 hb
      simp only [List.flatMap_cons, vals_append, List.length_append, ih, List.map_cons, List.sum_cons]
      simp [vals]
  have e3 : ∀ ps ∈ bs.permutations, (create (R := R) I * createL R (ps.flatMap fun b => b.2.2)) •
        (G (vals (ps.flatMap fun b => b.2.1)) (modes I) * (ps.map (blockMat A t)).prod).map (C : R →+* MvPolynomial (Fin N) R) =
      (create (R := R) I * createL R (bs.flatMap fun b => b.2.2)) • (G (vals (bs.flatMap fun b => b.2.1)) (modes I) * (ps.map (blockMat A t)).prod).map C := by
    intro ps hps
    have hp := List.mem_permutations.1 hps
    have hp1 : (vals (bs.flatMap fun b : Block N => b.2.1)).Perm (vals (ps.flatMap fun b : Block N => b.2.1)) := ((hp.flatMap_right fun b : Block N => b.2.1).map Fin.val).symm
    rw [createL_perm (hp.flatMap_right fun b : Block N => b.2.2), hG _ _ _ (modes_length I) (hlen xs bs hbs) hp1]
  refine Eq.trans ?_ (congrArg List.sum (List.map_congr_left e3)).symm
  have e4 : ∀ l : List (List (Block N)), (create (R := R) I * createL R (bs.flatMap fun b => b.2.2)) •
        (G (vals (bs.flatMap fun b => b.2.1)) (modes I) * (l.map (List.prod ∘ List.map (blockMat A t))).sum).map (C : R →+* MvPolynomial (Fin N) R) =
      (l.map fun ps => (create (R := R) I * createL R (bs.flatMap fun b => b.2.2)) • (G (vals (bs.flatMap fun b => b.2.1)) (modes I) * (ps.map (blockMat A t)).prod).map (C : R →+* MvPolynomial (Fin N) R)).sum := by
    intro l
    induction l with
    | nil =>
      ext1 a b
      simp
    | cons z l ih =>
      rw [List.map_cons, List.sum_cons, mul_add, List.map_cons, List.sum_cons, ← ih, ← smul_add]
      congr 1
      exact Matrix.map_add _ (map_add _) _ _
  exact e4 _

end TF.Fock
