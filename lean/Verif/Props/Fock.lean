import Verif.Lemmas.Fock
import Verif.Props.DtValue

/-! # C77, C78: the W operators and the equation of motion as operators on the vibrational states -/

namespace TF.Fock

open TF.W
open TF.Spec (AtMostOneBig)
open TF.Spec.W TF.Spec.Tensor TF.Spec.Fock TF.Spec.Dt

variable {R : Type} [CommRing R] {A N : Nat}

/-! ## The W operators -/

theorem product_cons (t : Nat → Arr R) (n : Nat) (ns l : List Nat) : TF.W.product A t (n :: ns) l = mat A (t n) (l.take n) * TF.W.product A t ns (l.drop n) := by
  unfold TF.W.product
  rw [cut, List.zipWith_cons_cons, List.prod_cons]

theorem map_C_one : (1 : Matrix (Fin A) (Fin A) R).map (MvPolynomial.C : R →+* MvPolynomial (Fin N) R) = 1 := Matrix.map_one _ (map_zero _) (map_one _)

theorem series_product (t : Nat → Arr R) (o : List Nat) : series N o.sum (TF.W.product A t o) = (o.map fun n => series N n (mat A (t n))).prod := by
  induction o with
  | nil =>
    rw [List.sum_nil, series_zero]
    exact map_C_one
  | cons n ns ih =>
    rw [List.sum_cons, List.map_cons, List.prod_cons, ← ih, ← series_mul]
    exact series_congr fun v => product_cons t n ns _

variable [Algebra Rat R]

theorem state_series (k : Nat) (x : Arr R) : state A N k x = (1 / (k.factorial : Rat)) • series N k (mat A x) := rfl

theorem prod_states (t : Nat → Arr R) (o : List Nat) : (o.map fun n => state A N n (t n)).prod =
    (1 / ((o.map Nat.factorial).prod : Rat)) • (o.map fun n => series N n (mat A (t n))).prod := by
  induction o with
  | nil => simp
  | cons n ns ih =>
    simp only [List.map_cons, List.prod_cons]
    rw [ih, state_series, smul_mul_smul_comm]
    congr 1
    push_cast
    rw [one_div_mul_one_div]

theorem homog_state (k : Nat) (x : Arr R) : Homog k (state A N k x) := homog_qsmul _ (homog_series k _)

theorem homog_prod (t : Nat → Arr R) (o : List Nat) : Homog o.sum (o.map fun n => state A N n (t n)).prod := by
  induction o with
  | nil =>
    have := homog_C (N := N) (1 : Matrix (Fin A) (Fin A) R)
    rw [map_C_one] at this
    exact this
  | cons n ns ih =>
    rw [List.map_cons, List.prod_cons, List.sum_cons]
    exact homog_mul (homog_state n _) ih

/-- The W operator as an operator: the sum over the orderings of the contributing products. -/
theorem w_state (n : Nat) (M : WModule) (hM : wModule n = .ok M) (env : Spec.W.Env)
    (r : List (Nat × List (Done Einsum) × List (Done Einsum) × List (Done Einsum)))
    (hr : runMaster Einsum.ts env M.vemx M.vecc M.fns M.master = .ok r) (k : Nat) (a b c : List (Done Einsum)) (hk : (k, a, b, c) ∈ r)
    (f : WFunction) (hf : M.fns[k - 1]? = some f) (A N : Nat) (t : Nat → Arr R) :
    ∃ S : Finset (List Nat), (∀ o, o ∈ S ↔ o.sum = k ∧ Enters env o) ∧
      state A N k (Spec.W.returned f (added A N t (a ++ b ++ c))) = ∑ o ∈ S, (1 / (o.length.factorial : Rat)) • (o.map fun j => state A N j (t j)).prod := by
  obtain ⟨S, hS, hv⟩ := w_orderings n M hM env r hr k a b c hk f hf A N t
  refine ⟨S, hS, ?_⟩
  rw [state_series]
  have e1 : series N k (mat A (Spec.W.returned f (added A N t (a ++ b ++ c)))) =
      ∑ o ∈ S, ∑ π : Equiv.Perm (Fin k), weight o • series N k (TF.W.product A t o) := by
    have e2 : ∀ o ∈ S, ∀ π : Equiv.Perm (Fin k), weight o • series N k (TF.W.product A t o) =
        series N k fun l => weight o • TF.W.product A t o (List.ofFn fun i : Fin k => l.getD (π i).val 0) := by
      intro o _ π
      rw [series_smul]
      congr 1
      refine (series_perm π _ _ fun v => ?_).symm
      congr 2
      funext i
      simp [modes]
    rw [Finset.sum_congr rfl fun o ho => Finset.sum_congr rfl fun π _ => e2 o ho π]
    rw [Finset.sum_congr rfl fun o _ => (series_sum (N := N) Finset.univ k fun (π : Equiv.Perm (Fin k)) l => weight o • TF.W.product A t o (List.ofFn fun i : Fin k => l.getD (π i).val 0)).symm]
    rw [← series_sum]
    refine series_congr fun v => ?_
    ext1 x y
    have := hv x y (fun i => (v i).val)
    show Spec.W.returned f (added A N t (a ++ b ++ c)) (x.val :: y.val :: modes v) = _
    unfold modes
    rw [this, sumMat]
    refine Finset.sum_congr rfl fun o _ => ?_
    rw [sumMat]
    refine Finset.sum_congr rfl fun π _ => ?_
    rw [Matrix.smul_apply]
    congr 4
    funext i
    simp
  rw [e1, Finset.smul_sum]
  refine Finset.sum_congr rfl fun o ho => ?_
  have hk' := ((hS o).1 ho).1
  have e3 : series N k (TF.W.product A t o) = (o.map fun n => series N n (mat A (t n))).prod := by
    rw [← series_product t o, hk']
  rw [Finset.sum_const, Finset.card_univ, Fintype.card_perm, Fintype.card_fin, e3, prod_states, ← Nat.cast_smul_eq_nsmul Rat, smul_smul, smul_smul, smul_smul]
  congr 1
  unfold weight
  have h1 : (k.factorial : Rat) ≠ 0 := by exact_mod_cast Nat.factorial_ne_zero k
  rw [Nat.cast_mul]
  field_simp

/-- The words of length `m`. -/
def words {α : Type} [DecidableEq α] (J : Finset α) : Nat → Finset (List α)
  | 0 => {[]}
  | m + 1 => J.biUnion fun j => (words J m).image (List.cons j)

theorem mem_words {α : Type} [DecidableEq α] (J : Finset α) (m : Nat) : ∀ o, o ∈ words J m ↔ o.length = m ∧ ∀ x ∈ o, x ∈ J := by
  induction m with
  | zero =>
    intro o
    simp only [words, Finset.mem_singleton, List.length_eq_zero_iff]
    constructor
    · rintro rfl; simp
    · exact fun h => h.1
  | succ m ih =>
    intro o
    simp only [words, Finset.mem_biUnion, Finset.mem_image]
    constructor
    · rintro ⟨j, hj, o, ho, rfl⟩
      obtain ⟨h1, h2⟩ := (ih o).1 ho
      refine ⟨by simp [h1], ?_⟩
      intro x hx
      rcases List.mem_cons.1 hx with rfl | hx
      · exact hj
      · exact h2 x hx
    · rintro ⟨h1, h2⟩
      obtain _ | ⟨j, o⟩ := o
      · simp at h1
      · exact ⟨j, h2 j (by simp), o, (ih o).2 ⟨by simpa using h1, fun x hx => h2 x (by simp [hx])⟩, rfl⟩

theorem sum_words {P α : Type} [AddCommMonoid P] [DecidableEq α] (J : Finset α) (g : List α → P) (m : Nat) :
    ∑ o ∈ words J (m + 1), g o = ∑ j ∈ J, ∑ o ∈ words J m, g (j :: o) := by
  rw [words, Finset.sum_biUnion]
  · refine Finset.sum_congr rfl fun j _ => ?_
    rw [Finset.sum_image (by intro a _ b _ h; exact (List.cons.inj h).2)]
  · intro i _ j _ hij
    rw [Function.onFun, Finset.disjoint_left]
    intro o h1 h2
    obtain ⟨_, _, rfl⟩ := Finset.mem_image.1 h1
    obtain ⟨_, _, h⟩ := Finset.mem_image.1 h2
    exact hij (List.cons.inj h).1.symm

theorem pow_words {P α : Type} [Semiring P] [DecidableEq α] (J : Finset α) (p : α → P) (m : Nat) : (∑ j ∈ J, p j) ^ m = ∑ o ∈ words J m, (o.map p).prod := by
  induction m with
  | zero => simp [words]
  | succ m ih =>
    rw [pow_succ', ih, sum_words, Finset.sum_mul]
    refine Finset.sum_congr rfl fun j _ => ?_
    rw [Finset.mul_sum]
    simp

/-- The words of singles. -/
theorem words_none {P : Type} [Semiring P] (J : Finset Nat) (hJ : ∀ j ∈ J, 1 < j) (p : Nat → P) (m : Nat) :
    ∑ o ∈ words (insert 1 J) m, (if (o.filter fun x => decide (1 < x)).length = 0 then (o.map p).prod else 0) = p 1 ^ m := by
  have h1 : 1 ∉ J := fun h => absurd (hJ 1 h) (by omega)
  induction m with
  | zero => simp [words]
  | succ m ih =>
    rw [sum_words, Finset.sum_insert h1, Finset.sum_eq_zero (s := J), add_zero, pow_succ', ← ih, Finset.mul_sum]
    · refine Finset.sum_congr rfl fun o _ => ?_
      simp
    · intro j hj
      refine Finset.sum_eq_zero fun o _ => ?_
      rw [if_neg]
      rw [List.filter_cons_of_pos (by simpa using hJ j hj)]
      simp

/-- The words with one factor that is not a single. -/
theorem words_one {P : Type} [Semiring P] (J : Finset Nat) (hJ : ∀ j ∈ J, 1 < j) (p : Nat → P) (m : Nat) :
    ∑ o ∈ words (insert 1 J) m, (if (o.filter fun x => decide (1 < x)).length = 1 then (o.map p).prod else 0) =
      ∑ i ∈ Finset.range m, p 1 ^ i * (∑ j ∈ J, p j) * p 1 ^ (m - 1 - i) := by
  have h1 : 1 ∉ J := fun h => absurd (hJ 1 h) (by omega)
  induction m with
  | zero => simp [words]
  | succ m ih =>
    rw [sum_words, Finset.sum_insert h1, Finset.sum_range_succ']
    congr 1
    · have e : ∀ i ∈ Finset.range m, p 1 ^ (i + 1) * (∑ j ∈ J, p j) * p 1 ^ (m + 1 - 1 - (i + 1)) = p 1 * (p 1 ^ i * (∑ j ∈ J, p j) * p 1 ^ (m - 1 - i)) := by
        intro i _
        rw [pow_succ', show m + 1 - 1 - (i + 1) = m - 1 - i by omega]
        simp only [mul_assoc]
      rw [Finset.sum_congr rfl e, ← Finset.mul_sum, ← ih, Finset.mul_sum]
      refine Finset.sum_congr rfl fun o _ => ?_
      simp
    · rw [pow_zero, one_mul, Nat.add_sub_cancel, Nat.sub_zero, ← words_none J hJ p m, Finset.sum_mul]
      refine Finset.sum_congr rfl fun j hj => ?_
      rw [Finset.mul_sum]
      refine Finset.sum_congr rfl fun o _ => ?_
      rw [List.filter_cons_of_pos (by simpa using hJ j hj)]
      simp

/-- **C77.** For the coupled-cluster ansatz with any truncation that includes an amplitude only together with all smaller ones: the W operator of order `k` is the part with `k` modes of the
exponential of the cluster operator, the sum of the included amplitudes (any arrays; the electronic matrices need not commute). -/
theorem w_is_exponential (n : Nat) (M : WModule) (hM : wModule n = .ok M) (env : Spec.W.Env) (hmix : env.mixed = false) (hcc : env.cc = true)
    (hfl : ∀ i j, 2 ≤ i → i ≤ j → env.fl j = true → env.fl i = true)
    (r : List (Nat × List (Done Einsum) × List (Done Einsum) × List (Done Einsum)))
    (hr : runMaster Einsum.ts env M.vemx M.vecc M.fns M.master = .ok r) (k : Nat) (a b c : List (Done Einsum)) (hk : (k, a, b, c) ∈ r)
    (f : WFunction) (hf : M.fns[k - 1]? = some f) (A N : Nat) (t : Nat → Arr R) (L P : Nat) (hL : k ≤ L) (hP : k ≤ P) :
    state A N k (Spec.W.returned f (added A N t (a ++ b ++ c))) =
      part k (expUpTo P (cluster A N ((Finset.Icc 1 L).filter fun j => j = 1 ∨ env.fl j = true) t)) := by
  obtain ⟨S, hS, e⟩ := w_state n M hM env r hr k a b c hk f hf A N t
  rw [e]
  set J := (Finset.Icc 1 L).filter fun j => j = 1 ∨ env.fl j = true with hJ
  unfold expUpTo cluster
  rw [part_sum]
  have e1 : ∀ m ∈ Finset.range (P + 1), part k ((1 / (m.factorial : Rat)) • (∑ j ∈ J, state A N j (t j)) ^ m) =
      ∑ o ∈ (words J m).filter (fun o => o.sum = k), (1 / (o.length.factorial : Rat)) • (o.map fun j => state A N j (t j)).prod := by
    intro m _
    rw [part_qsmul, pow_words, part_sum, Finset.sum_filter, Finset.smul_sum]
    refine Finset.sum_congr rfl fun o ho => ?_
    rw [part_of_homog (homog_prod t o), ((mem_words J m o).1 ho).1]
    split
    · rfl
    · rw [smul_zero]
  rw [Finset.sum_congr rfl e1]
  have hiff : ∀ o, o.sum = k → (Enters env o ↔ ∀ x ∈ o, x ∈ J) := by
    intro o ho
    have hle : ∀ x ∈ o, x ≤ k := fun x hx => ho ▸ List.le_sum_of_mem hx
    rw [hJ]
    simp only [Finset.mem_filter, Finset.mem_Icc]
    constructor
    · intro h x hx
      refine ⟨⟨h.pos x hx, (hle x hx).trans hL⟩, ?_⟩
      have hx1 := h.pos x hx
      obtain ⟨y, hy, hmax⟩ : ∃ y ∈ o, ∀ z ∈ o, z ≤ y := by
        have hne : o ≠ [] := by rintro rfl; simp at hx
        exact ⟨_, List.maximum_of_length_pos_mem (List.length_pos_iff.2 hne), fun z hz => List.le_maximum_of_length_pos_of_mem hz _⟩
      by_cases h1 : x = 1
      · exact .inl h1
      · right
        have := hmax x hx
        rcases h.truncation y hy hmax with h2 | h2
        · omega
        · exact hfl x y (by omega) this h2
    · intro h
      exact ⟨fun x hx => (h x hx).1.1, .inr (.inr ⟨hmix, hcc⟩), fun x hx _ => (h x hx).2⟩
  have hlen : ∀ o ∈ S, o.length ∈ Finset.range (P + 1) := by
    intro o ho
    obtain ⟨h1, h2⟩ := (hS o).1 ho
    have : o.length ≤ o.sum := List.length_le_sum_of_one_le o h2.pos
    simp; omega
  rw [← Finset.sum_fiberwise_of_maps_to hlen]
  refine Finset.sum_congr rfl fun m _ => Finset.sum_congr ?_ fun _ _ => rfl
  ext o
  rw [Finset.mem_filter, Finset.mem_filter, hS, mem_words]
  constructor
  · rintro ⟨⟨h1, h2⟩, h3⟩
    exact ⟨⟨h3, (hiff o h1).1 h2⟩, h1⟩
  · rintro ⟨⟨h1, h2⟩, h3⟩
    exact ⟨⟨h3, (hiff o h3).2 h2⟩, h1⟩

/-- **C77** for the linear ansatz: the W operator of order `k` is the part with `k` modes of the cluster operator. -/
theorem w_is_linear (n : Nat) (M : WModule) (hM : wModule n = .ok M) (env : Spec.W.Env) (hmix : env.mixed = false) (hcc : env.cc = false)
    (r : List (Nat × List (Done Einsum) × List (Done Einsum) × List (Done Einsum)))
    (hr : runMaster Einsum.ts env M.vemx M.vecc M.fns M.master = .ok r) (k : Nat) (a b c : List (Done Einsum)) (hk : (k, a, b, c) ∈ r)
    (f : WFunction) (hf : M.fns[k - 1]? = some f) (A N : Nat) (t : Nat → Arr R) (L : Nat) (hL : k ≤ L) :
    state A N k (Spec.W.returned f (added A N t (a ++ b ++ c))) =
      part k (cluster A N ((Finset.Icc 1 L).filter fun j => j = 1 ∨ env.fl j = true) t) := by
  obtain ⟨S, hS, e⟩ := w_state n M hM env r hr k a b c hk f hf A N t
  have hk1 : 1 ≤ k := (TF.Dt.w_run_explicit n M hM _ r hr k a b c hk).1
  rw [e]
  unfold cluster
  rw [part_sum, Finset.sum_congr rfl fun j _ => part_of_homog (homog_state j (t j)), ← Finset.sum_filter]
  have hiff : ∀ o, o ∈ S ↔ o = [k] ∧ (k = 1 ∨ env.fl k = true) := by
    intro o
    rw [hS]
    constructor
    · rintro ⟨h1, h2⟩
      rcases h2.ansatz with h | ⟨h, _⟩ | ⟨_, h⟩
      · obtain ⟨x, rfl⟩ := List.length_eq_one_iff.1 h
        have hx : x = k := by simpa using h1
        subst hx
        exact ⟨rfl, h2.truncation x (by simp) (by simp)⟩
      · rw [hmix] at h; cases h
      · rw [hcc] at h; cases h
    · rintro ⟨rfl, h⟩
      exact ⟨by simp, ⟨by simpa using hk1, .inl rfl, by simpa using h⟩⟩
  by_cases hin : k = 1 ∨ env.fl k = true
  · have e1 : S = {[k]} := by
      ext o; rw [hiff]; simp [hin]
    have e2 : ((Finset.Icc 1 L).filter fun j => j = 1 ∨ env.fl j = true).filter (fun j => j = k) = {k} := by
      ext j
      simp only [Finset.mem_filter, Finset.mem_Icc, Finset.mem_singleton]
      constructor
      · exact fun h => h.2
      · rintro rfl; exact ⟨⟨⟨hk1, hL⟩, hin⟩, rfl⟩
    rw [e1, e2]
    simp
  · have e1 : S = ∅ := by
      ext o; rw [hiff]; simp [hin]
    have e2 : ((Finset.Icc 1 L).filter fun j => j = 1 ∨ env.fl j = true).filter (fun j => j = k) = ∅ := by
      ext j
      simp only [Finset.mem_filter, Finset.mem_Icc, Finset.notMem_empty, iff_false]
      rintro ⟨⟨_, h⟩, rfl⟩
      exact hin h
    rw [e1, e2]
    rfl

/-- **C77** for the mixed ansatz: the W operator of order `k` is the part with `k` modes of the terms of the exponential of the
cluster operator with at most one factor that is not a single. -/
theorem w_is_mixed (n : Nat) (M : WModule) (hM : wModule n = .ok M) (env : Spec.W.Env) (hmix : env.mixed = true)
    (r : List (Nat × List (Done Einsum) × List (Done Einsum) × List (Done Einsum)))
    (hr : runMaster Einsum.ts env M.vemx M.vecc M.fns M.master = .ok r) (k : Nat) (a b c : List (Done Einsum)) (hk : (k, a, b, c) ∈ r)
    (f : WFunction) (hf : M.fns[k - 1]? = some f) (A N : Nat) (t : Nat → Arr R) (L P : Nat) (hL : k ≤ L) (hP : k ≤ P) :
    state A N k (Spec.W.returned f (added A N t (a ++ b ++ c))) =
      part k (expMixed P (state A N 1 (t 1)) (cluster A N ((Finset.Icc 2 L).filter fun j => env.fl j = true) t)) := by
  obtain ⟨S, hS, e⟩ := w_state n M hM env r hr k a b c hk f hf A N t
  rw [e]
  set J := (Finset.Icc 2 L).filter fun j => env.fl j = true with hJ
  have hJ1 : ∀ j ∈ J, 1 < j := by
    intro j hj
    rw [hJ, Finset.mem_filter, Finset.mem_Icc] at hj
    omega
  classical
  unfold expMixed cluster
  rw [part_sum]
  have e1 : ∀ m ∈ Finset.range (P + 1), part k ((1 / (m.factorial : Rat)) • (state A N 1 (t 1) ^ m +
        ∑ i ∈ Finset.range m, state A N 1 (t 1) ^ i * (∑ j ∈ J, state A N j (t j)) * state A N 1 (t 1) ^ (m - 1 - i))) =
      ∑ o ∈ (words (insert 1 J) m).filter (fun o => o.sum = k ∧ AtMostOneBig o), (1 / (o.length.factorial : Rat)) • (o.map fun j => state A N j (t j)).prod := by
    intro m _
    rw [part_qsmul, ← words_none J hJ1 (fun j => state A N j (t j)) m, ← words_one J hJ1 (fun j => state A N j (t j)) m, ← Finset.sum_add_distrib,
      part_sum, Finset.sum_filter, Finset.smul_sum]
    refine Finset.sum_congr rfl fun o ho => ?_
    have e2 : ((if (o.filter fun x => decide (1 < x)).length = 0 then (o.map fun j => state A N j (t j)).prod else 0) +
        if (o.filter fun x => decide (1 < x)).length = 1 then (o.map fun j => state A N j (t j)).prod else 0) =
        if AtMostOneBig o then (o.map fun j => state A N j (t j)).prod else 0 := by
      unfold AtMostOneBig
      by_cases h0 : (o.filter fun x => decide (1 < x)).length = 0
      · simp [h0]
      · by_cases h1 : (o.filter fun x => decide (1 < x)).length = 1
        · simp [h1]
        · rw [if_neg h0, if_neg h1, if_neg (by omega), add_zero]
    rw [e2, ((mem_words _ m o).1 ho).1]
    by_cases hb : AtMostOneBig o
    · rw [if_pos hb, part_of_homog (homog_prod t o)]
      by_cases hs : o.sum = k
      · rw [if_pos hs, if_pos ⟨hs, hb⟩]
      · rw [if_neg hs, if_neg (fun h => hs h.1), smul_zero]
    · rw [if_neg hb, if_neg (fun h => hb h.2)]
      have : part k (0 : Op R A N) = 0 := by
        unfold part; ext1 a b; simp
      rw [this, smul_zero]
  rw [Finset.sum_congr rfl e1]
  have hiff : ∀ o, o.sum = k → (Enters env o ↔ (∀ x ∈ o, x ∈ insert 1 J) ∧ AtMostOneBig o) := by
    intro o ho
    have hle : ∀ x ∈ o, x ≤ k := fun x hx => ho ▸ List.le_sum_of_mem hx
    rw [hJ]
    simp only [Finset.mem_insert, Finset.mem_filter, Finset.mem_Icc]
    constructor
    · intro h
      have hb : AtMostOneBig o := by
        rcases h.ansatz with h | ⟨_, h⟩ | ⟨h, _⟩
        · unfold AtMostOneBig
          exact (List.length_filter_le _ _).trans h.le
        · exact h
        · rw [hmix] at h; cases h
      refine ⟨fun x hx => ?_, hb⟩
      by_cases h1 : x = 1
      · exact .inl h1
      · right
        have hx1 := h.pos x hx
        have hmax : ∀ y ∈ o, y ≤ x := by
          intro y hy
          by_contra hyx
          obtain ⟨i, hi, rfl⟩ := List.getElem_of_mem hx
          obtain ⟨j, hj, rfl⟩ := List.getElem_of_mem hy
          unfold AtMostOneBig at hb
          have hd : [o[i], o[j]].Subperm o := by
            refine List.subperm_of_subset ?_ ?_
            · simp; omega
            · intro z hz
              simp at hz
              rcases hz with rfl | rfl
              · exact hx
              · exact hy
          have := (hd.filter fun x => decide (1 < x)).length_le
          rw [List.filter_eq_self.2 (by simp; omega)] at this
          simp at this
          omega
        rcases h.truncation x hx hmax with h2 | h2
        · exact absurd h2 h1
        · exact ⟨⟨by omega, (hle x hx).trans hL⟩, h2⟩
    · rintro ⟨h, hb⟩
      refine ⟨fun x hx => ?_, .inr (.inl ⟨hmix, hb⟩), fun x hx _ => ?_⟩
      · rcases h x hx with h | h <;> omega
      · rcases h x hx with h | h
        · exact .inl h
        · exact .inr h.2
  have hlen : ∀ o ∈ S, o.length ∈ Finset.range (P + 1) := by
    intro o ho
    obtain ⟨h1, h2⟩ := (hS o).1 ho
    have : o.length ≤ o.sum := List.length_le_sum_of_one_le o h2.pos
    simp; omega
  rw [← Finset.sum_fiberwise_of_maps_to hlen]
  refine Finset.sum_congr rfl fun m _ => Finset.sum_congr ?_ fun _ _ => rfl
  ext o
  rw [Finset.mem_filter, Finset.mem_filter, hS, mem_words]
  constructor
  · rintro ⟨⟨h1, h2⟩, h3⟩
    exact ⟨⟨h3, ((hiff o h1).1 h2).1⟩, h1, ((hiff o h1).1 h2).2⟩
  · rintro ⟨⟨h1, h2⟩, h3, h4⟩
    exact ⟨⟨h3, (hiff o h3).2 ⟨h2, h4⟩⟩, h1⟩

/-! ## The Hamiltonian -/

/-- The contraction of a Hamiltonian term with a W operator, `I` the created modes and `J` the other ones. -/
def contraction (A N n : Nat) (h w : Arr R) (I J : List Nat) : Matrix (Fin A) (Fin A) R :=
  ∑ K : Fin n → Fin N, mat A h (modes K ++ I) * mat A w (modes K ++ J)

omit [Algebra Rat R] in
theorem contraction_perm {m n j : Nat} {h w : Arr R} (hh : UpperSymmetric m n h) (hw : ModeSymmetric (n + j) w) (I I' J J' : List Nat)
    (hI : I.length = m) (hJ : J.length = j) (h1 : I.Perm I') (h2 : J.Perm J') : contraction A N n h w I J = contraction A N n h w I' J' := by
  unfold contraction
  refine Finset.sum_congr rfl fun K _ => ?_
  congr 1
  · funext a b
    exact hh a b _ _ _ (modes_length K) hI h1
  · exact mat_perm hw (by simp [modes_length, hJ]) (h2.append_left _)

theorem hamW_perms {k m n : Nat} (hm : m ≤ k) {h w : Arr R} (hh : UpperSymmetric m n h) (hw : ModeSymmetric (n + (k - m)) w) (v : Fin k → Nat) :
    hamW A N h w m n v = (1 / ((n.factorial * (m.factorial * (k - m).factorial) : Nat) : Rat)) •
      ∑ π : Equiv.Perm (Fin k), contraction A N n h w ((List.ofFn fun i => v (π i)).take m) ((List.ofFn fun i => v (π i)).drop m) := by
  rw [TF.Dt.sum_split hm v (contraction A N n h w) fun I I' J J' => contraction_perm hh hw I I' J J', ← Nat.cast_smul_eq_nsmul Rat, smul_smul]
  unfold hamW
  congr 1
  rw [Nat.cast_mul n.factorial]
  have h1 : ((m.factorial * (k - m).factorial : Nat) : Rat) ≠ 0 := by
    exact_mod_cast Nat.mul_ne_zero (Nat.factorial_ne_zero _) (Nat.factorial_ne_zero _)
  have h2 : (n.factorial : Rat) ≠ 0 := by exact_mod_cast Nat.factorial_ne_zero _
  field_simp

theorem hamW_symmetric {k m n : Nat} (hm : m ≤ k) {h w : Arr R} (hh : UpperSymmetric m n h) (hw : ModeSymmetric (n + (k - m)) w) (v : Fin k → Nat) (σ : Equiv.Perm (Fin k)) :
    hamW A N h w m n (fun i => v (σ i)) = hamW A N h w m n v := by
  rw [hamW_perms hm hh hw, hamW_perms hm hh hw]
  congr 1
  exact Fintype.sum_equiv (Equiv.mulLeft σ) _ _ fun π => rfl

/-- The product of a Hamiltonian term and the state of the W operator. -/
theorem term_state {k m n : Nat} (hm : m ≤ k) {h w : Arr R} (hw : ModeSymmetric (n + (k - m)) w) :
    term A N m n h (state A N (n + (k - m)) w) = (1 / ((m.factorial * n.factorial * (k - m).factorial : Nat) : Rat)) •
      series N k fun l => contraction A N n h w (l.take m) (l.drop m) := by
  have e1 : ∀ K : Fin n → Fin N, (state A N (n + (k - m)) w).map (annihilate K) =
      (1 / ((k - m).factorial : Rat)) • series N (k - m) fun l => mat A w (modes K ++ l) := by
    intro K
    have h0 := annihilate_series n (k - m) K (mat A w) (fun l l' hl hp => mat_perm hw hl hp)
    have h1 : (state A N (n + (k - m)) w).map (annihilate K) = (1 / ((n + (k - m)).factorial : Rat)) • (series N (n + (k - m)) (mat A w)).map (annihilate K) := by
      rw [state_series]
      ext1 a b
      rw [Matrix.map_apply, Matrix.smul_apply, Matrix.smul_apply, Matrix.map_apply, Algebra.smul_def, Algebra.smul_def]
      exact annihilate_C_mul K _ _
    rw [h1, h0, Nat.cast_smul_eq_nsmul, ← Nat.cast_smul_eq_nsmul Rat, smul_smul]
    congr 1
    have h2 := Nat.factorial_mul_descFactorial (n := n + (k - m)) (k := n) (by omega)
    rw [Nat.add_sub_cancel_left] at h2
    have h3 : ((n + (k - m)).factorial : Rat) = ((k - m).factorial : Rat) * ((n + (k - m)).descFactorial n : Rat) := by
      rw [← h2]; push_cast; rfl
    have h4 : ((k - m).factorial : Rat) ≠ 0 := by exact_mod_cast Nat.factorial_ne_zero _
    have h5 : ((n + (k - m)).factorial : Rat) ≠ 0 := by exact_mod_cast Nat.factorial_ne_zero _
    have h6 : ((n + (k - m)).descFactorial n : Rat) ≠ 0 := by
      intro h; rw [h, mul_zero] at h3; exact h5 h3
    rw [h3]
    field_simp
  unfold term
  rw [Finset.sum_comm]
  have e2 : ∀ K : Fin n → Fin N, ∑ I : Fin m → Fin N, create (R := R) I • ((mat A h (modes K ++ modes I)).map MvPolynomial.C * (state A N (n + (k - m)) w).map (annihilate K)) =
      (1 / ((k - m).factorial : Rat)) • series N k fun l => mat A h (modes K ++ l.take m) * mat A w (modes K ++ l.drop m) := by
    intro K
    have h1 := series_mul (N := N) m (k - m) (fun l => mat A h (modes K ++ l)) (fun l => mat A w (modes K ++ l))
    rw [show m + (k - m) = k by omega] at h1
    rw [h1, e1, ← mul_smul_comm]
    unfold series
    rw [Finset.sum_mul]
    exact Finset.sum_congr rfl fun I _ => by rw [Matrix.smul_mul]
  rw [Finset.sum_congr rfl fun K _ => e2 K, ← Finset.smul_sum, smul_smul]
  unfold contraction
  rw [series_sum]
  congr 1
  push_cast
  rw [one_div_mul_one_div]

/-- The entries `hamW` are the coefficients of the product of the Hamiltonian term, as a differential operator, and
the W operator. -/
theorem hamW_state {k m n : Nat} (hm : m ≤ k) {h w : Arr R} (hh : UpperSymmetric m n h) (hw : ModeSymmetric (n + (k - m)) w) :
    (1 / (k.factorial : Rat)) • ∑ v : Fin k → Fin N, create (R := R) v • (hamW A N h w m n fun i => (v i).val).map MvPolynomial.C =
      term A N m n h (state A N (n + (k - m)) w) := by
  rw [term_state hm hw]
  have e1 : ∀ π : Equiv.Perm (Fin k), series N k (fun l => contraction A N n h w ((List.ofFn fun i : Fin k => l.getD (π i).val 0).take m) ((List.ofFn fun i : Fin k => l.getD (π i).val 0).drop m)) =
      series N k fun l => contraction A N n h w (l.take m) (l.drop m) := by
    intro π
    refine series_perm π _ _ fun v => ?_
    have : (List.ofFn fun i : Fin k => (modes v).getD (π i).val 0) = modes fun i => v (π i) := by
      unfold modes
      congr 1
      funext i
      simp
    rw [this]
  have e2 : ∑ v : Fin k → Fin N, create (R := R) v • (hamW A N h w m n fun i => (v i).val).map MvPolynomial.C =
      series N k fun l => (1 / ((n.factorial * (m.factorial * (k - m).factorial) : Nat) : Rat)) •
        ∑ π : Equiv.Perm (Fin k), contraction A N n h w ((List.ofFn fun i : Fin k => l.getD (π i).val 0).take m) ((List.ofFn fun i : Fin k => l.getD (π i).val 0).drop m) := by
    unfold series
    refine Finset.sum_congr rfl fun v _ => ?_
    rw [hamW_perms hm hh hw]
    congr 3
    refine Finset.sum_congr rfl fun π _ => ?_
    have : (List.ofFn fun i : Fin k => (modes v).getD (π i).val 0) = List.ofFn fun i => (v (π i)).val := by
      congr 1
      funext i
      simp [modes]
    rw [this]
  rw [e2, series_smul, series_sum, Finset.sum_congr rfl fun π _ => e1 π, Finset.sum_const, Finset.card_univ, Fintype.card_perm, Fintype.card_fin,
    ← Nat.cast_smul_eq_nsmul Rat, smul_smul, smul_smul]
  congr 1
  have h1 : (k.factorial : Rat) ≠ 0 := by exact_mod_cast Nat.factorial_ne_zero k
  push_cast
  field_simp

theorem term_sum {ι : Type} (m n : Nat) (h : Arr R) (s : Finset ι) (f : ι → Op R A N) : term A N m n h (∑ i ∈ s, f i) = ∑ i ∈ s, term A N m n h (f i) := by
  classical
  have h0 : term A N m n h (0 : Op R A N) = 0 := by
    unfold term
    have : ∀ K : Fin n → Fin N, (0 : Op R A N).map (annihilate K) = 0 := by
      intro K; ext1 a b; simp [annihilate_zero]
    simp [this]
  have h1 : ∀ F G : Op R A N, term A N m n h (F + G) = term A N m n h F + term A N m n h G := by
    intro F G
    unfold term
    have : ∀ K : Fin n → Fin N, (F + G).map (annihilate K) = F.map (annihilate K) + G.map (annihilate K) := by
      intro K; ext1 a b; simp [annihilate_add]
    simp only [this, mul_add, smul_add, Finset.sum_add_distrib]
  induction s using Finset.induction_on with
  | empty => simpa using h0
  | insert i s hi ih => rw [Finset.sum_insert hi, Finset.sum_insert hi, h1, ih]

theorem term_homog (m n j : Nat) (h : Arr R) {F : Op R A N} (hF : Homog j F) :
    (n ≤ j → Homog (m + (j - n)) (term A N m n h F)) ∧ (j < n → term A N m n h F = 0) := by
  constructor
  · intro hj
    refine homog_qsmul _ (homog_sum _ _ fun I _ => homog_sum _ _ fun K _ => ?_)
    refine homog_smul (create_homogeneous I) ?_
    have := homog_mul (homog_C (N := N) (mat A h (modes K ++ modes I))) (G := F.map (annihilate K)) (k := j - n)
      fun a b => (annihilate_homogeneous n K (hF a b)).1 hj
    rwa [Nat.zero_add] at this
  · intro hj
    unfold term
    have : ∀ K : Fin n → Fin N, F.map (annihilate K) = 0 := by
      intro K; ext1 a b
      exact (annihilate_homogeneous n K (hF a b)).2 hj
    simp [this]

/-- The part with `k` modes of a Hamiltonian term applied to a state. -/
theorem part_term (k m n L : Nat) (hL : k + n ≤ L) (h : Arr R) (w : Nat → Arr R) :
    part k (term A N m n h (∑ j ∈ Finset.range (L + 1), state A N j (w j))) = if m ≤ k then term A N m n h (state A N (n + (k - m)) (w (n + (k - m)))) else 0 := by
  rw [term_sum, part_sum]
  have e : ∀ j, part k (term A N m n h (state A N j (w j))) = if m ≤ k ∧ j = n + (k - m) then term A N m n h (state A N j (w j)) else 0 := by
    intro j
    obtain ⟨h1, h2⟩ := term_homog m n j h (homog_state (N := N) (A := A) j (w j))
    by_cases hj : n ≤ j
    · rw [part_of_homog (h1 hj)]
      by_cases hc : m + (j - n) = k
      · rw [if_pos hc, if_pos (by omega)]
      · rw [if_neg hc, if_neg (by omega)]
    · rw [h2 (by omega), if_neg (by omega)]
      unfold part; ext1 a b; simp
  rw [Finset.sum_congr rfl fun j _ => e j]
  by_cases hm : m ≤ k
  · simp only [hm, true_and, if_true]
    rw [Finset.sum_ite_eq' (Finset.range (L + 1)), if_pos (by simp; omega)]
  · simp [hm]

/-! ## The equation of motion -/

theorem mode_symmetric_modes {k : Nat} {x : Arr R} (hx : ModeSymmetric k x) (v : Fin k → Fin N) (π : Equiv.Perm (Fin k)) :
    mat A x (modes fun i => v (π i)) = mat A x (modes v) :=
  mat_perm hx (modes_length _) (Equiv.Perm.ofFn_comp_perm π fun i => (v i).val)

/-- The W operators a Hamiltonian of the pipeline is multiplied with are symmetric. -/
theorem pipeline_symmetric (nw : Nat) (mw : WModule) (hmw : wModule nw = .ok mw) (rank : Nat) (hrank : rank ≤ 2)
    (mixed cc q : Bool) (fl : Nat → Bool) (tlenW : Nat) (r : List (Nat × List (Done Einsum) × List (Done Einsum) × List (Done Einsum)))
    (hr : runMaster Einsum.ts ⟨mixed, cc, fl, tlenW⟩ mw.vemx mw.vecc mw.fns mw.master = .ok r)
    (k : Nat) (hk1 : 1 ≤ k) (hk4 : k ≤ 4) (hfl : ∀ j, 1 ≤ j → j ≤ k → fl j = true) (A N : Nat) (t w : Nat → Arr R)
    (hw : ∀ j a b c f, (j, a, b, c) ∈ r → mw.fns[j - 1]? = some f → w j = Spec.W.returned f (added A N t (a ++ b ++ c))) :
    ModeSymmetric k (w k) ∧ ∀ o ∈ hamiltonianTerms rank q, o.1 ≤ k → ModeSymmetric (o.2 + (k - o.1)) (withIdentity w (o.2 + (k - o.1))) := by
  have horders := (w_run_correct nw mw hmw _ r hr).1
  have hpres := TF.Residual.afterW_present nw mw hmw q fl _ horders
  have hnw : nw ≤ 6 := by
    by_contra h
    rw [(module_generated_iff nw).2 (by omega)] at hmw; cases hmw
  obtain ⟨ks, hks, hle⟩ := (w_run_ok_iff nw mw hmw _).1 ⟨r, hr⟩
  have hks' : ks = r.map Prod.fst := by
    rw [hks] at horders
    injection horders
  have hsym : ∀ j, (Spec.Residual.afterW q fl (r.map Prod.fst)).present j = true → ModeSymmetric j (w j) := by
    intro j hj
    have hj' : j ∈ r.map Prod.fst := by
      have : decide (j ∈ r.map Prod.fst) = true := hj
      simpa using this
    obtain ⟨⟨j', a, b, c⟩, hmem, rfl⟩ := List.mem_map.1 hj'
    have hj1 : 1 ≤ j' := (TF.Dt.w_run_explicit nw mw hmw _ r hr j' a b c hmem).1
    have hjn : j' ≤ nw := (hle j' (hks' ▸ hj')).1
    have hf : mw.fns[j' - 1]? = some (fnOf j') := by
      rw [wModule_eq nw hnw] at hmw
      injection hmw with hmw
      subst hmw
      exact TF.Dt.fnOf_get hj1 hjn
    rw [hw j' a b c _ hmem hf]
    exact TF.Dt.returned_symmetric _
  have hp : (Spec.Residual.afterW q fl (r.map Prod.fst)).present k = true := by
    rw [hpres]
    obtain rfl | rfl | rfl | rfl : k = 1 ∨ k = 2 ∨ k = 3 ∨ k = 4 := by omega
    · simp
    · simp
    · simp
    · simp [hfl 2 (by omega) (by omega)]
  refine ⟨hsym k hp, ?_⟩
  rintro ⟨m, n⟩ ho hm
  refine TF.Dt.withIdentity_symmetric w _ fun hj => hsym _ ?_
  unfold hamiltonianTerms at ho
  simp only [Finset.mem_filter, Finset.mem_product, Finset.mem_range] at ho
  obtain ⟨⟨_, _⟩, h3, h4⟩ := ho
  have hb := (TF.Residual.pipeline_operators nw mw hmw q fl _ horders rank k hrank hk4 hfl ⟨m, n⟩).2 ⟨h3, hm, fun hh => h4 ⟨hh.1, ?_⟩⟩
  · have e : n + (k - m) = k - m + n := Nat.add_comm _ _
    simp only [e] at hj ⊢
    exact hb.computed hj
  · intro he; apply hh.2
    injection he with a b
    rw [a, b]

/-- The equation the three generated modules solve together, as an equation of operators on the vibrational
states: `D W_k = (H W)_k - W_k epsilon`, where `W` is the state with all W operators and `H` the sum of the terms `1/(m! n!) h^I_K a+_I a_K`, without
`h^2_0` in the orders 2 and 3. -/
theorem schroedinger (nw : Nat) (mw : WModule) (hmw : wModule nw = .ok mw) (nr rank : Nat) (fns : List TF.Residual.Fn)
    (hfns : TF.Residual.residualModule nr rank = .ok fns) (n : Nat) (m : TF.Dt.DtModule) (hm : TF.Dt.dtModule n = .ok m)
    (veci mixed cc : Bool) (hve : veci = true → mixed = false ∧ cc = false) (q : Bool) (fl : Nat → Bool) (tlenW tlen dtlen : Nat)
    (r : List (Nat × List (Done Einsum) × List (Done Einsum) × List (Done Einsum)))
    (hr : runMaster Einsum.ts ⟨mixed, cc, fl, tlenW⟩ mw.vemx mw.vecc mw.fns mw.master = .ok r)
    (k : Nat) (hk1 : 1 ≤ k) (hk4 : k ≤ 4) (hkn : k ≤ n) (hkr : k ≤ nr) (hfl : ∀ j, 1 ≤ j → j ≤ k → fl j = true) (Q : Spec.Dt.Result TF.Dt.DEinsum)
    (hQ : Spec.Dt.runSolver TF.Dt.DEinsum.ts ⟨veci, mixed, cc, tlen, dtlen, Spec.Residual.afterW q fl (r.map Prod.fst)⟩ fns m.linked m.unlinked m.fns m.solvers k = .ok Q)
    (D : R →ₗ[Rat] R) (hD : ∀ x y, D (x * y) = D x * y + x * D y) (A N : Nat) (h : Nat × Nat → Arr R) (hh : ∀ m n, UpperSymmetric m n (h (m, n)))
    (t w : Nat → Arr R) (ε : Arr R) (ht : ModeSymmetric k (t k))
    (hw : ∀ j a b c f, (j, a, b, c) ∈ r → mw.fns[j - 1]? = some f → w j = Spec.W.returned f (added A N t (a ++ b ++ c)))
    (L : Nat) (hL : k + 2 ≤ L) :
    (∀ (x y : Fin A) (v : Fin k → Fin N), Spec.Dt.returned A N h t (fun j u => D (t j u)) w ε Q (x.val :: y.val :: modes v) = D (t k (x.val :: y.val :: modes v))) ↔
      state A N k (fun u => D (w k u)) =
        part k (hamiltonian A N ((hamiltonianTerms rank q).filter fun o => ¬ (o = (2, 0) ∧ (k = 2 ∨ k = 3))) h
          (∑ j ∈ Finset.range (L + 1), state A N j (withIdentity w j))) - state A N k (w k) * state A N 0 ε := by
  have hrank := ((TF.Residual.residual_module_iff nr rank).1 ⟨fns, hfns⟩).2
  obtain ⟨hs1, hs2⟩ := pipeline_symmetric nw mw hmw rank hrank mixed cc q fl tlenW r hr k hk1 hk4 hfl A N t w hw
  set T := (hamiltonianTerms rank q).filter fun o => ¬ (o = (2, 0) ∧ (k = 2 ∨ k = 3)) with hT
  let F : (Fin k → Fin N) → Matrix (Fin A) (Fin A) R := fun v =>
    mat A (fun u => D (w k u)) (modes v) - (∑ o ∈ T, hamW A N (h o) (withIdentity w (k - o.1 + o.2)) o.1 o.2 (fun i => (v i).val) - mat A (w k) (modes v) * mat A ε [])
  have hleft : (∀ (x y : Fin A) (v : Fin k → Fin N), Spec.Dt.returned A N h t (fun j u => D (t j u)) w ε Q (x.val :: y.val :: modes v) = D (t k (x.val :: y.val :: modes v))) ↔
      ∀ v, F v = 0 := by
    have key := fun x y (v : Fin k → Fin N) => TF.Dt.equation_of_motion nw mw hmw nr rank fns hfns n m hm veci mixed cc hve q fl tlenW tlen dtlen r hr k hk1 hk4 hkn hkr hfl Q hQ
      D hD A N h hh t w ε ht hw x y (fun i => (v i).val)
    constructor
    · intro H v
      ext1 x y
      have := (key x y v).1 (H x y v)
      show D (w k (x.val :: y.val :: modes v)) - ((∑ o ∈ T, hamW A N (h o) (withIdentity w (k - o.1 + o.2)) o.1 o.2 (fun i => (v i).val)) x y -
        (mat A (w k) (modes v) * mat A ε []) x y) = 0
      rw [sumMat, sub_eq_zero]
      exact this
    · intro H x y v
      refine (key x y v).2 ?_
      have : D (w k (x.val :: y.val :: modes v)) - ((∑ o ∈ T, hamW A N (h o) (withIdentity w (k - o.1 + o.2)) o.1 o.2 (fun i => (v i).val)) x y -
        (mat A (w k) (modes v) * mat A ε []) x y) = 0 := congrFun (congrFun (H v) x) y
      rw [sumMat, sub_eq_zero] at this
      exact this
  have hham : part k (hamiltonian A N T h (∑ j ∈ Finset.range (L + 1), state A N j (withIdentity w j))) =
      (1 / (k.factorial : Rat)) • ∑ v : Fin k → Fin N, create (R := R) v • (∑ o ∈ T, hamW A N (h o) (withIdentity w (k - o.1 + o.2)) o.1 o.2 (fun i => (v i).val)).map MvPolynomial.C := by
    unfold hamiltonian
    rw [part_sum]
    simp only [map_C_sum, Finset.smul_sum]
    rw [Finset.sum_comm]
    refine Finset.sum_congr rfl fun o ho => ?_
    obtain ⟨a, b⟩ := o
    have ho' := (Finset.mem_filter.1 ho).1
    have hb : b ≤ 2 := by
      unfold hamiltonianTerms at ho'
      simp only [Finset.mem_filter, Finset.mem_product, Finset.mem_range] at ho'
      omega
    rw [part_term k a b L (by omega), ← Finset.smul_sum]
    by_cases ha : a ≤ k
    · rw [if_pos ha, ← hamW_state ha (hh a b) (hs2 _ ho' ha)]
      simp only [Nat.add_comm b (k - a)]
    · rw [if_neg ha]
      have : ∀ v : Fin k → Fin N, hamW A N (h (a, b)) (withIdentity w (k - a + b)) a b (fun i => (v i).val) = 0 := by
        intro v
        unfold hamW
        rw [Finset.powersetCard_eq_empty.2 (by simp; omega), Finset.sum_empty, smul_zero]
      simp only [this]
      have e0 : (0 : Matrix (Fin A) (Fin A) R).map (MvPolynomial.C : R →+* MvPolynomial (Fin N) R) = 0 := by
        ext1 x y; simp
      simp [e0]
  have heps : state A N k (w k) * state A N 0 ε = (1 / (k.factorial : Rat)) • ∑ v : Fin k → Fin N, create (R := R) v • (mat A (w k) (modes v) * mat A ε []).map MvPolynomial.C := by
    rw [state_series, state_series, series_zero]
    simp only [Nat.factorial_zero, Nat.cast_one, div_one, one_smul, map_C_mul]
    unfold series
    rw [Matrix.smul_mul, Finset.sum_mul]
    congr 1
    exact Finset.sum_congr rfl fun v _ => by rw [Matrix.smul_mul]
  have hdiff : state A N k (fun u => D (w k u)) -
        (part k (hamiltonian A N T h (∑ j ∈ Finset.range (L + 1), state A N j (withIdentity w j))) - state A N k (w k) * state A N 0 ε) =
      (1 / (k.factorial : Rat)) • ∑ v : Fin k → Fin N, create (R := R) v • (F v).map MvPolynomial.C := by
    rw [hham, heps]
    unfold state
    rw [← smul_sub, ← smul_sub, ← Finset.sum_sub_distrib, ← Finset.sum_sub_distrib]
    congr 1
    refine Finset.sum_congr rfl fun v _ => ?_
    rw [← smul_sub, ← smul_sub]
    congr 1
    ext1 x y
    simp only [F, Matrix.sub_apply, Matrix.map_apply, MvPolynomial.C_sub]
  rw [hleft, ← sub_eq_zero (b := _ - _), hdiff]
  constructor
  · intro H
    have e0 : (0 : Matrix (Fin A) (Fin A) R).map (MvPolynomial.C : R →+* MvPolynomial (Fin N) R) = 0 := by
      ext1 x y; simp
    simp [H, e0]
  · intro H v
    have H' : ∑ v : Fin k → Fin N, create (R := R) v • (F v).map (MvPolynomial.C : R →+* MvPolynomial (Fin N) R) = 0 := by
      have h1 : (k.factorial : Rat) ≠ 0 := by exact_mod_cast Nat.factorial_ne_zero k
      have := congrArg (fun z => (k.factorial : Rat) • z) H
      simpa [smul_smul, h1] using this
    ext1 x y
    refine coefficients_zero (fun v => F v x y) ?_ ?_ v
    · intro v π
      have : F (fun i => v (π i)) = F v := by
        show mat A (fun u => D (w k u)) (modes fun i => v (π i)) - (∑ o ∈ T, hamW A N (h o) (withIdentity w (k - o.1 + o.2)) o.1 o.2 (fun i => (v (π i)).val) -
          mat A (w k) (modes fun i => v (π i)) * mat A ε []) = F v
        rw [mode_symmetric_modes hs1 v π, mode_symmetric_modes (x := fun u => D (w k u)) (fun a b l l' hl hp => congrArg D (hs1 a b l l' hl hp)) v π]
        have e : ∀ o ∈ T, hamW A N (h o) (withIdentity w (k - o.1 + o.2)) o.1 o.2 (fun i => (v (π i)).val) =
            hamW A N (h o) (withIdentity w (k - o.1 + o.2)) o.1 o.2 (fun i => (v i).val) := by
          rintro ⟨a, b⟩ ho
          by_cases ha : a ≤ k
          · have hs := hs2 _ (Finset.mem_filter.1 ho).1 ha
            simp only [Nat.add_comm (k - a) b]
            exact hamW_symmetric ha (hh a b) hs (fun i => (v i).val) π
          · unfold hamW
            simp only []
            rw [Finset.powersetCard_eq_empty.2 (by simp; omega), Finset.sum_empty, Finset.sum_empty]
        rw [Finset.sum_congr rfl e]
      exact congrFun (congrFun this x) y
    · have := congrFun (congrFun H' x) y
      rw [Matrix.sum_apply] at this
      exact this

/-- **C78** (partial as `equation_of_motion_partial`: Hamiltonians of rank up to 1, linear truncations, or the orders 1 and 4): the
derivative code returns the derivative of the amplitude exactly when `D W_k = (H W)_k - W_k epsilon` with the whole Hamiltonian. -/
theorem schroedinger_partial (nw : Nat) (mw : WModule) (hmw : wModule nw = .ok mw) (nr rank : Nat) (fns : List TF.Residual.Fn)
    (hfns : TF.Residual.residualModule nr rank = .ok fns) (n : Nat) (m : TF.Dt.DtModule) (hm : TF.Dt.dtModule n = .ok m)
    (veci mixed cc : Bool) (hve : veci = true → mixed = false ∧ cc = false) (q : Bool) (fl : Nat → Bool) (tlenW tlen dtlen : Nat)
    (r : List (Nat × List (Done Einsum) × List (Done Einsum) × List (Done Einsum)))
    (hr : runMaster Einsum.ts ⟨mixed, cc, fl, tlenW⟩ mw.vemx mw.vecc mw.fns mw.master = .ok r)
    (k : Nat) (hk1 : 1 ≤ k) (hk4 : k ≤ 4) (hkn : k ≤ n) (hkr : k ≤ nr) (hfl : ∀ j, 1 ≤ j → j ≤ k → fl j = true)
    (hc : rank ≤ 1 ∨ q = false ∨ k = 1 ∨ k = 4) (Q : Spec.Dt.Result TF.Dt.DEinsum)
    (hQ : Spec.Dt.runSolver TF.Dt.DEinsum.ts ⟨veci, mixed, cc, tlen, dtlen, Spec.Residual.afterW q fl (r.map Prod.fst)⟩ fns m.linked m.unlinked m.fns m.solvers k = .ok Q)
    (D : R →ₗ[Rat] R) (hD : ∀ x y, D (x * y) = D x * y + x * D y) (A N : Nat) (h : Nat × Nat → Arr R) (hh : ∀ m n, UpperSymmetric m n (h (m, n)))
    (t w : Nat → Arr R) (ε : Arr R) (ht : ModeSymmetric k (t k))
    (hw : ∀ j a b c f, (j, a, b, c) ∈ r → mw.fns[j - 1]? = some f → w j = Spec.W.returned f (added A N t (a ++ b ++ c)))
    (L : Nat) (hL : k + 2 ≤ L) :
    (∀ (x y : Fin A) (v : Fin k → Fin N), Spec.Dt.returned A N h t (fun j u => D (t j u)) w ε Q (x.val :: y.val :: modes v) = D (t k (x.val :: y.val :: modes v))) ↔
      state A N k (fun u => D (w k u)) =
        part k (hamiltonian A N (hamiltonianTerms rank q) h
          (∑ j ∈ Finset.range (L + 1), state A N j (withIdentity w j))) - state A N k (w k) * state A N 0 ε := by
  rw [schroedinger nw mw hmw nr rank fns hfns n m hm veci mixed cc hve q fl tlenW tlen dtlen r hr k hk1 hk4 hkn hkr hfl Q hQ D hD A N h hh t w ε ht hw L hL]
  rw [Finset.filter_true_of_mem]
  rintro ⟨a, b⟩ ho ⟨he, hk⟩
  unfold hamiltonianTerms at ho
  simp only [Finset.mem_filter, Finset.mem_product, Finset.mem_range] at ho
  injection he with h1 h2
  subst h1; subst h2
  obtain ⟨_, h3, h4⟩ := ho
  have := h4 ⟨rfl, by simp⟩
  rcases hc with hc | hc | hc | hc
  · omega
  · rw [hc] at this; cases this
  · omega
  · omega

/-! ## The hypotheses are met -/

/-- hypotheses of `w_is_exponential`, `w_is_linear` and `w_is_mixed`: singles and doubles, order 3, all ansätze -/
example (mixed cc : Bool) : ∃ M r a b c f, wModule 6 = .ok M ∧ runMaster Einsum.ts ⟨mixed, cc, fun j => decide (j ≤ 2), 6⟩ M.vemx M.vecc M.fns M.master = .ok r ∧
    (3, a, b, c) ∈ r ∧ M.fns[3 - 1]? = some f ∧ ∀ i j, 2 ≤ i → i ≤ j → decide (j ≤ 2) = true → decide (i ≤ 2) = true := by
  have hw := wModule_eq 6 (by decide)
  have ho : masterOrders (moduleOf 6).master (fun j => decide (j ≤ 2)) = .ok [1, 2, 3, 4] := by
    rw [(w_orders 6 _ hw _).1]; rfl
  obtain ⟨r, hr⟩ := (w_run_ok_iff 6 _ hw ⟨mixed, cc, fun k => decide (k ≤ 2), 6⟩).2 ⟨[1, 2, 3, 4], ho, by decide +revert⟩
  have h1 := (w_run_correct 6 _ hw _ r hr).1
  rw [show masterOrders (moduleOf 6).master (Spec.W.Env.fl ⟨mixed, cc, fun k => decide (k ≤ 2), 6⟩) = _ from ho] at h1
  have h2 : [1, 2, 3, 4] = r.map Prod.fst := Except.ok.inj h1
  have : 3 ∈ r.map Prod.fst := by rw [← h2]; decide
  obtain ⟨⟨k, a, b, c⟩, hm, rfl⟩ := List.mem_map.1 this
  exact ⟨_, r, a, b, c, fnOf 3, hw, hr, hm, by rfl, by simp; omega⟩

/-- The equation of order 2 of the caller of `TF.Dt.pipeline_example` (VECC with singles and doubles, a Hamiltonian of rank 2 with linear truncation, polynomials in the
time as numbers): the hypotheses of `schroedinger` are met. -/
example (ε : Arr (Polynomial Rat)) : ∃ (Q : Spec.Dt.Result TF.Dt.DEinsum) (h : Nat × Nat → Arr (Polynomial Rat)) (t w : Nat → Arr (Polynomial Rat)),
    (∀ (x y : Fin 2) (v : Fin 2 → Fin 3), Spec.Dt.returned 2 3 h t (fun j u => Polynomial.derivative (t j u)) w ε Q (x.val :: y.val :: modes v) = Polynomial.derivative (t 2 (x.val :: y.val :: modes v))) ↔
      state 2 3 2 (fun u => Polynomial.derivative (w 2 u)) =
        part 2 (hamiltonian 2 3 {(0, 0), (0, 1), (1, 0), (1, 1)} h (∑ j ∈ Finset.range 5, state 2 3 j (withIdentity w j))) - state 2 3 2 (w 2) * state 2 3 0 ε := by
  obtain ⟨mw, m, fns, r, Q, h, t, w, h1, h2, h3, h4, _, h6, h7, h8, h9, h10, h11⟩ := TF.Dt.pipeline_example
  refine ⟨Q, h, t, w, ?_⟩
  have key := schroedinger 6 mw h1 6 2 fns h3 6 m h2 false false true (by simp) false (fun j => decide (j ≤ 2)) 6 2 2 r h4 2 (by decide) (by decide) (by decide) (by decide)
    (by simp) Q h6 ((Polynomial.derivative (R := Rat))) h7 2 3 h h8 t w ε h9 h10 4 (by decide)
  rw [h11, show ({(0, 0), (0, 1), (1, 0), (1, 1)} : Finset (Nat × Nat)).filter (fun o => ¬ (o = (2, 0) ∧ (2 = 2 ∨ 2 = 3))) = {(0, 0), (0, 1), (1, 0), (1, 1)} by decide] at key
  exact key

end TF.Fock
