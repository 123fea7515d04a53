import Verif.Spec.FullCCLatex
import Verif.Lemmas.FullCC.Terms

/-! # Lemmas about the LaTeX writer of full-CC terms -/

set_option linter.unusedVariables false

namespace TF.CC

open TF.Py TF.Spec

theorem slice_self {α : Type} (l : List α) (a : Nat) : slice l a a = [] := by
  unfold slice; simp

theorem slice_append {α : Type} (l : List α) {a b c : Nat} (h1 : a ≤ b) (h2 : b ≤ c) :
    slice l a b ++ slice l b c = slice l a c := by
  unfold slice
  have : (l.take c) = l.take b ++ (l.take c).drop b := by
    conv_lhs => rw [← List.take_append_drop b (l.take c)]
    rw [List.take_take, Nat.min_eq_left h2]
  by_cases hb : b ≤ l.length
  · conv_rhs => rw [this]
    rw [List.drop_append_of_le_length (by simp; omega)]
  · have h3 : l.take b = l := List.take_of_length_le (by omega)
    have h4 : l.take c = l := List.take_of_length_le (by omega)
    rw [h3, h4]
    have : l.drop b = [] := List.drop_eq_nil_of_le (by omega)
    rw [this, List.append_nil]

theorem slice_zero {α : Type} (l : List α) (b : Nat) : slice l 0 b = l.take b := by simp [slice]

theorem length_slice' {α : Type} (l : List α) {a b : Nat} (hb : b ≤ l.length) :
    (slice l a b).length = b - a := by
  unfold slice; simp; omega

theorem slice_sublist {α : Type} (l : List α) (a b : Nat) : (slice l a b).Sublist l :=
  (List.drop_sublist _ _).trans (List.take_sublist _ _)

theorem summationIdx_nodup : summationIdx.Nodup := by decide
theorem unlinkedIdx_nodup : unlinkedIdx.Nodup := by decide
theorem idx_disjoint : ∀ c ∈ summationIdx, c ∉ unlinkedIdx := by decide

theorem slice_same {α : Type} (l : List α) (a k : Nat) (h : k = 0) : slice l a (a + k) = [] := by
  subst h; exact slice_self l a

/-- labels of one amplitude, without the case split on empty labels -/
theorem tLabels_letters (t : T) (o : Offs) :
    (subLetters (tLabels t o).1.up).s = slice summationIdx o.upper (o.upper + t.m_h) ∧
    (subLetters (tLabels t o).1.down).s = slice summationIdx o.lower (o.lower + t.n_h) ∧
    (subLetters (tLabels t o).1.down).x = slice unlinkedIdx o.unlinked (o.unlinked + t.n_o) ∧
    (subLetters (tLabels t o).1.up).x = slice unlinkedIdx (o.unlinked + t.n_o) (o.unlinked + t.n_o + t.m_o) ∧
    (tLabels t o).2 = ⟨o.upper + t.m_h, o.lower + t.n_h, o.unlinked + t.n_o + t.m_o⟩ ∧
    ((tLabels t o).1.up = none ∧ (tLabels t o).1.down = none ↔ ampRank t = 0) := by
  unfold tLabels ampRank
  by_cases h1 : t.n_h > 0 ∨ t.n_o > 0
  · by_cases h2 : t.m_h > 0 ∨ t.m_o > 0
    · simp [h1, h2, subLetters]; omega
    · have h3 : t.m_h = 0 ∧ t.m_o = 0 := by omega
      simp [h1, subLetters, h3, slice_self]; omega
  · have h4 : t.n_h = 0 ∧ t.n_o = 0 := by omega
    by_cases h2 : t.m_h > 0 ∨ t.m_o > 0
    · simp [h2, subLetters, h4, slice_self]; omega
    · have h3 : t.m_h = 0 ∧ t.m_o = 0 := by omega
      simp [subLetters, h4, h3, slice_self]

theorem tGroupLoop_letters (ts : List T) (o : Offs) :
    tUpperSum (tGroupLoop ts o) = slice summationIdx o.upper (o.upper + (ts.map T.m_h).sum) ∧
    tLowerSum (tGroupLoop ts o) = slice summationIdx o.lower (o.lower + (ts.map T.n_h).sum) ∧
    tExternal (tGroupLoop ts o) =
      slice unlinkedIdx o.unlinked (o.unlinked + ((ts.map T.n_o).sum + (ts.map T.m_o).sum)) := by
  induction ts generalizing o with
  | nil => simp [tGroupLoop, tUpperSum, tLowerSum, tExternal, slice_self]
  | cons t ts ih =>
    obtain ⟨h1, h2, h3, h4, h5, h6⟩ := tLabels_letters t o
    obtain ⟨i1, i2, i3⟩ := ih (tLabels t o).2
    unfold tGroupLoop
    simp only []
    by_cases hs : (tLabels t o).1.up = none ∧ (tLabels t o).1.down = none
    · rw [if_pos hs]
      have hz := h6.1 hs
      unfold ampRank at hz
      have e : t.m_h = 0 ∧ t.n_h = 0 ∧ t.m_o = 0 ∧ t.n_o = 0 := by omega
      rw [i1, i2, i3, h5]
      simp [e.1, e.2.1, e.2.2.1, e.2.2.2]
    · rw [if_neg hs]
      refine ⟨?_, ?_, ?_⟩
      · show (subLetters (tLabels t o).1.up).s ++ tUpperSum _ = _
        rw [i1, h1, h5, slice_append _ (by omega) (by simp)]
        simp [Nat.add_assoc]
      · show (subLetters (tLabels t o).1.down).s ++ tLowerSum _ = _
        rw [i2, h2, h5, slice_append _ (by omega) (by simp)]
        simp [Nat.add_assoc]
      · show ((subLetters (tLabels t o).1.down).x ++ (subLetters (tLabels t o).1.up).x) ++ tExternal _ = _
        rw [i3, h3, h4, h5, slice_append _ (by omega) (by omega), slice_append _ (by omega) (by simp)]
        simp; congr 1; omega

theorem tGroupLoop_counts (ts : List T) (o : Offs) (hpos : ∀ t ∈ ts, 1 ≤ ampRank t)
    (hu : o.upper + (ts.map T.m_h).sum ≤ 10) (hl : o.lower + (ts.map T.n_h).sum ≤ 10)
    (hx : o.unlinked + ((ts.map T.n_o).sum + (ts.map T.m_o).sum) ≤ 8) :
    List.Forall₂ LabelCounts (tGroupLoop ts o) ts := by
  induction ts generalizing o with
  | nil => exact .nil
  | cons t ts ih =>
    obtain ⟨h1, h2, h3, h4, h5, h6⟩ := tLabels_letters t o
    unfold tGroupLoop
    simp only []
    have hs : ¬ ((tLabels t o).1.up = none ∧ (tLabels t o).1.down = none) := by
      rw [h6]; have := hpos t (by simp); omega
    rw [if_neg hs]
    simp only [List.map_cons, List.sum_cons] at hu hl hx
    have e1 : summationIdx.length = 10 := rfl
    have e2 : unlinkedIdx.length = 8 := rfl
    refine .cons ?_ (ih _ (fun x hx => hpos x (by simp [hx])) ?_ ?_ ?_)
    · unfold LabelCounts
      rw [h1, h2, h3, h4, length_slice' _ (by omega), length_slice' _ (by omega), length_slice' _ (by omega),
        length_slice' _ (by omega)]
      omega
    · rw [h5]; simp only []; omega
    · rw [h5]; simp only []; omega
    · rw [h5]; simp only []; omega

theorem tGroup_zero (h : Option HC) (o : Offs) : tGroup [⟨0, 0, 0, 0⟩] h o = [] := by
  cases h <;> rfl

theorem tGroup_amplitudes (t : Term) (h : Option HC) (o : Offs) : tGroup t.ts h o = tGroup (amplitudes t) h o := by
  unfold amplitudes
  split
  · next e => rw [e, tGroup_zero]; cases h <;> rfl
  · rfl

end TF.CC

namespace TF.CC

open TF.Py TF.Spec

theorem hSubs_eq (p : PTerm) (h : HC) (off : Nat) (hp : p.h = hLabels h off) (hr : h.rank = h.m + h.n)
    (hmo : h.m_o ≤ h.m) (hno : h.n_o ≤ h.n) :
    (hSubs p).1.s = slice summationIdx 0 (h.m - h.m_o) ∧
    (hSubs p).2.s = slice summationIdx (h.m - h.m_o) (h.m - h.m_o + (h.n - h.n_o)) ∧
    (hSubs p).1.x = slice unlinkedIdx off (off + h.m_o) ∧
    (hSubs p).2.x = slice unlinkedIdx (off + h.m_o) (off + h.m_o + h.n_o) := by
  unfold hSubs
  rw [hp]
  unfold hLabels
  by_cases h0 : h.rank = 0
  · have : h.m = 0 ∧ h.n = 0 := by omega
    have : h.m_o = 0 ∧ h.n_o = 0 := by omega
    simp [h0, *, slice_self]
  · simp [h0]

/-- The label part shared by plain and condensed printing. -/
theorem sumLabels_of (p : PTerm) (h : HC) (ts : List T) (hOff xOff : Nat)
    (hh : p.h = hLabels h hOff) (hts : p.ts = tGroupLoop ts ⟨h.m - h.m_o, 0, xOff⟩)
    (hr : h.rank = h.m + h.n)
    (h1 : h.m = (ts.map T.n_h).sum + h.m_o) (h2 : h.n = (ts.map T.m_h).sum + h.n_o)
    (hpos : ∀ x ∈ ts, 1 ≤ ampRank x)
    (hcap : (ts.map T.n_h).sum + (ts.map T.m_h).sum ≤ 10)
    (hx1 : hOff + h.m_o + h.n_o ≤ 8)
    (hx2 : xOff + ((ts.map T.n_o).sum + (ts.map T.m_o).sum) ≤ 8) :
    SumLabelsOK h.m h.n h.m_o h.n_o ts p := by
  obtain ⟨e1, e2, e3, e4⟩ := hSubs_eq p h hOff hh hr (by omega) (by omega)
  obtain ⟨g1, g2, g3⟩ := tGroupLoop_letters ts ⟨h.m - h.m_o, 0, xOff⟩
  have l1 : summationIdx.length = 10 := rfl
  have l2 : unlinkedIdx.length = 8 := rfl
  have c1 : h.m - h.m_o = (ts.map T.n_h).sum := by omega
  have c2 : h.n - h.n_o = (ts.map T.m_h).sum := by omega
  refine ⟨?_, ?_, ?_, ?_, ?_, ?_, ?_⟩
  · rw [e1, hts, g2, c1]; simp
  · rw [e2, hts, g1, c2]
  · rw [e1, e2, slice_append _ (by omega) (by omega)]
    exact summationIdx_nodup.sublist (slice_sublist _ _ _)
  · rw [e1, e3, length_slice' _ (by omega), length_slice' _ (by omega)]; omega
  · rw [e2, e4, length_slice' _ (by omega), length_slice' _ (by omega)]; omega
  · rw [hts]
    exact tGroupLoop_counts ts _ hpos (by simp only []; omega) (by simp only []; omega) hx2
  · intro c hc
    rw [e1, e2, slice_append _ (by omega) (by omega)] at hc
    have hc' := idx_disjoint c ((slice_sublist _ _ _).subset hc)
    intro hmem
    apply hc'
    unfold hExternal at hmem
    rw [e3, e4, hts, g3] at hmem
    simp only [List.mem_append] at hmem
    rcases hmem with (h | h) | h
    · exact (slice_sublist _ _ _).subset h
    · exact (slice_sublist _ _ _).subset h
    · exact (slice_sublist _ _ _).subset h

end TF.CC

namespace TF.CC

open TF.Py TF.Spec

theorem count_flatMap_replicate (l : List Nat) (hl : l.Nodup) (f : Nat → Nat) (k : Nat) :
    (l.flatMap fun x => List.replicate (f x) x).count k = if k ∈ l then f k else 0 := by
  induction l with
  | nil => simp
  | cons a l ih =>
    rw [List.nodup_cons] at hl
    rw [List.flatMap_cons, List.count_append, ih hl.2, List.count_replicate]
    by_cases hk : a = k
    · subst hk; simp [hl.1]
    · have hk' : ¬ k = a := fun h => hk h.symm
      simp [hk, hk']

theorem countIn_eq (l : List Nat) (x : Nat) : countIn l x = l.count x := by
  unfold countIn
  rw [List.count_eq_countP, List.countP_eq_length_filter]

/-- what cancellation leaves: multiplicities are reduced by the common multiplicity -/
theorem simplify_count (so : SetOrder Nat) (num den : List Nat) (k : Nat) :
    (simplify so num den).1.count k = num.count k - den.count k ∧
    (simplify so num den).2.count k = den.count k - num.count k := by
  unfold simplify
  by_cases h1 : num = [] ∨ den = []
  · rw [if_pos h1]; rcases h1 with rfl | rfl <;> simp
  · rw [if_neg h1]
    by_cases h2 : ¬ (num.any fun x => den.contains x) = true
    · rw [if_pos (by simpa using h2)]
      have hdis : ∀ x ∈ num, x ∉ den := by simpa using h2
      by_cases hk : k ∈ num
      · have : den.count k = 0 := List.count_eq_zero.2 (hdis k hk)
        simp [this]
      · have : num.count k = 0 := List.count_eq_zero.2 hk
        simp [this]
    · rw [if_neg (by simpa using h2)]
      simp only [count_flatMap_replicate _ (so.nodup _), so.mem, countIn_eq]
      constructor
      · by_cases hk : k ∈ num
        · rw [if_pos hk]
          by_cases hd : k ∈ den
          · simp only [List.contains_iff_mem, hd, if_true]
            split <;> omega
          · have : den.count k = 0 := List.count_eq_zero.2 hd
            simp [hd, this]
        · have : num.count k = 0 := List.count_eq_zero.2 hk
          rw [if_neg hk]; omega
      · by_cases hk : k ∈ den
        · rw [if_pos hk]
          by_cases hd : k ∈ num
          · simp only [List.contains_iff_mem, hd, if_true]
            split
            · omega
            · split <;> omega
          · have : num.count k = 0 := List.count_eq_zero.2 hd
            simp [hd, this]
        · have : den.count k = 0 := List.count_eq_zero.2 hk
          rw [if_neg hk]; omega

theorem factorials_perm {a b : List Nat} (h : a.Perm b) : factorials a = factorials b :=
  (h.map _).prod_eq

theorem factorials_append (a b : List Nat) : factorials (a ++ b) = factorials a * factorials b := by
  unfold factorials; simp

theorem factorials_pos (a : List Nat) : 0 < factorials a := by
  unfold factorials
  induction a with
  | nil => simp
  | cons x l ih => simp only [List.map_cons, List.prod_cons]; exact Nat.mul_pos (Nat.factorial_pos _) ih

theorem simplify_common (so : SetOrder Nat) (num den : List Nat) :
    ∃ c : List Nat, num.Perm ((simplify so num den).1 ++ c) ∧ den.Perm ((simplify so num den).2 ++ c) := by
  refine ⟨(num.dedup).flatMap fun k => List.replicate (min (num.count k) (den.count k)) k, ?_, ?_⟩
  · rw [List.perm_iff_count]
    intro k
    rw [List.count_append, (simplify_count so num den k).1, count_flatMap_replicate _ (List.nodup_dedup _)]
    by_cases hk : k ∈ num
    · simp [hk]
    · have : num.count k = 0 := List.count_eq_zero.2 hk
      simp [hk, this]
  · rw [List.perm_iff_count]
    intro k
    rw [List.count_append, (simplify_count so num den k).2, count_flatMap_replicate _ (List.nodup_dedup _)]
    by_cases hk : k ∈ num
    · simp [hk]; omega
    · have : num.count k = 0 := List.count_eq_zero.2 hk
      simp [hk, this]

end TF.CC

namespace TF.CC

open TF.Py TF.Spec

theorem flatMap_single {α β : Type} (l : List α) (f : α → β) : (l.flatMap fun a => [f a]) = l.map f := by
  induction l with
  | nil => rfl
  | cons a l ih => rw [List.flatMap_cons, ih]; rfl

/-! ### splitting into lines -/

theorem flatten_slices {α : Type} (l : List α) (k : Nat) (hk : 7 * k ≤ l.length) :
    ((List.range k).map fun i => slice l (i * 7) ((i + 1) * 7)).flatten = l.take (7 * k) := by
  induction k with
  | zero => simp
  | succ k ih =>
    rw [List.range_succ, List.map_append, List.flatten_append, ih (by omega)]
    simp only [List.map_cons, List.map_nil, List.flatten_cons, List.flatten_nil, List.append_nil]
    rw [← slice_zero, ← slice_zero, Nat.mul_comm 7 k, slice_append _ (by omega) (by omega)]
    congr 1; omega

theorem splitLines_flatten {α : Type} (l : List α) (h : 14 ≤ l.length) :
    (splitLines l).flatten = l.take (7 * (l.length / 7)) := by
  unfold splitLines
  rw [if_neg (by omega)]
  exact flatten_slices l _ (by omega)

/-! ### the linked group -/

theorem isConnected_iff (t : T) : t.isConnected = decide (TouchesH t) := by
  unfold T.isConnected TouchesH
  by_cases h : t.m_h = 0
  · by_cases h2 : t.n_h = 0
    · simp [h, h2]
    · have : 0 < t.m_h + t.n_h := by omega
      simp [h2, this]
  · have : 0 < t.m_h + t.n_h := by omega
    simp [h, this]

theorem commonFactors_eq (sol : SetOrder (List T)) (l : List Term) :
    commonFactors sol l = sortBy (fun a b => decide (b.length ≤ a.length))
      (sol.iter (l.map fun t => notTouching t.ts)) := by
  unfold commonFactors notTouching
  simp only [isConnected_iff]

theorem mem_commonFactors {sol : SetOrder (List T)} {l : List Term} {f : List T} :
    f ∈ commonFactors sol l ↔ ∃ t ∈ l, notTouching t.ts = f := by
  rw [commonFactors_eq, mem_sortBy, sol.mem, List.mem_map]

theorem nodup_commonFactors (sol : SetOrder (List T)) (l : List Term) : (commonFactors sol l).Nodup := by
  rw [commonFactors_eq, (sortBy_perm _ _).nodup_iff]; exact sol.nodup _

theorem desc_commonFactors (sol : SetOrder (List T)) (l : List Term) :
    (commonFactors sol l).Pairwise fun a b => b.length ≤ a.length := by
  rw [commonFactors_eq]
  have htot : TotalOrderB (fun a b : List T => decide (b.length ≤ a.length)) :=
    { total := fun a b => by simp; omega
      trans := fun a b c => by simp; omega }
  exact (sortBy_pairwise htot _).imp (fun h => of_decide_eq_true h)

theorem indexFrom_skip (pre : List T) (t x : T) (r : List T) (h : t ≠ x) :
    indexFrom (pre ++ t :: r) x pre.length = indexFrom (pre ++ t :: r) x (pre.length + 1) := by
  unfold indexFrom
  have e : (pre ++ t :: r).drop (pre.length + 1) = r := by
    rw [show pre ++ t :: r = (pre ++ [t]) ++ r by simp, show pre.length + 1 = (pre ++ [t]).length by simp,
      List.drop_left]
  rw [List.drop_left, e, List.findIdx?_cons]
  simp only [beq_eq_false_iff_ne.2 h, Bool.false_eq_true, if_false]
  cases List.findIdx? (fun y => y == x) r
  · rfl
  · simp; omega

theorem indexFrom_hit (pre : List T) (t : T) (r : List T) :
    indexFrom (pre ++ t :: r) t pre.length = some pre.length := by
  unfold indexFrom
  rw [List.drop_left]
  simp [List.findIdx?_cons]

theorem findFactor_skip (pre : List T) (t : T) (r f : List T) (h : ∀ x ∈ f, t ≠ x) :
    findFactor (pre ++ t :: r) f pre.length = findFactor (pre ++ t :: r) f (pre.length + 1) := by
  cases f with
  | nil => rfl
  | cons x f =>
    unfold findFactor
    rw [indexFrom_skip pre t x r (h x (by simp))]

/-- the positions of the amplitudes not paired with `h` -/
theorem findFactor_own (pre rest : List T) :
    ∃ idxs, findFactor (pre ++ rest) (notTouching rest) pre.length = some idxs ∧
      idxs.length = (notTouching rest).length ∧ idxs.Nodup ∧
      ∀ i, i ∈ idxs ↔ pre.length ≤ i ∧ ∃ x, (pre ++ rest)[i]? = some x ∧ ¬ TouchesH x := by
  induction rest generalizing pre with
  | nil =>
    refine ⟨[], rfl, rfl, List.nodup_nil, ?_⟩
    intro i
    simp only [List.not_mem_nil, List.append_nil, false_iff]
    rintro ⟨h1, x, h2, _⟩
    have := (List.getElem?_eq_some_iff.1 h2).1
    omega
  | cons t r ih =>
    have e : pre ++ t :: r = (pre ++ [t]) ++ r := by simp
    obtain ⟨idxs, i1, i2, i3, i4⟩ := ih (pre ++ [t])
    have hl : (pre ++ [t]).length = pre.length + 1 := by simp
    rw [hl, ← e] at i1
    rw [← e] at i4
    have hget : (pre ++ t :: r)[pre.length]? = some t := by simp
    by_cases ht : TouchesH t
    · have hn : notTouching (t :: r) = notTouching r := by simp [notTouching, ht]
      rw [hn]
      refine ⟨idxs, ?_, i2, i3, ?_⟩
      · rw [findFactor_skip, i1]
        intro x hx heq
        subst heq
        simp [notTouching, ht] at hx
      · intro i
        rw [i4, hl]
        constructor
        · rintro ⟨h1, h2⟩; exact ⟨by omega, h2⟩
        · rintro ⟨h1, x, h2, h3⟩
          refine ⟨?_, x, h2, h3⟩
          rcases Nat.lt_or_ge pre.length i with h | h
          · omega
          · have : i = pre.length := by omega
            subst this
            rw [hget] at h2
            cases h2
            exact absurd ht h3
    · have hn : notTouching (t :: r) = t :: notTouching r := by simp [notTouching, ht]
      rw [hn]
      refine ⟨pre.length :: idxs, ?_, by simp [i2], ?_, ?_⟩
      · unfold findFactor
        rw [indexFrom_hit]
        simp only []
        rw [i1]; rfl
      · rw [List.nodup_cons]
        refine ⟨?_, i3⟩
        rw [i4, hl]; omega
      · intro i
        rw [List.mem_cons, i4, hl]
        constructor
        · rintro (rfl | ⟨h1, h2⟩)
          · exact ⟨le_refl _, t, hget, ht⟩
          · exact ⟨by omega, h2⟩
        · rintro ⟨h1, h2⟩
          rcases Nat.lt_or_ge pre.length i with h | h
          · right; exact ⟨by omega, h2⟩
          · left; omega

theorem findFactor_sublist (ts f : List T) (off : Nat) (idxs : List Nat)
    (h : findFactor ts f off = some idxs) : f.Sublist (ts.drop off) := by
  induction f generalizing off idxs with
  | nil => exact List.nil_sublist _
  | cons x f ih =>
    unfold findFactor at h
    split at h
    · cases h
    · next i hi =>
      rw [Option.map_eq_some_iff] at h
      obtain ⟨js, hj, _⟩ := h
      have hs := ih (i + 1) js hj
      unfold indexFrom at hi
      rw [Option.map_eq_some_iff] at hi
      obtain ⟨k, hk, rfl⟩ := hi
      rw [List.findIdx?_eq_some_iff_getElem] at hk
      obtain ⟨hlt, hx, _⟩ := hk
      have hx' : (ts.drop off)[k] = x := by simpa using hx
      have hd : (ts.drop off).drop k = x :: ts.drop (k + off + 1) := by
        rw [List.drop_eq_getElem_cons hlt, hx', List.drop_drop]
        congr 2; omega
      refine List.Sublist.trans ?_ (List.drop_sublist k (ts.drop off))
      rw [hd]
      exact hs.cons_cons x

theorem removeIdxs_eq (ts : List T) (idxs : List Nat)
    (h : ∀ i, i ∈ idxs ↔ ∃ x, ts[i]? = some x ∧ ¬ TouchesH x) : removeIdxs ts idxs = touching ts := by
  unfold removeIdxs touching
  have h1 : (ts.zip (List.range ts.length)).filter (fun p => !idxs.contains p.2) =
      (ts.zip (List.range ts.length)).filter (fun p => decide (TouchesH p.1)) := by
    refine List.filter_congr ?_
    rintro ⟨x, i⟩ hp
    have hget : ts[i]? = some x := by
      obtain ⟨k, hk⟩ := List.mem_iff_getElem?.1 hp
      rw [List.getElem?_zip_eq_some] at hk
      obtain ⟨k1, k2⟩ := hk
      simp only [] at k1 k2
      have := List.getElem?_eq_some_iff.1 k2
      obtain ⟨a, b⟩ := this
      rw [List.getElem_range] at b
      rw [← b]; exact k1
    simp only []
    by_cases ht : TouchesH x
    · have : i ∉ idxs := by
        rw [h]; rintro ⟨y, hy, hny⟩
        rw [hget] at hy; cases hy; exact hny ht
      simp [ht, this]
    · have : i ∈ idxs := (h i).2 ⟨x, hget, ht⟩
      simp [ht, this]
  rw [h1]
  have h2 : (ts.zip (List.range ts.length)).filter (fun p => decide (TouchesH p.1)) =
      (ts.zip (List.range ts.length)).filter ((fun t => decide (TouchesH t)) ∘ Prod.fst) := rfl
  rw [h2, ← List.filter_map, List.map_fst_zip (by simp)]

theorem adjustLoop_own (h : HC) (ts : List T) (hne : notTouching ts ≠ []) (factors : List (List T))
    (hmem : notTouching ts ∈ factors) (hdesc : factors.Pairwise fun a b => b.length ≤ a.length)
    (hall : ∀ f ∈ factors, ∀ x ∈ f, ¬ TouchesH x) (i : Nat) (last : Option (List T)) :
    adjustLoop h ts factors i last =
      .ok (i + factors.idxOf (notTouching ts), touching ts, linkedOff h (notTouching ts)) := by
  induction factors generalizing i last with
  | nil => cases hmem
  | cons f fs ih =>
    rw [List.pairwise_cons] at hdesc
    by_cases hf : f = notTouching ts
    · obtain ⟨idxs, h1, h2, h3, h4⟩ := findFactor_own [] ts
      simp only [List.nil_append, List.length_nil, Nat.zero_le, true_and] at h1 h4
      rw [← hf] at h1
      unfold adjustLoop
      rw [h1]
      have hne' : idxs ≠ [] := by
        intro e; rw [e] at h2; exact hne (List.length_eq_zero_iff.1 h2.symm)
      have hd : idxs.dedup.length = idxs.length := by rw [List.Nodup.dedup h3]
      simp only [hne', hd, ne_eq, not_false_eq_true, and_self, if_true]
      rw [removeIdxs_eq ts idxs h4, hf]
      simp [linkedOff, extOf]
    · have hmem' : notTouching ts ∈ fs := by
        rcases List.mem_cons.1 hmem with e | e
        · exact absurd e.symm hf
        · exact e
      have hnone : findFactor ts f 0 = none := by
        cases hff : findFactor ts f 0 with
        | none => rfl
        | some idxs =>
          exfalso
          have hs := findFactor_sublist ts f 0 idxs hff
          rw [List.drop_zero] at hs
          have hs2 : (notTouching f).Sublist (notTouching ts) := hs.filter _
          have hff' : notTouching f = f := by
            unfold notTouching
            rw [List.filter_eq_self]
            intro x hx
            simp [hall f (by simp) x hx]
          rw [hff'] at hs2
          exact hf (hs2.eq_of_length_le (hdesc.1 _ hmem'))
      unfold adjustLoop
      rw [hnone]
      simp only []
      rw [ih hmem' hdesc.2 (fun g hg => hall g (by simp [hg]))]
      rw [List.idxOf_cons_ne _ hf]
      congr 2; omega

theorem linkedTerm_eq (so : SetOrder Nat) (t : Term) (hne : notTouching t.ts ≠ []) (factors : List (List T))
    (hmem : notTouching t.ts ∈ factors) (hdesc : factors.Pairwise fun a b => b.length ≤ a.length)
    (hall : ∀ f ∈ factors, ∀ x ∈ f, ¬ TouchesH x) :
    linkedTerm so factors t = .ok (factors.idxOf (notTouching t.ts), linkedPrint so t) := by
  unfold linkedTerm
  rw [adjustLoop_own t.h t.ts hne factors hmem hdesc hall]
  simp only [Nat.zero_add]
  have : factors[factors.idxOf (notTouching t.ts)]? = some (notTouching t.ts) := by
    rw [List.getElem?_eq_getElem (List.idxOf_lt_length_of_mem hmem), List.getElem_idxOf]
  rw [this]
  rfl

theorem linkedGroup_eq (so : SetOrder Nat) (sol : SetOrder (List T)) (l : List Term) (t₀ : Term) (r : List Term)
    (hl : l = t₀ :: r) (hrank : t₀.omega.rank = 2 ∨ t₀.omega.rank = 3) (hne : ∀ t ∈ l, notTouching t.ts ≠ []) :
    linkedGroup so sol l = .ok ((commonFactors sol l).map fun f =>
      ((l.filter fun t => notTouching t.ts == f).map (linkedPrint so), tGroup f none ⟨0, 0, 0⟩)) := by
  have hall : ∀ f ∈ commonFactors sol l, ∀ x ∈ f, ¬ TouchesH x := by
    intro f hf x hx
    obtain ⟨t, _, rfl⟩ := mem_commonFactors.1 hf
    simpa [notTouching] using (List.mem_filter.1 hx).2
  have hdesc := desc_commonFactors sol l
  have hnd := nodup_commonFactors sol l
  have hc : collect (fun t => one (linkedTerm so (commonFactors sol l) t)) l =
      .ok (l.flatMap fun t => [((commonFactors sol l).idxOf (notTouching t.ts), linkedPrint so t)]) := by
    refine collect_ok_of _ ?_
    intro t ht
    rw [linkedTerm_eq so t (hne t ht) _ (mem_commonFactors.2 ⟨t, ht, rfl⟩) hdesc hall]
    rfl
  unfold linkedGroup
  rw [hl]
  simp only []
  rw [if_pos hrank, ← hl]
  rw [hc]
  simp only []
  congr 1
  have hz : (commonFactors sol l) = ((commonFactors sol l).zip (List.range (commonFactors sol l).length)).map Prod.fst := by
    rw [List.map_fst_zip (by simp)]
  conv_rhs => rw [hz, List.map_map]
  refine List.map_congr_left ?_
  rintro ⟨f, i⟩ hp
  have hget : (commonFactors sol l)[i]? = some f := by
    obtain ⟨k, hk⟩ := List.mem_iff_getElem?.1 hp
    rw [List.getElem?_zip_eq_some] at hk
    obtain ⟨k1, k2⟩ := hk
    simp only [] at k1 k2
    obtain ⟨a, b⟩ := List.getElem?_eq_some_iff.1 k2
    rw [List.getElem_range] at b
    rw [← b]; exact k1
  simp only [Function.comp]
  congr 1
  have hfm : (l.flatMap fun t => [((commonFactors sol l).idxOf (notTouching t.ts), linkedPrint so t)]) =
      l.map fun t => ((commonFactors sol l).idxOf (notTouching t.ts), linkedPrint so t) := by
    exact flatMap_single _ _
  rw [hfm, List.filter_map, List.map_map]
  have : l.filter ((fun r : Nat × PTerm => r.1 == i) ∘ fun t => ((commonFactors sol l).idxOf (notTouching t.ts), linkedPrint so t)) =
      l.filter fun t => notTouching t.ts == f := by
    refine List.filter_congr ?_
    intro t ht
    have hm : notTouching t.ts ∈ commonFactors sol l := mem_commonFactors.2 ⟨t, ht, rfl⟩
    simp only [Function.comp]
    obtain ⟨hi, hf⟩ := List.getElem?_eq_some_iff.1 hget
    by_cases e : notTouching t.ts = f
    · have : (commonFactors sol l).idxOf f = i := by rw [← hf]; exact hnd.idxOf_getElem i hi
      rw [e, this]; simp
    · have : (commonFactors sol l).idxOf (notTouching t.ts) ≠ i := by
        intro h
        apply e
        have := List.getElem_idxOf (List.idxOf_lt_length_of_mem hm)
        rw [← this, ← hf]
        simp [h]
      rw [beq_eq_false_iff_ne.2 this, beq_eq_false_iff_ne.2 e]
  rw [this]
  rfl

end TF.CC

namespace TF.CC

open TF.Py TF.Spec

/-! ### the unlinked group -/

/-- offsets after a list of amplitudes -/
def advance (ts : List T) (o : Offs) : Offs :=
  ⟨o.upper + (ts.map T.m_h).sum, o.lower + (ts.map T.n_h).sum,
    o.unlinked + ((ts.map T.n_o).sum + (ts.map T.m_o).sum)⟩

theorem tGroupLoop_append (a b : List T) (o : Offs) :
    tGroupLoop (a ++ b) o = tGroupLoop a o ++ tGroupLoop b (advance a o) := by
  induction a generalizing o with
  | nil => simp [tGroupLoop, advance]
  | cons t a ih =>
    obtain ⟨_, _, _, _, h5, _⟩ := tLabels_letters t o
    have hadv : advance a (tLabels t o).2 = advance (t :: a) o := by
      rw [h5]; simp [advance]; omega
    rw [List.cons_append]
    rw [show tGroupLoop (t :: (a ++ b)) o = if (tLabels t o).1.up = none ∧ (tLabels t o).1.down = none then
      tGroupLoop (a ++ b) (tLabels t o).2 else (tLabels t o).1 :: tGroupLoop (a ++ b) (tLabels t o).2 from rfl,
      show tGroupLoop (t :: a) o = if (tLabels t o).1.up = none ∧ (tLabels t o).1.down = none then
      tGroupLoop a (tLabels t o).2 else (tLabels t o).1 :: tGroupLoop a (tLabels t o).2 from rfl]
    split
    · rw [ih, hadv]
    · rw [ih, hadv, List.cons_append]

def NoExt (ts : List T) : Prop := ∀ x ∈ ts, x.m_o = 0 ∧ x.n_o = 0

theorem tLabels_noExt (t : T) (h : t.m_o = 0 ∧ t.n_o = 0) (u l a b : Nat) :
    (tLabels t ⟨u, l, a⟩).1 = (tLabels t ⟨u, l, b⟩).1 ∧
    (tLabels t ⟨u, l, a⟩).2 = ⟨u + t.m_h, l + t.n_h, a⟩ := by
  refine ⟨?_, ?_⟩
  · unfold tLabels
    simp only [h.1, h.2, Nat.add_zero, slice_self, Nat.lt_irrefl, or_false, gt_iff_lt]
    by_cases h1 : 0 < t.n_h <;> by_cases h2 : 0 < t.m_h <;> simp [h1, h2, slice_self]
  · have := (tLabels_letters t ⟨u, l, a⟩).2.2.2.2.1
    rw [this]; simp [h.1, h.2]

theorem tGroupLoop_noExt (ts : List T) (h : NoExt ts) (u l a b : Nat) :
    tGroupLoop ts ⟨u, l, a⟩ = tGroupLoop ts ⟨u, l, b⟩ := by
  induction ts generalizing u l a b with
  | nil => rfl
  | cons t ts ih =>
    have ht := h t (by simp)
    have hts : NoExt ts := fun x hx => h x (by simp [hx])
    unfold tGroupLoop
    simp only []
    rw [(tLabels_noExt t ht u l a b).1, (tLabels_noExt t ht u l a b).2, (tLabels_noExt t ht u l b b).2,
      ih hts _ _ a b]

theorem tGroupLoop_noExt_x (ts : List T) (h : NoExt ts) (o : Offs) (lab : TLab) (hl : lab ∈ tGroupLoop ts o) :
    (subLetters lab.up).x = [] ∧ (subLetters lab.down).x = [] := by
  induction ts generalizing o with
  | nil => cases hl
  | cons t ts ih =>
    have ht := h t (by simp)
    have hts : NoExt ts := fun x hx => h x (by simp [hx])
    unfold tGroupLoop at hl
    simp only [] at hl
    split at hl
    · exact ih hts _ hl
    · rcases List.mem_cons.1 hl with rfl | hl
      · obtain ⟨_, _, h3, h4, _⟩ := tLabels_letters t o
        rw [h3, h4, ht.1, ht.2]; simp [slice_self]
      · exact ih hts _ hl

theorem common_label (m n u l : Nat) :
    (tLabels ⟨0, 0, m, n⟩ ⟨u, l, 0⟩).1 = (tLabels ⟨0, 0, m, n⟩ ⟨0, 0, 0⟩).1 := by
  unfold tLabels
  by_cases hn : 0 < n <;> simp [slice_self, hn]

theorem common_label_x (m n : Nat) (h : 1 ≤ m + n) :
    ¬ ((subLetters (tLabels ⟨0, 0, m, n⟩ ⟨0, 0, 0⟩).1.up).x = [] ∧
       (subLetters (tLabels ⟨0, 0, m, n⟩ ⟨0, 0, 0⟩).1.down).x = []) := by
  obtain ⟨_, _, h3, h4, _⟩ := tLabels_letters ⟨0, 0, m, n⟩ ⟨0, 0, 0⟩
  rw [h3, h4]
  rintro ⟨h1, h2⟩
  simp only [Nat.zero_add] at h1 h2
  rw [slice_zero, List.take_eq_nil_iff] at h2
  have hn : n = 0 := by rcases h2 with h | h; exact h; cases h
  subst hn
  rw [Nat.zero_add, slice_zero, List.take_eq_nil_iff] at h1
  have hm : m = 0 := by rcases h1 with h | h; exact h; cases h
  omega

theorem tGroup_common (m n : Nat) (h : 1 ≤ m + n) :
    tGroup [⟨0, 0, m, n⟩] none ⟨0, 0, 0⟩ = [(tLabels ⟨0, 0, m, n⟩ ⟨0, 0, 0⟩).1] := by
  have h6 := (tLabels_letters ⟨0, 0, m, n⟩ ⟨0, 0, 0⟩).2.2.2.2.2
  unfold tGroup tGroupLoop
  simp only []
  rw [if_neg (by rw [h6]; unfold ampRank; simp only []; omega)]
  rfl

theorem unlinked_filter (A B : List T) (m n : Nat) (h : 1 ≤ m + n) (hA : NoExt A) (hB : NoExt B) (u l : Nat) :
    (tGroupLoop (A ++ ⟨0, 0, m, n⟩ :: B) ⟨u, l, 0⟩).filter
      (fun x => !(x == (tLabels ⟨0, 0, m, n⟩ ⟨0, 0, 0⟩).1)) = tGroupLoop (A ++ B) ⟨u, l, 0⟩ := by
  have hx := common_label_x m n h
  have sA : ∀ x ∈ A, True := fun _ _ => trivial
  have zero : ∀ (L : List T), NoExt L → (L.map T.n_o).sum = 0 ∧ (L.map T.m_o).sum = 0 := by
    intro L hL
    constructor <;> rw [List.sum_eq_zero_iff_forall_eq_nat]
    · intro x hx; obtain ⟨y, hy, rfl⟩ := List.mem_map.1 hx; exact (hL y hy).2
    · intro x hx; obtain ⟨y, hy, rfl⟩ := List.mem_map.1 hx; exact (hL y hy).1
  have keep : ∀ (L : List T) (o : Offs), NoExt L →
      (tGroupLoop L o).filter (fun x => !(x == (tLabels ⟨0, 0, m, n⟩ ⟨0, 0, 0⟩).1)) = tGroupLoop L o := by
    intro L o hL
    rw [List.filter_eq_self]
    intro lab hlab
    have := tGroupLoop_noExt_x L hL o lab hlab
    rw [Bool.not_eq_true', beq_eq_false_iff_ne]
    rintro rfl
    exact hx this
  rw [tGroupLoop_append, tGroupLoop_append, List.filter_append, keep A _ hA]
  congr 1
  have hadv : advance A ⟨u, l, 0⟩ = ⟨u + (A.map T.m_h).sum, l + (A.map T.n_h).sum, 0⟩ := by
    unfold advance; simp [(zero A hA).1, (zero A hA).2]
  rw [hadv]
  obtain ⟨_, _, _, _, h5, h6⟩ := tLabels_letters ⟨0, 0, m, n⟩ ⟨u + (A.map T.m_h).sum, l + (A.map T.n_h).sum, 0⟩
  conv_lhs => unfold tGroupLoop
  simp only []
  rw [if_neg (by rw [h6]; unfold ampRank; simp only []; omega), h5, List.filter_cons, common_label m n]
  simp only [beq_self_eq_true, Bool.not_true, Bool.false_eq_true, if_false, Nat.add_zero]
  rw [keep B _ hB]
  exact tGroupLoop_noExt B hB _ _ _ _

theorem unlinked_split (t : Term) (hrank : 1 ≤ t.omega.m + t.omega.n) (hmem : commonT t.omega ∈ t.ts)
    (hp : Pairs t.omega.m t.omega.n t.h.m t.h.n t.ts t.h.m_o t.h.n_o) :
    ∃ A B, t.ts = A ++ commonT t.omega :: B ∧ NoExt A ∧ NoExt B ∧ t.ts.erase (commonT t.omega) = A ++ B ∧
      t.h.m_o = 0 ∧ t.h.n_o = 0 := by
  obtain ⟨A, B, e⟩ := List.append_of_mem hmem
  obtain ⟨p1, p2, p3, p4⟩ := hp
  rw [e] at p2 p4
  simp only [commonT, List.map_append, List.map_cons, List.sum_append, List.sum_cons] at p2 p4
  have z1 : (A.map T.m_o).sum = 0 := by omega
  have z2 : (A.map T.n_o).sum = 0 := by omega
  have z3 : (B.map T.m_o).sum = 0 := by omega
  have z4 : (B.map T.n_o).sum = 0 := by omega
  have ne : ∀ L : List T, (L.map T.m_o).sum = 0 → (L.map T.n_o).sum = 0 → NoExt L := by
    intro L a b x hx
    rw [List.sum_eq_zero_iff_forall_eq_nat] at a b
    exact ⟨a _ (List.mem_map_of_mem hx), b _ (List.mem_map_of_mem hx)⟩
  refine ⟨A, B, e, ne A z1 z2, ne B z3 z4, ?_, by omega, by omega⟩
  rw [e, List.erase_append_right, List.erase_cons_head]
  intro hc
  have := ne A z1 z2 _ hc
  unfold commonT at this
  simp only [] at this
  omega

theorem unlinkedGroup_eq (so : SetOrder Nat) (l : List Term) (t₀ : Term) (r : List Term) (hl : l = t₀ :: r)
    (hrank : 1 ≤ t₀.omega.m + t₀.omega.n)
    (hom : ∀ t ∈ l, t.omega.m = t₀.omega.m ∧ t.omega.n = t₀.omega.n)
    (hmem : ∀ t ∈ l, commonT t.omega ∈ t.ts)
    (hp : ∀ t ∈ l, Pairs t.omega.m t.omega.n t.h.m t.h.n t.ts t.h.m_o t.h.n_o) :
    unlinkedGroup so l = .ok (l.map (unlinkedPrint so), tGroup [commonT t₀.omega] none ⟨0, 0, 0⟩) := by
  have hc : ∀ t ∈ l, commonT t.omega = commonT t₀.omega := by
    intro t ht; unfold commonT; rw [(hom t ht).1, (hom t ht).2]
  unfold unlinkedGroup
  rw [hl]
  simp only []
  have hall : (∀ t ∈ t₀ :: r, t.ts.contains ⟨0, 0, t₀.omega.n, t₀.omega.m⟩ = true) := by
    intro t ht
    rw [← hl] at ht
    have := hmem t ht
    rw [hc t ht] at this
    exact List.contains_iff_mem.2 this
  rw [if_pos (List.all_eq_true.2 hall)]
  rw [tGroup_common _ _ (by omega)]
  simp only []
  congr 2
  · refine List.map_congr_left ?_
    intro t ht
    rw [← hl] at ht
    obtain ⟨A, B, e1, e2, e3, e4, e5, e6⟩ := unlinked_split t (by rw [(hom t ht).1, (hom t ht).2]; exact hrank)
      (hmem t ht) (hp t ht)
    unfold unlinkedPrint plainTerm
    simp only []
    congr 1
    rw [e4, e1, hc t ht]
    unfold tGroup commonT
    simp only [e5, e6, Nat.add_zero, Nat.zero_add]
    exact unlinked_filter A B _ _ (by omega) e2 e3 _ _
  · unfold commonT; rw [tGroup_common _ _ (by omega)]

end TF.CC
