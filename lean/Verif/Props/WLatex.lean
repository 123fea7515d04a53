import Verif.Props.W

/-! # Properties of the W-operator LaTeX and of the legacy enumeration (C44-C47) -/

namespace TF.W

open TF.Py TF.Helper TF.Spec TF.Spec.W

/-! ## C44: ground-state LaTeX -/

/-- C44: the ground-state LaTeX has one equation per order, and the equation of order `n` prints every
partition of `n` exactly once, with `1/prod (multiplicity)!`. -/
theorem ground_latex_exact (maxOrder : Nat) :
    (groundLatex maxOrder).map Prod.fst = range2 1 (maxOrder + 1) ∧
    ∀ n ts, (n, ts) ∈ groundLatex maxOrder →
      ∃ ps : List (List Nat), ps.Nodup ∧ (∀ p, p ∈ ps ↔ IsPartition n p) ∧ List.Forall₂ Prints ps ts := by
  refine ⟨?_, ?_⟩
  · unfold groundLatex
    rw [List.map_map]; exact List.map_id _
  · intro n ts h
    obtain ⟨k, hk, he⟩ := List.mem_map.1 h
    simp only [Prod.mk.injEq] at he
    obtain ⟨rfl, rfl⟩ := he
    rw [mem_range2] at hk
    refine ⟨(partitions k).reverse, List.nodup_reverse.2 (partitions_nodup k), ?_, ?_⟩
    · intro p; rw [List.mem_reverse, partitions_exact k hk.1]
    · rw [List.forall₂_map_right_iff]
      exact List.forall₂_same.2 fun p _ => latexTerm_prints p

example : (3, [latexTerm [1, 1, 1], latexTerm [2, 1], latexTerm [3]]) ∈ groundLatex 4 := by decide +kernel

/-! ## C45: excited-state LaTeX -/

/-- C45: the labels are exactly the `W^m_n` with `m ≥ 1` and rank at most the maximum, each once, in
order of rank. -/
theorem labels_exact (order : Nat) :
    (labelsOnW order true).Nodup ∧ (∀ m n, (m, n) ∈ labelsOnW order true ↔ 1 ≤ m ∧ m + n ≤ order) ∧
    (labelsOnW order true).Pairwise (fun a b => a.1 + a.2 ≤ b.1 + b.2) := by
  have htot : TotalOrderB (fun a b : Nat × Nat => decide (a.1 + a.2 ≤ b.1 + b.2)) :=
    { total := fun a b => by simp; omega
      trans := fun a b c => by simp; omega }
  refine ⟨?_, ?_, ?_⟩
  · unfold labelsOnW
    rw [(sortBy_perm _ _).nodup_iff, List.nodup_flatMap]
    refine ⟨?_, ?_⟩
    · intro n hn
      rw [mem_range2] at hn
      rw [List.nodup_cons]
      refine ⟨?_, ?_⟩
      · split
        · simp
        · intro h
          obtain ⟨i, hi, he⟩ := List.mem_map.1 h
          rw [List.mem_reverse, mem_range2] at hi
          simp only [Prod.mk.injEq] at he
          omega
      · split
        · simp
        · refine List.Nodup.map ?_ (List.nodup_reverse.2 (nodup_range2 1 n))
          intro i j h
          simp only [Prod.mk.injEq] at h
          exact h.1
    · refine List.Pairwise.imp_of_mem ?_ (nodup_range2 1 (order + 1))
      intro a b ha hb hab
      rw [mem_range2] at ha hb
      have key : ∀ n, 1 ≤ n → ∀ x ∈ ((n, 0) :: (if n = 1 ∨ true = false then [] else (range2 1 n).reverse.map fun i => (i, n - i))),
          x.1 + x.2 = n := by
        intro n _ x hx
        rcases List.mem_cons.1 hx with rfl | hx
        · rfl
        · split at hx
          · simp at hx
          · obtain ⟨i, hi, rfl⟩ := List.mem_map.1 hx
            rw [List.mem_reverse, mem_range2] at hi
            simp only []; omega
      intro x hx hy
      have := key a ha.1 x hx
      have := key b hb.1 x hy
      omega
  · intro m n
    unfold labelsOnW
    rw [mem_sortBy, List.mem_flatMap]
    constructor
    · rintro ⟨k, hk, h⟩
      rw [mem_range2] at hk
      rcases List.mem_cons.1 h with h | h
      · simp only [Prod.mk.injEq] at h; omega
      · split at h
        · simp at h
        · obtain ⟨i, hi, he⟩ := List.mem_map.1 h
          rw [List.mem_reverse, mem_range2] at hi
          simp only [Prod.mk.injEq] at he
          omega
    · rintro ⟨h1, h2⟩
      refine ⟨m + n, by rw [mem_range2]; omega, ?_⟩
      by_cases hn : n = 0
      · subst hn; simp
      · rw [List.mem_cons]
        right
        rw [if_neg (by simp; omega)]
        exact List.mem_map.2 ⟨m, by rw [List.mem_reverse, mem_range2]; omega, by simp⟩
  · exact (sortBy_pairwise htot _).imp fun {a b} h => by simpa using h

/-- C45 (partial): the equation of `W^m_n` prints every product of amplitudes with `m` upper and `n`
lower indices exactly once, up to the order of the factors and with `1/prod (multiplicity)!` -- except
the single amplitude `t^m_n` itself when `n ≥ 1`, which is not printed. -/
theorem excited_latex_partial (sop : SetOrder (List (Nat × Nat))) (maxOrder : Nat) (w : Nat × Nat)
    (ts : List (LatexTerm (Nat × Nat))) (h : (w, ts) ∈ excitedLatex sop maxOrder) :
    ∃ gs : List (List (Nat × Nat)), gs.Pairwise (fun a b => ¬ a.Perm b) ∧ List.Forall₂ Prints gs ts ∧
      (∀ g ∈ gs, MatchesW w g) ∧
      (∀ g, MatchesW w g → (g = [w] ∧ w.2 ≠ 0) ∨ ∃ g' ∈ gs, g'.Perm g) ∧
      (w.2 ≠ 0 → [w] ∉ gs) := by
  obtain ⟨⟨m, n⟩, hv, he⟩ := List.mem_map.1 h
  have hl := ((labels_exact maxOrder).2.1 m n).1 hv
  split at he
  · rename_i h1
    simp only [Prod.mk.injEq] at he h1
    obtain ⟨rfl, rfl⟩ := he
    obtain ⟨rfl, rfl⟩ := h1
    refine ⟨[[(1, 0)]], by simp, .cons (latexTerm_prints _) .nil, ?_, ?_, by simp⟩
    · intro g hg
      rw [List.mem_singleton] at hg
      subst hg
      exact ⟨by simp, rfl, rfl⟩
    · rintro g ⟨h1, h2, h3⟩
      right
      refine ⟨[(1, 0)], by simp, ?_⟩
      cases g with
      | nil => simp at h2
      | cons a g =>
        cases g with
        | nil =>
          obtain ⟨a1, a2⟩ := a
          simp at h2 h3
          subst h2; subst h3; exact List.Perm.refl _
        | cons b g =>
          exfalso
          have ha := h1 a (by simp)
          have hb := h1 b (by simp)
          simp only [List.map_cons, List.sum_cons] at h2 h3
          obtain ⟨a1, a2⟩ := a
          obtain ⟨b1, b2⟩ := b
          simp only [ne_eq, Prod.mk.injEq] at ha hb h2 h3
          omega
  · rename_i hne
    simp only [Prod.mk.injEq] at he
    obtain ⟨rfl, rfl⟩ := he
    have horder : 1 ≤ (⟨"", m + n, n, m⟩ : CC.Op).m + (⟨"", m + n, n, m⟩ : CC.Op).n := by simp only []; omega
    obtain ⟨hp1, hp2⟩ := CC.lhs_products_exact sop ⟨"", m + n, n, m⟩ horder
    obtain ⟨hu1, _⟩ := CC.lhs_products_unique sop ⟨"", m + n, n, m⟩ horder
    have hmatch : ∀ g, MatchesOmega ⟨"", m + n, n, m⟩ g ↔ MatchesW (m, n) g :=
      fun g => ⟨fun h => ⟨h.1, h.2.1, h.2.2⟩, fun h => ⟨h.1, h.2, h.3⟩⟩
    have hsingle : ∀ g, MatchesW (m, n) g → ((decide (g.length = 1) && decide ((g.headD (0, 0)).2 ≠ 0)) = true ↔ g = [(m, n)] ∧ n ≠ 0) := by
      rintro g ⟨h1, h2, h3⟩
      rw [Bool.and_eq_true, decide_eq_true_iff, decide_eq_true_iff]
      constructor
      · rintro ⟨ha, hb⟩
        obtain ⟨⟨x, y⟩, rfl⟩ := List.length_eq_one_iff.1 ha
        simp at h2 h3 hb
        subst h2; subst h3
        exact ⟨rfl, hb⟩
      · rintro ⟨rfl, hb⟩
        exact ⟨rfl, hb⟩
    refine ⟨(tTermsGroup sop (m, n)).reverse.filter fun sub =>
      !(decide (sub.length = 1) && decide ((sub.headD (0, 0)).2 ≠ 0)), ?_, ?_, ?_, ?_, ?_⟩
    · apply List.Pairwise.filter
      rw [List.pairwise_reverse]
      exact hu1.imp fun {a b} h hp => h hp.symm
    · rw [List.forall₂_map_right_iff]
      exact List.forall₂_same.2 fun p _ => latexTerm_prints p
    · intro g hg
      rw [List.mem_filter, List.mem_reverse] at hg
      exact (hmatch g).1 (hp1 g hg.1)
    · intro g hg
      obtain ⟨g', hg', hperm⟩ := hp2 g ((hmatch g).2 hg)
      by_cases hs : (decide (g'.length = 1) && decide ((g'.headD (0, 0)).2 ≠ 0)) = true
      · left
        obtain ⟨rfl, h0⟩ := (hsingle g' ((hmatch g').1 (hp1 g' hg'))).1 hs
        exact ⟨List.perm_singleton.1 hperm.symm, h0⟩
      · right
        refine ⟨g', ?_, hperm⟩
        rw [List.mem_filter, List.mem_reverse]
        rw [Bool.not_eq_true] at hs
        exact ⟨hg', by rw [hs]; rfl⟩
    · intro h0 hmem
      rw [List.mem_filter, List.mem_reverse] at hmem
      have : (decide ([(m, n)].length = 1) && decide (([(m, n)].headD (0, 0)).2 ≠ 0)) = true := by
        simpa using h0
      rw [this] at hmem
      exact absurd hmem.2 (by simp)

/-- C45, finding: for every excited label the single amplitude is a legitimate product that is not
printed; e.g. `W^1_1` is printed without `t^1_1`. -/
theorem excited_latex_omits (sop : SetOrder (List (Nat × Nat))) (maxOrder m n : Nat) (h1 : 1 ≤ m) (h2 : 1 ≤ n)
    (h3 : m + n ≤ maxOrder) :
    MatchesW (m, n) [(m, n)] ∧ ∃ ts, ((m, n), ts) ∈ excitedLatex sop maxOrder ∧ ¬ ∃ t ∈ ts, Prints [(m, n)] t := by
  refine ⟨⟨?_, by simp, by simp⟩, ?_⟩
  · intro t ht
    rw [List.mem_singleton] at ht
    subst ht
    simp; omega
  · have hl := ((labels_exact maxOrder).2.1 m n).2 ⟨h1, h3⟩
    have hmem : ((m, n), _) ∈ excitedLatex sop maxOrder := List.mem_map.2 ⟨(m, n), hl, if_neg (by simp; omega)⟩
    refine ⟨_, hmem, ?_⟩
    rintro ⟨t, ht, hp⟩
    obtain ⟨g, hg, rfl⟩ := List.mem_map.1 ht
    have h4 := (latexTerm_prints g).factors.symm.trans hp.factors
    have : g = [(m, n)] := List.perm_singleton.1 h4
    subst this
    rw [List.mem_filter] at hg
    simp at hg
    omega

example : ∃ ts, ((1, 1), ts) ∈ excitedLatex (SetOrder.std _) 3 := ⟨[latexTerm [(1, 0), (0, 1)]], by decide +kernel⟩

/-! ## C46: rewriting the excited-state file -/

theorem keepLines_prefix (k : Nat) (s : List Char) : ∃ r, s = keepLines k s ++ r := by
  induction s generalizing k with
  | nil => exact ⟨[], by cases k <;> rfl⟩
  | cons c s ih =>
    cases k with
    | zero => exact ⟨c :: s, rfl⟩
    | succ k =>
      obtain ⟨r, hr⟩ := ih (if c = '\n' then k else k + 1)
      exact ⟨r, by rw [keepLines, List.cons_append, ← hr]⟩

theorem keepLines_append (k : Nat) (s t : List Char) (h : k ≤ s.count '\n') : keepLines k (s ++ t) = keepLines k s := by
  induction s generalizing k with
  | nil =>
    have : k = 0 := by simpa using h
    subst this; simp [keepLines]
  | cons c s ih =>
    cases k with
    | zero => simp [keepLines]
    | succ k =>
      rw [List.cons_append, keepLines, keepLines]
      congr 1
      apply ih
      by_cases hc : c = '\n'
      · subst hc; rw [if_pos rfl]; rw [List.count_cons_self] at h; omega
      · rw [if_neg hc]; rwa [List.count_cons_of_ne (by simpa using hc)] at h

theorem count_keepLines (k : Nat) (s : List Char) (h : k ≤ s.count '\n') : (keepLines k s).count '\n' = k := by
  induction s generalizing k with
  | nil =>
    have : k = 0 := by simpa using h
    subst this; simp [keepLines]
  | cons c s ih =>
    cases k with
    | zero => simp [keepLines]
    | succ k =>
      rw [keepLines]
      by_cases hc : c = '\n'
      · subst hc
        rw [if_pos rfl, List.count_cons_self, ih k (by rw [List.count_cons_self] at h; omega)]
      · rw [if_neg hc, List.count_cons_of_ne (by simpa using hc),
          ih _ (by rwa [List.count_cons_of_ne (by simpa using hc)] at h)]

theorem keepLines_idem (k : Nat) (s t : List Char) (h : k ≤ s.count '\n') :
    keepLines k (keepLines k s ++ t) = keepLines k s := by
  obtain ⟨r, hr⟩ := keepLines_prefix k s
  rw [keepLines_append k _ t (by rw [count_keepLines k s h])]
  have := keepLines_append k (keepLines k s) r (by rw [count_keepLines k s h])
  rw [← this, ← hr]

/-- C46: rewriting a file that has at least 29 lines is idempotent: the header (the first 29 lines) is
preserved and further runs do not change the file. -/
theorem rewrite_idempotent (old code : List Char) (h : 29 ≤ old.count '\n') :
    writeExcited (some old) code = keepLines 29 old ++ code ++ "\\end{document}".toList ∧
    ∀ code', writeExcited (some (writeExcited (some old) code)) code' = writeExcited (some old) code' := by
  refine ⟨rfl, fun code' => ?_⟩
  unfold writeExcited
  simp only []
  rw [List.append_assoc (keepLines 29 old) code, keepLines_idem 29 old _ h]

example : 29 ≤ (List.replicate 30 '\n').count '\n' := by decide

/-- C46, finding: a run on a missing file is not reproducible: the next run prepends the first lines of
the equations to the equations, so the two files always differ (unless nothing is written). -/
theorem rewrite_fresh_not_idempotent (code : List Char) :
    writeExcited (some (writeExcited none code)) code ≠ writeExcited none code := by
  unfold writeExcited
  simp only []
  intro h
  have := congrArg List.length h
  simp only [List.length_append] at this
  have h2 : "\\end{document}".toList.length = 14 := by decide
  omega

/-! ## C47: the legacy enumeration of products -/

/-- all ones, or ones and one larger part, or ones, a two and one larger part -/
def LegacyForm (n : Nat) (l : List Nat) : Prop :=
  l = List.replicate n 1 ∨ (∃ a b, 2 ≤ b ∧ a + b = n ∧ l = List.replicate a 1 ++ [b]) ∨
    ∃ a b, 2 ≤ b ∧ a + 2 + b = n ∧ l = List.replicate a 1 ++ [2, b]

theorem nextList_form (n a b : Nat) (hb : 2 ≤ b) (hn : a + b = n) :
    nextList (List.replicate a 1 ++ [b]) n =
      if a = 0 then [[b]] else if a = 1 then [[b + 1]]
      else [List.replicate (a - 2) 1 ++ [2, b], List.replicate (a - 1) 1 ++ [b + 1]] := by
  have hc : (List.replicate a 1 ++ [b]).count 1 = a := by
    rw [List.count_append, List.count_replicate_self, List.count_eq_zero_of_not_mem (by simp; omega)]; rfl
  unfold nextList
  rw [hc]
  have hl : (List.replicate a 1 ++ [b]).length = a + 1 := by simp
  have hlast : (List.replicate a 1 ++ [b]).getLastD 0 = b := by simp [List.getLastD_eq_getLast?]
  rw [hl, hlast]
  by_cases h0 : a = 0
  · subst h0; simp
  · rw [if_neg h0, if_neg h0]
    have hs1 : slice (List.replicate a 1 ++ [b]) 1 (a + 1 - 1) = List.replicate (a - 1) 1 := by
      unfold slice
      rw [Nat.add_sub_cancel, List.take_append_of_le_length (by simp), List.take_of_length_le (by simp)]
      simp
    by_cases h1 : a = 1
    · rw [if_pos (Or.inr h1), hs1, if_pos h1, h1]; rfl
    · rw [if_neg (by omega), if_neg h1, hs1]
      have hs2 : slice (List.replicate a 1 ++ [b]) 1 (a + 1 - 2) = List.replicate (a - 2) 1 := by
        unfold slice
        rw [List.take_append_of_le_length (by simp), List.take_replicate, List.drop_replicate]
        congr 1; omega
      have hg : (List.replicate a 1 ++ [b]).getD (a + 1 - 2) 0 = 1 := by
        rw [List.getD_eq_getElem?_getD, List.getElem?_append_left (by simp; omega), List.getElem?_replicate,
          if_pos (by omega)]; rfl
      rw [hs2, hg]
      simp

theorem tListsLoop_form (n : Nat) : ∀ a b fuel pre, 2 ≤ b → a + b = n → a + 1 ≤ fuel →
    ∃ ext, tListsLoop n fuel (pre ++ [List.replicate a 1 ++ [b]]) = pre ++ [List.replicate a 1 ++ [b]] ++ ext ∧
      ∀ l, l ∈ ext ↔ (∃ a' b', b < b' ∧ a' + b' = n ∧ l = List.replicate a' 1 ++ [b']) ∨
        ∃ a' b', b ≤ b' ∧ a' + 2 + b' = n ∧ l = List.replicate a' 1 ++ [2, b'] := by
  intro a
  induction a with
  | zero =>
    intro b fuel pre hb hn hf
    obtain ⟨f, rfl⟩ : ∃ f, fuel = f + 1 := ⟨fuel - 1, by omega⟩
    refine ⟨[], ?_, ?_⟩
    · rw [tListsLoop]
      have hlast : (pre ++ [List.replicate 0 1 ++ [b]]).getLastD [] = List.replicate 0 1 ++ [b] := by
        simp [List.getLastD_eq_getLast?]
      simp only [hlast]
      rw [nextList_form n 0 b hb hn, if_pos rfl, if_pos (by simp)]
      simp
    · intro l
      constructor
      · intro h; simp at h
      · rintro (⟨a', b', h1, h2, _⟩ | ⟨a', b', h1, h2, _⟩) <;> omega
  | succ a ih =>
    intro b fuel pre hb hn hf
    obtain ⟨f, rfl⟩ : ∃ f, fuel = f + 1 := ⟨fuel - 1, by omega⟩
    have hlast : (pre ++ [List.replicate (a + 1) 1 ++ [b]]).getLastD [] = List.replicate (a + 1) 1 ++ [b] := by
      simp [List.getLastD_eq_getLast?]
    by_cases ha : a = 0
    · subst ha
      obtain ⟨ext, he, hm⟩ := ih (b + 1) f (pre ++ [List.replicate 1 1 ++ [b]]) (by omega) (by omega) (by omega)
      refine ⟨[b + 1] :: ext, ?_, ?_⟩
      · have hnx : nextList (List.replicate (0 + 1) 1 ++ [b]) n = [[b + 1]] := by
          rw [nextList_form n (0 + 1) b hb hn, if_neg (by omega), if_pos (by omega)]
        rw [tListsLoop]
        simp only [hlast]
        rw [hnx, if_neg (by simp)]
        have : pre ++ [List.replicate (0 + 1) 1 ++ [b]] ++ [[b + 1]] = pre ++ [List.replicate 1 1 ++ [b]] ++ [List.replicate 0 1 ++ [b + 1]] := by simp
        rw [this, he]
        simp
      · intro l
        rw [List.mem_cons, hm]
        constructor
        · rintro (rfl | ⟨a', b', h1, h2, rfl⟩ | ⟨a', b', h1, h2, rfl⟩)
          · exact .inl ⟨0, b + 1, by omega, by omega, rfl⟩
          · omega
          · omega
        · rintro (⟨a', b', h1, h2, rfl⟩ | ⟨a', b', h1, h2, rfl⟩)
          · left
            have : a' = 0 ∧ b' = b + 1 := by omega
            obtain ⟨rfl, rfl⟩ := this; rfl
          · omega
    · obtain ⟨ext, he, hm⟩ := ih (b + 1) f (pre ++ [List.replicate (a + 1) 1 ++ [b]] ++ [List.replicate (a - 1) 1 ++ [2, b]])
        (by omega) (by omega) (by omega)
      refine ⟨(List.replicate (a - 1) 1 ++ [2, b]) :: (List.replicate a 1 ++ [b + 1]) :: ext, ?_, ?_⟩
      · have hnx : nextList (List.replicate (a + 1) 1 ++ [b]) n =
            [List.replicate (a + 1 - 2) 1 ++ [2, b], List.replicate (a + 1 - 1) 1 ++ [b + 1]] := by
          rw [nextList_form n (a + 1) b hb hn, if_neg (by omega), if_neg (by omega)]
        rw [tListsLoop]
        simp only [hlast]
        rw [hnx, if_neg (by simp)]
        have : pre ++ [List.replicate (a + 1) 1 ++ [b]] ++ [List.replicate (a + 1 - 2) 1 ++ [2, b], List.replicate (a + 1 - 1) 1 ++ [b + 1]] =
            pre ++ [List.replicate (a + 1) 1 ++ [b]] ++ [List.replicate (a - 1) 1 ++ [2, b]] ++ [List.replicate a 1 ++ [b + 1]] := by
          simp
        rw [this, he]
        simp
      · intro l
        rw [List.mem_cons, List.mem_cons, hm]
        constructor
        · rintro (rfl | rfl | ⟨a', b', h1, h2, rfl⟩ | ⟨a', b', h1, h2, rfl⟩)
          · exact .inr ⟨a - 1, b, by omega, by omega, rfl⟩
          · exact .inl ⟨a, b + 1, by omega, by omega, rfl⟩
          · exact .inl ⟨a', b', by omega, h2, rfl⟩
          · exact .inr ⟨a', b', by omega, h2, rfl⟩
        · rintro (⟨a', b', h1, h2, rfl⟩ | ⟨a', b', h1, h2, rfl⟩)
          · by_cases hb' : b' = b + 1
            · subst hb'
              have : a' = a := by omega
              subst this; exact .inr (.inl rfl)
            · exact .inr (.inr (.inl ⟨a', b', by omega, h2, rfl⟩))
          · by_cases hb' : b' = b
            · subst hb'
              have : a' = a - 1 := by omega
              subst this; exact .inl rfl
            · exact .inr (.inr (.inr ⟨a', b', by omega, h2, rfl⟩))

theorem tListsSort_mem (ls acc : List (List Nat)) (prev : Nat) (l : List Nat) :
    l ∈ tListsSort ls acc prev ↔ l ∈ ls ∨ l ∈ acc := by
  induction ls generalizing acc prev with
  | nil => simp [tListsSort]
  | cons s ls ih =>
    rw [tListsSort]
    split
    · rw [ih]; simp only [List.mem_append, List.mem_singleton, List.mem_cons, List.not_mem_nil, or_false]; tauto
    · rw [ih]; simp only [List.mem_cons]; tauto

/-- C47: for every `n ≥ 2` the legacy function returns exactly the partitions (written in ascending
order) made of ones, at most one two, and at most one further part. -/
theorem legacy_exact (n : Nat) (hn : 2 ≤ n) : ∃ r, tLists n = .ok r ∧ ∀ l, l ∈ r ↔ LegacyForm n l := by
  refine ⟨_, by unfold tLists; rw [if_neg (by omega)], ?_⟩
  intro l
  have hfirst : nextList (List.replicate n 1) n = [List.replicate (n - 2) 1 ++ [2]] := by
    unfold nextList
    rw [List.count_replicate_self, if_neg (by omega), if_pos (Or.inl rfl)]
    have hl : (List.replicate n 1).getLastD 0 = 1 := by
      rw [List.getLastD_eq_getLast?, List.getLast?_replicate, if_neg (by omega)]; rfl
    rw [hl]
    unfold slice
    rw [List.length_replicate, List.take_replicate, List.drop_replicate]
    have : min (n - 1) n - 1 = n - 2 := by omega
    rw [this]
  obtain ⟨ext, he, hm⟩ := tListsLoop_form n (n - 2) 2 n [List.replicate n 1] (by omega) (by omega) (by omega)
  have hloop : tListsLoop n (n + 1) [List.replicate n 1] = [List.replicate n 1] ++ [List.replicate (n - 2) 1 ++ [2]] ++ ext := by
    rw [tListsLoop]
    have hlast : [List.replicate n 1].getLastD [] = List.replicate n 1 := rfl
    simp only [hlast]
    rw [hfirst, if_neg, he]
    intro h
    have := congrArg List.length (List.cons.inj h).1
    simp at this; omega
  rw [List.mem_reverse, tListsSort_mem, hloop]
  simp only [List.mem_append, List.mem_singleton, List.not_mem_nil, or_false, hm]
  unfold LegacyForm
  constructor
  · rintro ((rfl | rfl) | ⟨a, b, h1, h2, rfl⟩ | ⟨a, b, h1, h2, rfl⟩)
    · exact .inl rfl
    · exact .inr (.inl ⟨n - 2, 2, le_rfl, by omega, rfl⟩)
    · exact .inr (.inl ⟨a, b, by omega, h2, rfl⟩)
    · exact .inr (.inr ⟨a, b, by omega, h2, rfl⟩)
  · rintro (rfl | ⟨a, b, h1, h2, rfl⟩ | ⟨a, b, h1, h2, rfl⟩)
    · exact .inl (.inl rfl)
    · by_cases hb : b = 2
      · subst hb
        have : a = n - 2 := by omega
        subst this; exact .inl (.inr rfl)
      · exact .inr (.inl ⟨a, b, by omega, h2, rfl⟩)
    · exact .inr (.inr ⟨a, b, h1, h2, rfl⟩)

theorem tLists_five : tLists 5 = .ok [[5], [1, 4], [2, 3], [1, 1, 3], [1, 2, 2], [1, 1, 1, 2], [1, 1, 1, 1, 1]] := by decide

/-- C47: every returned list is a partition of `n`. -/
theorem legacy_sound (n : Nat) (hn : 2 ≤ n) (r : List (List Nat)) (hr : tLists n = .ok r) (l : List Nat) (hl : l ∈ r) :
    l.sum = n ∧ ∀ x ∈ l, 1 ≤ x := by
  obtain ⟨r', h1, h2⟩ := legacy_exact n hn
  rw [h1] at hr
  injection hr with hr
  subst hr
  rcases (h2 l).1 hl with rfl | ⟨a, b, hb, hs, rfl⟩ | ⟨a, b, hb, hs, rfl⟩
  · refine ⟨by simp, fun x hx => ?_⟩
    rw [List.mem_replicate] at hx; omega
  · refine ⟨by simp; omega, fun x hx => ?_⟩
    rw [List.mem_append, List.mem_replicate] at hx
    simp at hx; omega
  · refine ⟨by simp; omega, fun x hx => ?_⟩
    rw [List.mem_append, List.mem_replicate] at hx
    simp at hx; omega

/-- C47, finding: the enumeration is incomplete for every `n ≥ 6`: three and `n - 3` is never
returned, in any order. -/
theorem legacy_incomplete (n : Nat) (hn : 6 ≤ n) (r : List (List Nat)) (hr : tLists n = .ok r) :
    IsPartition n [n - 3, 3] ∧ ∀ l ∈ r, ¬ l.Perm [n - 3, 3] := by
  refine ⟨⟨by simp; omega, by simp; omega, by simp; omega⟩, ?_⟩
  intro l hl hp
  obtain ⟨r', h1, h2⟩ := legacy_exact n (by omega)
  rw [h1] at hr
  injection hr with hr
  subst hr
  have hlen := hp.length_eq
  simp at hlen
  have h3 : ∀ x ∈ l, 3 ≤ x := by
    intro x hx
    have := hp.subset hx
    simp at this; omega
  rcases (h2 l).1 hl with rfl | ⟨a, b, hb, hs, rfl⟩ | ⟨a, b, hb, hs, rfl⟩
  · simp at hlen; omega
  · simp at hlen
    have := h3 1 (by simp; omega)
    omega
  · have := h3 2 (by simp)
    omega

/-- C47: up to 5 nothing is missing. -/
theorem legacy_complete_to_five (n : Nat) (h2 : 2 ≤ n) (h5 : n ≤ 5) (p : List Nat) (hp : IsPartition n p) :
    ∃ r, tLists n = .ok r ∧ ∃ l ∈ r, l.Perm p := by
  obtain ⟨r, h1, _⟩ := legacy_exact n h2
  refine ⟨r, h1, ?_⟩
  rw [← partitions_exact n (by omega)] at hp
  have key : ∀ n ≤ 5, 2 ≤ n → ∀ p ∈ partitions n, ∃ l ∈ ((tLists n).toOption.getD []), l.Perm p := by decide +kernel
  have := key n h5 h2 p hp
  rw [h1] at this
  exact this

/-- C47, finding: for 1 the function returns a list that sums to 2; for 0 it raises `ValueError`. -/
theorem legacy_boundary : tLists 1 = .ok [[2], [1]] ∧ tLists 0 = .error .value := by decide

end TF.W
