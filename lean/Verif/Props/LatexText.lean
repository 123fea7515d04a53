import Verif.Lemmas.LatexDocs
import Verif.Props.ZhzDoc
import Verif.Props.ETLatex
import Verif.Props.FullCC.Latex

/-!
# C96: the brackets in the LaTeX documents

A document whose braces or parentheses do not match is not compiled by LaTeX, or shows an equation that cannot be read.
`Balanced` (`Spec/Latex`) says that reading a text from left to right never closes more brackets than were opened and
closes all of them.  The texts (`Model/LatexText`) are what the generators write, after empty superscripts and
subscripts were removed by `str.replace`.
-/

namespace TF.LatexText

open TF.CC TF.Py TF.Spec.Latex

/-- **C96** Full CC: in every document the braces and the parentheses are balanced. -/
theorem fcc_balanced (so : SetOrder Nat) (sol : SetOrder (List CC.T)) (sop : SetOrder (List (Nat × Nat))) (rf gs : Bool) (hMax cc smax omegaMax : Nat) (d : List (Op × List LhsTerm × CC.Equation))
    (h : latexDocument so sol sop rf gs hMax cc smax omegaMax = .ok d) : Balanced '{' '}' (fccText d) ∧ Balanced '(' ')' (fccText d) := by
  have hd : ∀ x ∈ d, (∀ t ∈ x.2.1, CleanLhs t) ∧ CleanE x.2.2 := by
    intro x hx
    obtain ⟨f, hf, rfl⟩ := CC.collect_ok_iff.1 h
    obtain ⟨omega, ho, hx⟩ := List.mem_flatMap.1 hx
    have h1 := one_ok (hf omega ho) hx
    unfold documentEntry at h1
    split at h1
    · cases h1
    · next eq heq =>
      cases h1
      refine ⟨clean_lhsTerms _ _, ?_⟩
      unfold equationFor at heq
      split at heq
      · cases heq
      · split at heq
        · cases heq
        · exact clean_equation heq
  refine S_flatMap fun p hp => ?_
  obtain ⟨h1, h2⟩ := hd p.1 (List.of_mem_zip hp).1
  exact S_fccEntry _ _ h1 h2

/-- **C96** z_t: in every document the braces are balanced. -/
theorem zt_braces (gs removeF : Bool) (hMax cc pMax : Nat) (d : List Zhz.Section) (h : Zhz.document gs removeF hMax cc pMax = .ok d) : Balanced '{' '}' (ztText d) := (S_ztText h).1

/-- **C96** z_t: the parentheses are balanced exactly when no sum has 14 terms or more. -/
theorem zt_parens_iff (gs removeF : Bool) (hMax cc pMax : Nat) (d : List Zhz.Section) (h : Zhz.document gs removeF hMax cc pMax = .ok d) :
    Balanced '(' ')' (ztText d) ↔ ∀ s ∈ d, ∀ l, s.eqn.third = some l → l.length < 14 := by
  unfold TF.Spec.Latex.Balanced
  rw [(S_ztText h).2]
  constructor
  · intro hd s hs l hl
    injection hd with hd
    have := (List.sum_eq_zero_iff_forall_eq_nat.1 hd) (openZ s.eqn) (List.mem_map_of_mem hs)
    unfold openZ at this
    rw [hl] at this
    simp only [] at this
    by_contra hc
    rw [if_neg hc] at this
    cases this
  · intro hd
    congr 1
    refine List.sum_eq_zero_iff_forall_eq_nat.2 fun x hx => ?_
    obtain ⟨s, hs, rfl⟩ := List.mem_map.1 hx
    unfold openZ
    split
    · rfl
    · next l hl => rw [if_pos (hd s hs l hl)]

/-- the keys of the terms of an equation -/
theorem third_keys {rf : Bool} {hMax cc pMax : Nat} {d : List Zhz.Section} (hd : Zhz.document true rf hMax cc pMax = .ok d) {s : Zhz.Section} (hs : s ∈ d) :
    (s.eqn.third.getD []).length = (((Zhz.prunedH hMax).filter (TF.Spec.Zhz.contributes s.omega cc)).map fun h => (h.m, h.n)).length := by
  rw [Zhz.third_getD hd hs, List.length_map, List.length_map]

theorem mem_keys {hMax cc : Nat} {o : Op} (x : Nat × Nat) : x ∈ (((Zhz.prunedH hMax).filter (TF.Spec.Zhz.contributes o cc)).map fun h => (h.m, h.n)) ↔
    x.1 ≤ o.n ∧ o.m ≤ x.2 ∧ (o.n - x.1) + (x.2 - o.m) ≤ cc ∧ x.1 + x.2 ≤ hMax ∧ (x.1 + x.2 < 3 ∨ x.1 = 0) := by
  constructor
  · intro hx
    obtain ⟨h, hh, rfl⟩ := List.mem_map.1 hx
    rw [List.mem_filter, Zhz.mem_prunedH] at hh
    obtain ⟨⟨h1, h2, h3⟩, h4⟩ := hh
    simp only [TF.Spec.Zhz.contributes, Bool.and_eq_true, decide_eq_true_eq] at h4
    simp only
    omega
  · intro hx
    refine List.mem_map.2 ⟨⟨x.1 + x.2, x.1, x.2⟩, List.mem_filter.2 ⟨Zhz.mem_prunedH.2 ⟨rfl, hx.2.2.2.1, hx.2.2.2.2⟩, ?_⟩, rfl⟩
    simp only [TF.Spec.Zhz.contributes, Bool.and_eq_true, decide_eq_true_eq]
    omega

/-- the values for which the document has a sum of 14 terms or more -/
def LongSums (hMax cc pMax : Nat) : Prop :=
  (10 ≤ hMax ∧ 12 ≤ cc ∧ 2 ≤ pMax) ∨ (11 ≤ hMax ∧ 12 ≤ cc ∧ 1 ≤ pMax) ∨ (13 ≤ hMax ∧ 13 ≤ cc)

theorem long_le {hMax cc pMax : Nat} {o : Op} (ho : o.m + o.n ≤ pMax) (hc : o.m + o.n ≤ cc)
    (hl : 14 ≤ (((Zhz.prunedH hMax).filter (TF.Spec.Zhz.contributes o cc)).map fun h => (h.m, h.n)).length) : LongSums hMax cc pMax := by
  by_contra hn
  have hnd : (((Zhz.prunedH hMax).filter (TF.Spec.Zhz.contributes o cc)).map fun h => (h.m, h.n)).Nodup := (Zhz.prunedH_keys_nodup hMax).sublist ((List.filter_sublist).map _)
  have hsub : ∀ L : List (Nat × Nat), (∀ x ∈ ((Zhz.prunedH hMax).filter (TF.Spec.Zhz.contributes o cc)).map fun h => (h.m, h.n), x ∈ L) → 14 ≤ L.length :=
    fun L h => le_trans hl (List.Nodup.subperm hnd h).length_le
  unfold LongSums at hn
  have hn1 : ¬ (10 ≤ hMax ∧ 12 ≤ cc ∧ 2 ≤ pMax) := fun h => hn (Or.inl h)
  have hn2 : ¬ (11 ≤ hMax ∧ 12 ≤ cc ∧ 1 ≤ pMax) := fun h => hn (Or.inr (Or.inl h))
  have hn3 : ¬ (13 ≤ hMax ∧ 13 ≤ cc) := fun h => hn (Or.inr (Or.inr h))
  rcases Nat.lt_or_ge o.n 1 with h0 | h0
  · have := hsub ((List.range 13).map fun k => (0, o.m + k)) fun x hx => by
      have := (mem_keys x).1 hx
      obtain ⟨a, b⟩ := x
      simp only at this
      exact List.mem_map.2 ⟨b - o.m, List.mem_range.2 (by omega), by simp only [Prod.mk.injEq]; omega⟩
    simp at this
  · rcases Nat.lt_or_ge o.n 2 with h1 | h1
    · have := hsub (((List.range 11).map fun k => (0, o.m + k)) ++ [(1, 0), (1, 1)]) fun x hx => by
        have := (mem_keys x).1 hx
        obtain ⟨a, b⟩ := x
        simp only at this
        rw [List.mem_append, List.mem_map]
        by_cases ha : a = 0
        · left; exact ⟨b - o.m, List.mem_range.2 (by omega), by simp only [Prod.mk.injEq]; omega⟩
        · right
          have : (a = 1 ∧ b = 0) ∨ (a = 1 ∧ b = 1) := by omega
          rcases this with ⟨rfl, rfl⟩ | ⟨rfl, rfl⟩ <;> simp
      simp at this
    · have := hsub (((List.range 10).map fun k => (0, o.m + k)) ++ [(1, 0), (1, 1), (2, 0)]) fun x hx => by
        have := (mem_keys x).1 hx
        obtain ⟨a, b⟩ := x
        simp only at this
        rw [List.mem_append, List.mem_map]
        by_cases ha : a = 0
        · left; exact ⟨b - o.m, List.mem_range.2 (by omega), by simp only [Prod.mk.injEq]; omega⟩
        · right
          have : (a = 1 ∧ b = 0) ∨ (a = 1 ∧ b = 1) ∨ (a = 2 ∧ b = 0) := by omega
          rcases this with ⟨rfl, rfl⟩ | ⟨rfl, rfl⟩ | ⟨rfl, rfl⟩ <;> simp
      simp at this

theorem long_exists {hMax cc pMax : Nat} (h : LongSums hMax cc pMax) : ∃ o ∈ omegaOps cc pMax, 14 ≤ (((Zhz.prunedH hMax).filter (TF.Spec.Zhz.contributes o cc)).map fun h => (h.m, h.n)).length := by
  have hop : ∀ n, n ≤ cc → n ≤ pMax → (⟨rep 'd' 0 ++ rep 'b' n, 0 + n, 0, n⟩ : Op) ∈ omegaOps cc pMax :=
    fun n h1 h2 => (omegaOps_exact cc pMax _).2 ⟨rfl, rfl, by simpa using h1, by simpa using h2⟩
  have key : ∀ (o : Op) (L : List (Nat × Nat)), L.Nodup → L.length = 14 →
      (∀ x ∈ L, x.1 ≤ o.n ∧ o.m ≤ x.2 ∧ (o.n - x.1) + (x.2 - o.m) ≤ cc ∧ x.1 + x.2 ≤ hMax ∧ (x.1 + x.2 < 3 ∨ x.1 = 0)) →
      14 ≤ (((Zhz.prunedH hMax).filter (TF.Spec.Zhz.contributes o cc)).map fun h => (h.m, h.n)).length := by
    intro o L h1 h2 h3
    rw [← h2]
    exact (List.Nodup.subperm h1 fun x hx => (mem_keys x).2 (h3 x hx)).length_le
  rcases h with ⟨h1, h2, h3⟩ | ⟨h1, h2, h3⟩ | ⟨h1, h2⟩
  · refine ⟨_, hop 2 (by omega) h3, key _ (((List.range 11).map fun k => (0, k)) ++ [(1, 0), (1, 1), (2, 0)]) (by decide) (by decide) ?_⟩
    intro x hx
    have : x ∈ ((List.range 11).map fun k => (0, k)) ∨ x ∈ [(1, 0), (1, 1), (2, 0)] := List.mem_append.1 hx
    rcases this with hx | hx
    · obtain ⟨k, hk, rfl⟩ := List.mem_map.1 hx
      have := List.mem_range.1 hk
      exact ⟨Nat.zero_le _, Nat.zero_le _, by simp only; omega, by simp only; omega, Or.inr rfl⟩
    · simp only [List.mem_cons, List.not_mem_nil, or_false] at hx
      rcases hx with rfl | rfl | rfl <;> simp only <;> omega
  · refine ⟨_, hop 1 (by omega) h3, key _ (((List.range 12).map fun k => (0, k)) ++ [(1, 0), (1, 1)]) (by decide) (by decide) ?_⟩
    intro x hx
    have : x ∈ ((List.range 12).map fun k => (0, k)) ∨ x ∈ [(1, 0), (1, 1)] := List.mem_append.1 hx
    rcases this with hx | hx
    · obtain ⟨k, hk, rfl⟩ := List.mem_map.1 hx
      have := List.mem_range.1 hk
      exact ⟨Nat.zero_le _, Nat.zero_le _, by simp only; omega, by simp only; omega, Or.inr rfl⟩
    · simp only [List.mem_cons, List.not_mem_nil, or_false] at hx
      rcases hx with rfl | rfl <;> simp only <;> omega
  · refine ⟨_, hop 0 (Nat.zero_le _) (Nat.zero_le _), key _ ((List.range 14).map fun k => (0, k)) (by decide) (by decide) ?_⟩
    intro x hx
    obtain ⟨k, hk, rfl⟩ := List.mem_map.1 hx
    have := List.mem_range.1 hk
    exact ⟨Nat.zero_le _, Nat.zero_le _, by simp only; omega, by simp only; omega, Or.inr rfl⟩

/-- **C96** z_t: the parentheses are balanced exactly for these values.  In particular they are whenever the rank of the Hamiltonian is at most 9 or the coupled-cluster rank at most 11. -/
theorem zt_parens_values (removeF : Bool) (hMax cc pMax : Nat) (d : List Zhz.Section) (h : Zhz.document true removeF hMax cc pMax = .ok d) :
    Balanced '(' ')' (ztText d) ↔ ¬ ((10 ≤ hMax ∧ 12 ≤ cc ∧ 2 ≤ pMax) ∨ (11 ≤ hMax ∧ 12 ≤ cc ∧ 1 ≤ pMax) ∨ (13 ≤ hMax ∧ 13 ≤ cc)) := by
  rw [zt_parens_iff _ _ _ _ _ d h]
  constructor
  · intro hd hL
    obtain ⟨o, ho, hl⟩ := long_exists hL
    rw [← (Zhz.zhz_document_sections removeF hMax cc pMax h).1, List.mem_map] at ho
    obtain ⟨s, hs, rfl⟩ := ho
    rw [← third_keys h hs] at hl
    cases ht : s.eqn.third with
    | none => rw [ht] at hl; simp at hl
    | some l =>
      rw [ht] at hl
      exact absurd (hd s hs l ht) (by simpa using hl)
  · intro hn s hs l hl
    by_contra hc
    obtain ⟨-, -, o3, o4⟩ := (omegaOps_exact cc pMax _).1 (Zhz.mem_document h hs).1
    refine hn (long_le o4 o3 ?_)
    rw [← third_keys h hs, hl]
    exact Nat.le_of_not_lt hc

/-- **C96** z_t: there are documents whose parentheses are not balanced. -/
theorem zt_parens_witness (removeF : Bool) : ∃ d, Zhz.document true removeF 10 12 2 = .ok d ∧ ¬ Balanced '(' ')' (ztText d) := by
  obtain ⟨d, hd⟩ := (Zhz.zhz_document_ok_iff true removeF 10 12 2).2 ⟨rfl, by decide⟩
  exact ⟨d, hd, fun hb => (zt_parens_values removeF 10 12 2 d hd).1 hb (Or.inl (by decide))⟩

/-- **C96** eT_z_t: in every document the braces and the parentheses are balanced. -/
theorem eT_balanced (gs removeF : Bool) (mode : ET.Mode) (hMax cc T eT pMax : Nat) (d : List ET.Section) (h : ET.document gs removeF mode hMax cc T eT pMax = .ok d) :
    Balanced '{' '}' (eTText mode d) ∧ Balanced '(' ')' (eTText mode d) := by
  refine S_flatMap fun s hs => ?_
  unfold ET.document at h
  split at h
  · cases h
  · obtain ⟨f, hf, rfl⟩ := CC.collect_ok_iff.1 h
    obtain ⟨p, hp, hs⟩ := List.mem_flatMap.1 hs
    have h1 := hf p hp
    generalize f p = r at h1 hs
    unfold ET.sectionFor at h1
    split at h1
    · cases h1
      cases hs
    · split at h1
      · cases h1
      · next name hname =>
        split at h1
        · cases h1
        · next letters hl =>
          split at h1
          · cases h1
          · next e he =>
            cases h1
            rw [List.mem_singleton.1 hs]
            refine S_eTSection mode ?_ (clean_letters hl) (clean_sum _ _) (clean_sum _ _) (clean_sum _ _) (clean_sum _ _) (clean_sum _ _) (clean_eTEquation he)
            intro n hn
            simp only [] at hn
            split at hn
            · cases hn
              exact List.mem_of_getElem? hname
            · cases hn

/-! ## Examples -/

/-- The hypotheses are met: there are documents of each kind. -/
example : (∃ d, latexDocument (SetOrder.std Nat) (SetOrder.std (List CC.T)) (SetOrder.std (List (Nat × Nat))) false false 2 2 2 2 = .ok d ∧
      Balanced '{' '}' (fccText d) ∧ Balanced '(' ')' (fccText d)) ∧
    (∃ d, Zhz.document true true 2 2 2 = .ok d ∧ Balanced '{' '}' (ztText d) ∧ Balanced '(' ')' (ztText d)) ∧
    ∃ d, ET.document true true .rhs 2 2 1 2 2 = .ok d ∧ Balanced '{' '}' (eTText .rhs d) ∧ Balanced '(' ')' (eTText .rhs d) := by
  refine ⟨?_, ?_, ?_⟩
  · obtain ⟨d, hd⟩ := (CC.document_ok_iff (SetOrder.std Nat) (SetOrder.std (List CC.T)) (SetOrder.std (List (Nat × Nat))) false false 2 2 2 2 (by decide)).1.2 (Or.inl (by decide))
    exact ⟨d, hd, fcc_balanced _ _ _ _ _ _ _ _ _ d hd⟩
  · obtain ⟨d, hd⟩ := (Zhz.zhz_document_ok_iff true true 2 2 2).2 ⟨rfl, by decide⟩
    exact ⟨d, hd, zt_braces _ _ _ _ _ d hd, (zt_parens_values _ _ _ _ d hd).2 (by decide)⟩
  · obtain ⟨d, hd⟩ := (ETLatex.eT_latex_ok_iff true true .rhs 2 2 2 2).2 ⟨rfl, by decide, by decide⟩
    exact ⟨d, hd, eT_balanced _ _ _ _ _ _ _ _ d hd⟩

/-- What balanced means. -/
example : Balanced '(' ')' "a(b)(c(d))".toList ∧ ¬ Balanced '(' ')' "(a".toList ∧ ¬ Balanced '(' ')' "a)(".toList := by
  unfold TF.Spec.Latex.Balanced
  decide +kernel

end TF.LatexText
