import Verif.Lemmas.WRun
import Mathlib.Data.List.Perm.Lattice

/-! # Lemmas about the LaTeX of the W operators -/

namespace TF.W

open TF.Py TF.Helper TF.Spec TF.Spec.W

variable {α : Type} [DecidableEq α]

theorem countItems_spec (fuel : Nat) (l : List α) (h : l.length ≤ fuel) :
    ((countItems fuel l).map Prod.fst).Nodup ∧ ∀ x c, (x, c) ∈ countItems fuel l ↔ x ∈ l ∧ c = l.count x := by
  induction fuel generalizing l with
  | zero =>
    have : l = [] := by cases l with | nil => rfl | cons a l => simp at h
    subst this; simp [countItems]
  | succ fuel ih =>
    cases l with
    | nil => simp [countItems]
    | cons a l =>
      have hl : (l.filter fun x => decide (x ≠ a)).length ≤ fuel := by
        have := List.length_filter_le (fun x => decide (x ≠ a)) l
        simp at h; omega
      obtain ⟨h1, h2⟩ := ih _ hl
      rw [countItems]
      have hnot : ∀ c, (a, c) ∉ countItems fuel (l.filter fun x => decide (x ≠ a)) := by
        intro c hc
        have := ((h2 a c).1 hc).1
        simp at this
      refine ⟨?_, ?_⟩
      · rw [List.map_cons, List.nodup_cons]
        refine ⟨?_, h1⟩
        intro hm
        obtain ⟨⟨y, c⟩, hy, he⟩ := List.mem_map.1 hm
        simp only at he
        subst he
        exact hnot c hy
      · intro x c
        rw [List.mem_cons, Prod.mk.injEq, h2]
        by_cases hx : x = a
        · subst hx; simp
        · have hcount : (l.filter fun x => decide (x ≠ a)).count x = (a :: l).count x := by
            rw [List.count_filter (by simpa using hx), List.count_cons_of_ne (by simpa using fun h => hx h.symm)]
          rw [hcount]
          simp [hx]

theorem countItems_expand (l : List α) :
    ((countItems l.length l).flatMap fun f => List.replicate f.2 f.1).Perm l := by
  obtain ⟨h1, h2⟩ := countItems_spec l.length l le_rfl
  rw [List.perm_iff_count]
  intro x
  rw [List.count_flatMap]
  have key : ∀ L : List (α × Nat), (L.map Prod.fst).Nodup → (∀ y c, (y, c) ∈ L → c = l.count y) →
      (L.map (List.count x ∘ fun f => List.replicate f.2 f.1)).sum = if x ∈ L.map Prod.fst then l.count x else 0 := by
    intro L
    induction L with
    | nil => simp
    | cons f L ih =>
      intro hn hc
      rw [List.map_cons, List.nodup_cons] at hn
      rw [List.map_cons, List.sum_cons, ih hn.2 fun y c h => hc y c (by simp [h])]
      have hf := hc f.1 f.2 (by simp)
      simp only [Function.comp, List.map_cons, List.mem_cons]
      rw [List.count_replicate]
      by_cases hx : x = f.1
      · subst hx
        simp [hn.1, hf]
      · have hx' : ¬ f.1 = x := fun h => hx h.symm
        simp only [beq_iff_eq, hx', if_false, Nat.zero_add, hx, false_or]
  rw [key _ h1 fun y c h => ((h2 y c).1 h).2]
  have : x ∈ (countItems l.length l).map Prod.fst ↔ x ∈ l := by
    constructor
    · intro h
      obtain ⟨⟨y, c⟩, hy, he⟩ := List.mem_map.1 h
      simp only at he; subst he
      exact ((h2 _ _).1 hy).1
    · intro h
      exact List.mem_map.2 ⟨(x, l.count x), (h2 _ _).2 ⟨h, rfl⟩, rfl⟩
  by_cases h : x ∈ l
  · rw [if_pos (this.2 h)]
  · rw [if_neg (fun h' => h (this.1 h')), List.count_eq_zero_of_not_mem h]

theorem countItems_mult (l : List α) : ((countItems l.length l).map Prod.snd).Perm (multiplicities l) := by
  obtain ⟨h1, h2⟩ := countItems_spec l.length l le_rfl
  have e : (countItems l.length l).map Prod.snd = ((countItems l.length l).map Prod.fst).map fun x => l.count x := by
    rw [List.map_map]
    apply List.map_congr_left
    rintro ⟨x, c⟩ h
    exact ((h2 _ _).1 h).2
  rw [e]
  unfold multiplicities
  apply List.Perm.map
  rw [List.perm_ext_iff_of_nodup h1 (List.nodup_dedup l)]
  intro x
  rw [List.mem_dedup]
  constructor
  · intro h
    obtain ⟨⟨y, c⟩, hy, he⟩ := List.mem_map.1 h
    simp only at he; subst he
    exact ((h2 _ _).1 hy).1
  · intro h
    exact List.mem_map.2 ⟨(x, l.count x), (h2 _ _).2 ⟨h, rfl⟩, rfl⟩

theorem latexTerm_prints (l : List α) : Prints l (latexTerm l) := by
  refine ⟨countItems_expand l, (countItems_spec l.length l le_rfl).1, ?_⟩
  unfold overFactorials latexTerm
  simp only []
  rw [prod_filter_factorial, ((countItems_mult l).map Nat.factorial).prod_eq]

theorem prod_multiplicities (l : List α) : ((multiplicities l).map Nat.factorial).prod = Lemmas.multFact l := by
  unfold multiplicities Lemmas.multFact
  rw [List.map_map, ← List.prod_toFinset _ (List.nodup_dedup l)]
  have : l.dedup.toFinset = l.toFinset := by ext; simp
  rw [this]; rfl

end TF.W
