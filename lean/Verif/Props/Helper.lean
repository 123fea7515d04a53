import Verif.Model.Helper
import Verif.Spec.Helper
import Verif.Lemmas.Helper

/-! # Properties C01, C02, C03: partitions and permutations -/

set_option linter.unusedVariables false

namespace TF.Helper

open TF.Py TF.Spec

/-! ## C01 -/

/-- C01: `generate_partitions_of_n(n)` contains exactly the partitions of `n`. -/
theorem partitions_exact (n : Nat) (hn : 1 ≤ n) (p : List Nat) :
    p ∈ partitions n ↔ IsPartition n p := mem_partitionsAux n n hn (by omega) p

example : [3, 1, 1] ∈ partitions 5 := (partitions_exact 5 (by decide) _).2 ⟨rfl, by decide, by decide⟩

/-- C01: the list is strictly decreasing in lexicographic order; in particular no partition is
repeated. -/
theorem partitions_sorted (n : Nat) : (partitions n).Pairwise (fun a b => LexLt b a) := by
  unfold partitions
  cases n with
  | zero => simp [partitionsAux]
  | succ n => exact sortDescLex_strict _ (List.nodup_dedup _)

theorem LexLt.irrefl {a : List Nat} : ¬ LexLt a a := by
  intro h
  induction a with
  | nil => cases h
  | cons x xs ih =>
    cases h with
    | head _ _ h => omega
    | tail _ h => exact ih h

/-- C01: no partition is listed twice. -/
theorem partitions_nodup (n : Nat) : (partitions n).Nodup :=
  (partitions_sorted n).imp (fun {a b} h e => by subst e; exact LexLt.irrefl h)

/-- C01, the boundary: for `n = 0` the code returns the one-element tuple `(0,)`, which is not a
partition of 0 into positive parts. -/
theorem partitions_zero : partitions 0 = [[0]] ∧ ¬ IsPartition 0 [0] :=
  ⟨rfl, fun h => absurd (h.pos 0 (by simp)) (by omega)⟩

/-! ## C02 -/

theorem partitions_ne_nil {n : Nat} (hn : 1 ≤ n) {p : List Nat} (h : IsPartition n p) : p ≠ [] := by
  rintro rfl; have := h.sum_eq; simp at this; omega

/-- C02: the mixed list is exactly the partitions with at most one part greater than one, in the
order of the full list. -/
theorem mixed_exact (n : Nat) (hn : 1 ≤ n) (p : List Nat) :
    p ∈ mixedPartitions n ↔ IsPartition n p ∧ AtMostOneBig p := by
  unfold mixedPartitions
  rw [List.mem_filter, partitions_exact n hn]
  constructor
  · rintro ⟨h1, h2⟩; exact ⟨h1, (mixedTest_iff h1 (partitions_ne_nil hn h1)).1 h2⟩
  · rintro ⟨h1, h2⟩; exact ⟨h1, (mixedTest_iff h1 (partitions_ne_nil hn h1)).2 h2⟩

theorem mixed_sublist (n : Nat) : (mixedPartitions n).Sublist (partitions n) :=
  List.filter_sublist

/-- C02: the linked list is the mixed list without the single-part partition. -/
theorem linked_exact (n : Nat) (hn : 1 ≤ n) (p : List Nat) :
    p ∈ linkedPartitions n ↔ IsPartition n p ∧ AtMostOneBig p ∧ p ≠ [n] := by
  unfold linkedPartitions
  rw [List.mem_filter, partitions_exact n hn, Bool.and_eq_true]
  refine and_congr_right fun h1 => and_congr (mixedTest_iff h1 (partitions_ne_nil hn h1)) ?_
  cases p with
  | nil => exact absurd rfl (partitions_ne_nil hn h1)
  | cons a l =>
    rw [max_of_desc h1.desc]
    have hs := h1.sum_eq
    rw [List.sum_cons] at hs
    show decide (a < n) = true ↔ _
    rw [decide_eq_true_iff]
    constructor
    · rintro h e
      have := (List.cons.inj e).1; omega
    · intro h
      by_contra hlt
      have ha : a = n := by omega
      have hl : l = [] := by
        by_contra hne
        have := sum_pos_of_parts (fun x hx => h1.pos x (List.mem_cons_of_mem _ hx)) hne
        omega
      exact h (by rw [ha, hl])

/-- C02: the un-linked list is exactly the partitions with at least two parts greater than one. -/
theorem unlinked_exact (n : Nat) (hn : 1 ≤ n) (p : List Nat) :
    p ∈ unlinkedPartitions n ↔ IsPartition n p ∧ ¬ AtMostOneBig p := by
  unfold unlinkedPartitions
  rw [mem_sortDescLex, List.mem_filter, List.mem_dedup, partitions_exact n hn]
  refine and_congr_right fun h1 => ?_
  simp only [Bool.not_eq_true', List.contains_eq_mem, decide_eq_false_iff_not, mixed_exact n hn]
  exact ⟨fun h h2 => h ⟨h1, h2⟩, fun h h2 => h h2.2⟩

/-- C02: the un-linked list is strictly decreasing. -/
theorem unlinked_sorted (n : Nat) : (unlinkedPartitions n).Pairwise (fun a b => LexLt b a) :=
  sortDescLex_strict _ ((List.nodup_dedup _).filter _)

/-- C02: together with `(n)`, the linked and un-linked lists are a rearrangement of all partitions:
the three classes are disjoint and exhaust them. -/
theorem partition_classes_split (n : Nat) (hn : 1 ≤ n) :
    ([n] :: (linkedPartitions n ++ unlinkedPartitions n)).Perm (partitions n) := by
  have hnd : ([n] :: (linkedPartitions n ++ unlinkedPartitions n)).Nodup := by
    rw [List.nodup_cons, List.nodup_append, List.mem_append]
    refine ⟨?_, (partitions_nodup n).filter _, ?_, ?_⟩
    · rintro (h | h)
      · exact ((linked_exact n hn _).1 h).2.2 rfl
      · refine ((unlinked_exact n hn _).1 h).2 ?_
        unfold AtMostOneBig
        exact Nat.le_trans (List.length_filter_le _ _) (by simp)
    · exact (unlinked_sorted n).imp (fun {a b} h e => by subst e; exact LexLt.irrefl h)
    · rintro a ha b hb rfl
      exact ((unlinked_exact n hn _).1 hb).2 ((linked_exact n hn _).1 ha).2.1
  rw [List.perm_ext_iff_of_nodup hnd (partitions_nodup n)]
  intro p
  rw [List.mem_cons, List.mem_append, linked_exact n hn, unlinked_exact n hn, partitions_exact n hn]
  constructor
  · rintro (rfl | h | h)
    · exact ⟨by simp, by simpa using hn, by simp⟩
    · exact h.1
    · exact h.1
  · intro h
    by_cases e : p = [n]
    · exact Or.inl e
    · by_cases h2 : AtMostOneBig p
      · exact Or.inr (Or.inl ⟨h, h2, e⟩)
      · exact Or.inr (Or.inr ⟨h, h2⟩)

example : [2, 2, 1] ∈ unlinkedPartitions 5 ∧ [3, 1, 1] ∈ linkedPartitions 5 := by decide

/-- C02: the 'connected' partition of `n` is the partition of `n` all of whose parts are one. -/
theorem connected_exact (n : Nat) (p : List Nat) :
    p = connectedPartition n ↔ IsPartition n p ∧ ∀ x ∈ p, x = 1 := by
  unfold connectedPartition
  constructor
  · rintro rfl
    refine ⟨⟨by simp, ?_, ?_⟩, ?_⟩
    · intro x hx; rw [List.eq_of_mem_replicate hx]; exact Nat.le_refl 1
    · rw [List.pairwise_replicate]; right; omega
    · intro x hx; exact List.eq_of_mem_replicate hx
  · rintro ⟨h, h1⟩
    have : p = List.replicate p.length 1 := List.eq_replicate_iff.2 ⟨rfl, h1⟩
    have hs := h.sum_eq
    rw [this] at hs
    simp at hs
    rw [this, hs]

/-! ## C03 -/

/-- C03: `unique_permutations` lists exactly the rearrangements. -/
theorem uniquePermutations_exact {α : Type} [DecidableEq α] (le : List α → List α → Bool)
    (xs ys : List α) : ys ∈ uniquePermutations le xs ↔ ys.Perm xs := by
  unfold uniquePermutations
  rw [mem_sortBy, List.mem_dedup, mem_permutations]

/-- C03: no rearrangement is listed twice and, when `le` is a linear order on tuples, the list is
sorted by it. -/
theorem uniquePermutations_sorted {α : Type} [DecidableEq α] (le : List α → List α → Bool)
    (hle : LinearOrderB le) (xs : List α) :
    (uniquePermutations le xs).Pairwise (fun a b => le a b = true ∧ a ≠ b) :=
  (sortBy_pairwise hle.toTotalOrderB _).and ((sortBy_perm le _).nodup_iff.2 (List.nodup_dedup _))

/-- Python compares tuples of integers with a linear order (hypothesis of the theorem above). -/
example : LinearOrderB lexLe := lexLe_linear
example : uniquePermutations lexLe [1, 0, 1] = [[0, 1, 1], [1, 0, 1], [1, 1, 0]] := by decide

end TF.Helper
