import Mathlib.Data.List.Permutation
import Mathlib.Data.Finset.Card
import Mathlib.Data.Nat.Factorial.Basic
import Mathlib.Algebra.BigOperators.Group.Finset.Basic
import Mathlib.Algebra.BigOperators.Ring.Finset
import Mathlib.Data.Finset.Union
import Mathlib.Tactic.Ring

/-! # The number of distinct rearrangements of a list -/

namespace TF.Lemmas

open scoped Nat

variable {α : Type} [DecidableEq α]

/-- the product of the factorials of the multiplicities -/
def multFact (l : List α) : ℕ := ∏ x ∈ l.toFinset, (l.count x)!

def perms (l : List α) : Finset (List α) := l.permutations.toFinset

theorem mem_perms {l x : List α} : x ∈ perms l ↔ x.Perm l := by
  simp [perms]

theorem multFact_erase (l : List α) (a : α) (h : a ∈ l) : multFact l = l.count a * multFact (l.erase a) := by
  have hc : 1 ≤ l.count a := List.count_pos_iff.2 h
  have e1 : multFact l = (l.count a)! * ∏ x ∈ l.toFinset.erase a, (l.count x)! := by
    unfold multFact
    rw [Finset.mul_prod_erase _ (fun x => (l.count x)!) (List.mem_toFinset.2 h)]
  have e2 : multFact (l.erase a) = (l.count a - 1)! * ∏ x ∈ l.toFinset.erase a, (l.count x)! := by
    have hsub : multFact (l.erase a) = ∏ x ∈ l.toFinset, ((l.erase a).count x)! := by
      unfold multFact
      apply Finset.prod_subset
      · intro x hx
        rw [List.mem_toFinset] at hx ⊢
        exact List.mem_of_mem_erase hx
      · intro x _ hx
        rw [List.mem_toFinset] at hx
        rw [List.count_eq_zero_of_not_mem hx]; rfl
    rw [hsub, ← Finset.mul_prod_erase _ _ (List.mem_toFinset.2 h)]
    congr 1
    · rw [List.count_erase_self]
    · apply Finset.prod_congr rfl
      intro x hx
      rw [Finset.mem_erase] at hx
      rw [List.count_erase_of_ne hx.1]
  rw [e1, e2, ← mul_assoc, Nat.mul_factorial_pred (by omega)]

theorem perms_card (n : ℕ) : ∀ l : List α, l.length = n → (perms l).card * multFact l = n ! := by
  induction n with
  | zero =>
    intro l hl
    have : l = [] := by cases l with | nil => rfl | cons a l => simp at hl
    subst this
    simp [perms, multFact]
  | succ n ih =>
    intro l hl
    have hun : perms l = l.toFinset.biUnion fun a => (perms (l.erase a)).map ⟨(a :: ·), List.cons_injective⟩ := by
      ext x
      simp only [mem_perms, Finset.mem_biUnion, List.mem_toFinset, Finset.mem_map, Function.Embedding.coeFn_mk]
      constructor
      · intro h
        cases x with
        | nil => have := h.length_eq; simp [hl] at this
        | cons a x =>
          have ha : a ∈ l := h.subset (by simp)
          exact ⟨a, ha, x, (List.cons_perm_iff_perm_erase.1 h).2, rfl⟩
      · rintro ⟨a, ha, y, hy, rfl⟩
        exact List.cons_perm_iff_perm_erase.2 ⟨ha, hy⟩
    have hcard : (perms l).card = ∑ a ∈ l.toFinset, (perms (l.erase a)).card := by
      rw [hun, Finset.card_biUnion]
      · simp
      · intro a _ b _ hab
        rw [Function.onFun, Finset.disjoint_left]
        intro x hx hy
        simp only [Finset.mem_map, Function.Embedding.coeFn_mk] at hx hy
        obtain ⟨y, _, rfl⟩ := hx
        obtain ⟨z, _, hz⟩ := hy
        exact hab (List.cons.inj hz).1.symm
    rw [hcard, Finset.sum_mul]
    have : ∀ a ∈ l.toFinset, (perms (l.erase a)).card * multFact l = l.count a * n ! := by
      intro a ha
      rw [List.mem_toFinset] at ha
      rw [multFact_erase l a ha, ← ih (l.erase a) (by rw [List.length_erase_of_mem ha]; omega)]
      ring
    rw [Finset.sum_congr rfl this, ← Finset.sum_mul, Nat.factorial_succ, ← hl]
    congr 1
    rw [List.sum_toFinset_count_eq_length]

/-- A duplicate-free list of all rearrangements of `l` has `|l|! / prod (multiplicity)!` elements. -/
theorem length_rearrangements (l : List α) (L : List (List α)) (hn : L.Nodup) (hm : ∀ x, x ∈ L ↔ x.Perm l) :
    L.length * multFact l = l.length ! := by
  rw [← perms_card l.length l rfl, ← List.toFinset_card_of_nodup hn]
  congr 2
  ext x
  rw [List.mem_toFinset, hm, mem_perms]

end TF.Lemmas
