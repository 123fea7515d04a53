import Verif.Spec.Wick
import Mathlib.Data.List.Permutation
import Mathlib.Data.List.Perm.Basic
import Mathlib.Algebra.BigOperators.Group.Finset.Basic
import Mathlib.Algebra.BigOperators.Group.List.Basic
import Mathlib.Data.Nat.Factorial.Basic
import Mathlib.Algebra.BigOperators.Group.Finset.Sigma
import Mathlib.Algebra.BigOperators.GroupWithZero.Action
import Mathlib.Algebra.Order.BigOperators.Group.List

/-! # How often a list occurs among the permutations of another -/

namespace TF.Fock

open TF.Spec.Wick

variable {α : Type} [DecidableEq α]

/-- The list without one of its letters `x`. -/
def erasures (x : α) : List α → List (List α)
  | [] => []
  | y :: ys => (if y = x then [ys] else []) ++ (erasures x ys).map (List.cons y)

theorem erasures_length (x : α) (ys : List α) : (erasures x ys).length = ys.count x := by
  induction ys with
  | nil => rfl
  | cons y ys ih =>
    rw [erasures, List.length_append, List.length_map, ih, List.count_cons]
    split <;> rename_i h
    · simp [h]; omega
    · simp [h]

theorem erasures_perm (x : α) (ys : List α) : ∀ e ∈ erasures x ys, (x :: e).Perm ys := by
  induction ys with
  | nil => intro e he; simp [erasures] at he
  | cons y ys ih =>
    intro e he
    rw [erasures, List.mem_append] at he
    rcases he with he | he
    · split at he
      · rename_i h
        rw [List.mem_singleton.1 he, h]
      · simp at he
    · obtain ⟨e', he', rfl⟩ := List.mem_map.1 he
      exact (List.Perm.swap _ _ _).trans ((ih e' he').cons y)

theorem count_map_cons (y z : α) (ys : List α) (l : List (List α)) : (l.map (List.cons z)).count (y :: ys) = if y = z then l.count ys else 0 := by
  split <;> rename_i h
  · subst h
    exact List.count_map_of_injective _ _ (fun _ _ h => (List.cons.inj h).2) _
  · rw [List.count_eq_zero]
    intro hm
    obtain ⟨_, _, e⟩ := List.mem_map.1 hm
    exact h (List.cons.inj e).1.symm

theorem count_insert (x : α) (zs : List α) : ∀ ys, (zs.permutations'Aux x).count ys = (erasures x ys).count zs := by
  induction zs with
  | nil =>
    intro ys
    obtain _ | ⟨y, ys⟩ := ys
    · simp [erasures]
    · rw [erasures, List.count_append, List.permutations'Aux]
      have : ((erasures x ys).map (List.cons y)).count [] = 0 := by
        rw [List.count_eq_zero]; simp
      rw [this, add_zero, List.count_singleton]
      by_cases h : y = x
      · subst h
        rw [if_pos rfl, List.count_singleton]
        refine if_congr ?_ rfl rfl
        rw [beq_iff_eq, beq_iff_eq]
        constructor <;> intro h <;> simp_all
      · have h' : x ≠ y := fun e => h e.symm
        rw [if_neg h]
        simp [h']
  | cons z zs ih =>
    intro ys
    rw [List.permutations'Aux, List.count_cons]
    obtain _ | ⟨y, ys⟩ := ys
    · have : ((zs.permutations'Aux x).map (List.cons z)).count [] = 0 := by
        rw [List.count_eq_zero]; simp
      rw [this]
      simp [erasures]
    · rw [count_map_cons, erasures, List.count_append, count_map_cons, ih, add_comm]
      have e : (if y = z then (erasures x ys).count zs else 0) = if z = y then (erasures x ys).count zs else 0 := by simp [eq_comm]
      rw [e]
      congr 1
      by_cases h : y = x
      · subst h
        rw [if_pos rfl, List.count_singleton]
        exact if_congr (by simp [eq_comm (a := ys)]) rfl rfl
      · have h' : x ≠ y := fun e => h e.symm
        rw [if_neg h]
        simp [h']

theorem count_swap {β : Type} [BEq β] [LawfulBEq β] (l m : List β) : (l.map fun a => m.count a).sum = (m.map fun b => l.count b).sum := by
  induction l with
  | nil => simp
  | cons a l ih =>
    rw [List.map_cons, List.sum_cons, ih]
    have : ∀ m : List β, m.count a + (m.map fun b => l.count b).sum = (m.map fun b => (a :: l).count b).sum := by
      intro m
      induction m with
      | nil => simp
      | cons c m ih =>
        rw [List.map_cons, List.sum_cons, List.map_cons, List.sum_cons, ← ih, List.count_cons, List.count_cons]
        have : (if (c == a) = true then 1 else 0) = if (a == c) = true then 1 else 0 := if_congr (by simp [eq_comm (a := a)]) rfl rfl
        rw [this]
        omega
    exact this m

theorem repeats_cons (x : α) (xs : List α) : repeats (x :: xs) = (xs.count x + 1) * repeats xs := by
  unfold repeats
  rw [List.toFinset_cons]
  have h0 : ∏ y ∈ xs.toFinset, (xs.count y).factorial = ∏ y ∈ insert x xs.toFinset, (xs.count y).factorial := by
    refine Finset.prod_subset (Finset.subset_insert _ _) fun y _ hy => ?_
    rw [List.count_eq_zero.2 (by simpa using hy)]
    rfl
  rw [h0, ← Finset.mul_prod_erase _ _ (Finset.mem_insert_self x _), ← Finset.mul_prod_erase _ _ (Finset.mem_insert_self x _), ← mul_assoc, List.count_cons_self, Nat.factorial_succ]
  congr 1
  refine Finset.prod_congr rfl fun y hy => ?_
  rw [List.count_cons_of_ne (Finset.ne_of_mem_erase hy).symm]

theorem count_permutations' (xs : List α) : ∀ ys, ys.Perm xs → xs.permutations'.count ys = repeats xs := by
  induction xs with
  | nil =>
    intro ys h
    rw [List.perm_nil.1 h]
    simp [repeats]
  | cons x xs ih =>
    intro ys h
    rw [List.permutations', List.count_flatMap]
    have e1 : (fun zs : List α => (zs.permutations'Aux x).count ys) = fun zs => (erasures x ys).count zs := funext fun zs => count_insert x zs ys
    have e2 : (List.count ys ∘ List.permutations'Aux x) = fun zs => (erasures x ys).count zs := e1
    rw [e2, count_swap]
    have e3 : ∀ e ∈ erasures x ys, xs.permutations'.count e = repeats xs := fun e he =>
      ih e (((erasures_perm x ys e he).trans h).cons_inv)
    rw [List.map_congr_left e3, List.map_const', List.sum_replicate, erasures_length, repeats_cons, h.count_eq, List.count_cons_self, smul_eq_mul]

theorem count_permutations (xs ys : List α) (h : ys.Perm xs) : xs.permutations.count ys = repeats xs := by
  rw [(List.permutations_perm_permutations' xs).count_eq]
  exact count_permutations' xs ys h

/-- The sum over all permutations in terms of the different ones. -/
theorem sum_permutations {P : Type} [AddCommMonoid P] (xs : List α) (f : List α → P) :
    (xs.permutations.map f).sum = repeats xs • ∑ ys ∈ xs.permutations.toFinset, f ys := by
  rw [Finset.sum_list_map_count, Finset.smul_sum]
  refine Finset.sum_congr rfl fun ys hy => ?_
  have h1 := count_permutations xs ys (List.mem_permutations.1 (List.mem_toFinset.1 hy))
  have h2 : (instBEqOfDecidableEq : BEq (List α)) = List.instBEq := lawful_beq_subsingleton _ _
  rw [← h1, h2]

end TF.Fock
