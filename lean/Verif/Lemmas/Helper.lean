import Verif.Model.Helper
import Verif.Spec.Helper
import Verif.Lemmas.Py

/-! # Lemmas about the model of helper_funcs.py -/

set_option linter.unusedVariables false

namespace TF.Helper

open TF.Py TF.Spec

theorem natGe_linear : LinearOrderB (fun a b : Nat => decide (b ≤ a)) := natLe_linear.flip

theorem lexLt_of_lexLe_ne {a b : List Nat} (h : lexLe a b = true) (hne : a ≠ b) : LexLt a b := by
  induction a generalizing b with
  | nil => cases b with
    | nil => exact absurd rfl hne
    | cons b bs => exact LexLt.nil b bs
  | cons x xs ih =>
    cases b with
    | nil => simp [lexLe] at h
    | cons y ys =>
      simp only [lexLe] at h
      split at h
      · exact LexLt.head _ _ (by assumption)
      · split at h
        · subst_vars
          exact LexLt.tail _ (ih h (fun e => hne (by rw [e])))
        · exact absurd h (by simp)

theorem sortDescLex_strict (l : List (List Nat)) (h : l.Nodup) :
    (sortDescLex l).Pairwise (fun a b => LexLt b a) := by
  have h1 := sortBy_pairwise lexLe_linear.flip.toTotalOrderB l
  have h2 : (sortDescLex l).Nodup := (sortBy_perm _ l).nodup_iff.2 h
  exact (h1.and h2).imp (fun ⟨h, hne⟩ => lexLt_of_lexLe_ne h (fun e => hne e.symm))

theorem mem_sortDescLex (l : List (List Nat)) (x : List Nat) : x ∈ sortDescLex l ↔ x ∈ l :=
  mem_sortBy _ _ _

theorem sum_pos_of_parts {p : List Nat} (hp : ∀ x ∈ p, 1 ≤ x) (hne : p ≠ []) : 1 ≤ p.sum := by
  cases p with
  | nil => exact absurd rfl hne
  | cons a l => have := hp a List.mem_cons_self; simp; omega

theorem mem_partitionsAux (fuel n : Nat) (hn : 1 ≤ n) (hf : n ≤ fuel + 1) (p : List Nat) :
    p ∈ partitionsAux fuel n ↔ IsPartition n p := by
  induction fuel generalizing n p with
  | zero =>
    have : n = 1 := by omega
    subst this
    simp only [partitionsAux, List.mem_singleton]
    constructor
    · rintro rfl; exact ⟨by simp, by simp, by simp⟩
    · rintro ⟨h1, h2, h3⟩
      cases p with
      | nil => simp at h1
      | cons a l =>
        have ha := h2 a List.mem_cons_self
        rw [List.sum_cons] at h1
        have hl : l = [] := by
          by_contra hne
          have := sum_pos_of_parts (fun x hx => h2 x (List.mem_cons_of_mem _ hx)) hne
          omega
        subst hl; simp at h1; subst h1; rfl
  | succ fuel ih =>
    simp only [partitionsAux, mem_sortDescLex, List.mem_dedup, List.mem_cons, List.mem_flatMap,
      List.mem_map, mem_range2]
    constructor
    · rintro (rfl | ⟨x, ⟨hx1, hx2⟩, y, hy, rfl⟩)
      · exact ⟨by simp, by simpa using hn, by simp⟩
      · have hy' := (ih (n - x) (by omega) (by omega) y).1 hy
        have hperm := sortBy_perm (fun a b : Nat => decide (b ≤ a)) (x :: y)
        refine ⟨?_, ?_, ?_⟩
        · show (sortBy _ _).sum = n
          rw [sum_perm hperm, List.sum_cons, hy'.sum_eq]; omega
        · intro z hz
          rcases List.mem_cons.1 (hperm.mem_iff.1 hz) with rfl | hz
          · exact hx1
          · exact hy'.pos z hz
        · exact (sortBy_pairwise natGe_linear.toTotalOrderB (x :: y)).imp (by simp)
    · rintro ⟨h1, h2, h3⟩
      cases p with
      | nil => simp at h1; omega
      | cons a l =>
        rw [List.sum_cons] at h1
        have ha := h2 a List.mem_cons_self
        by_cases hl : l = []
        · subst hl; left; simp at h1; rw [h1]
        · right
          have hs := sum_pos_of_parts (fun x hx => h2 x (List.mem_cons_of_mem _ hx)) hl
          have h3' := List.pairwise_cons.1 h3
          refine ⟨a, ⟨ha, by omega⟩, l, ?_, ?_⟩
          · exact (ih (n - a) (by omega) (by omega) l).2
              ⟨by omega, fun x hx => h2 x (List.mem_cons_of_mem _ hx), h3'.2⟩
          · exact sortBy_eq_self natGe_linear (h3.imp (by simp))

theorem max_of_desc {a : Nat} {l : List Nat} (h : (a :: l).Pairwise (fun a b => b ≤ a)) :
    (a :: l).max? = some a := by
  have h' := (List.pairwise_cons.1 h).1
  rw [List.max?_eq_some_iff]
  refine ⟨List.mem_cons_self, ?_⟩
  intro b hb
  rcases List.mem_cons.1 hb with rfl | hb
  · exact Nat.le_refl _
  · exact h' b hb

theorem sum_eq_length_iff {l : List Nat} (hp : ∀ x ∈ l, 1 ≤ x) :
    l.sum = l.length ↔ ∀ x ∈ l, x = 1 := by
  have hge : ∀ l : List Nat, (∀ x ∈ l, 1 ≤ x) → l.length ≤ l.sum := by
    intro l
    induction l with
    | nil => simp
    | cons a l ih =>
      intro h
      have h1 := h a List.mem_cons_self
      have h2 := ih (fun x hx => h x (List.mem_cons_of_mem _ hx))
      simp; omega
  induction l with
  | nil => simp
  | cons a l ih =>
    have h1 := hp a List.mem_cons_self
    have h2 := hge l (fun x hx => hp x (List.mem_cons_of_mem _ hx))
    have ih' := ih (fun x hx => hp x (List.mem_cons_of_mem _ hx))
    simp only [List.sum_cons, List.length_cons, List.mem_cons, forall_eq_or_imp, ← ih']
    omega

theorem mixedTest_iff {n : Nat} {p : List Nat} (hp : IsPartition n p) (hne : p ≠ []) :
    mixedTest n p = true ↔ AtMostOneBig p := by
  cases p with
  | nil => exact absurd rfl hne
  | cons a l =>
    have hmax := max_of_desc hp.desc
    have hsum := hp.sum_eq
    have hdesc := (List.pairwise_cons.1 hp.desc).1
    have hpos : ∀ x ∈ l, 1 ≤ x := fun x hx => hp.pos x (List.mem_cons_of_mem _ hx)
    rw [List.sum_cons] at hsum
    unfold mixedTest
    rw [hmax]
    have key : decide ((n : Int) - a + 1 = (a :: l).length) = true ↔ ∀ x ∈ l, x = 1 := by
      rw [← sum_eq_length_iff hpos, decide_eq_true_iff, List.length_cons]
      omega
    show decide ((n : Int) - a + 1 = (a :: l).length) = true ↔ _
    rw [key]
    unfold AtMostOneBig
    constructor
    · intro h
      have : l.filter (fun x => decide (1 < x)) = [] := by
        rw [List.filter_eq_nil_iff]; intro x hx; simp [h x hx]
      by_cases ha : 1 < a <;> simp [ha, this]
    · intro h x hx
      by_contra hx1
      have hx2 := hpos x hx
      have hx3 : 1 < x := by omega
      have ha : 1 < a := by have := hdesc x hx; omega
      have hmem : x ∈ l.filter (fun x => decide (1 < x)) := by simp [hx, hx3]
      have hlen := List.length_pos_of_mem hmem
      simp only [List.filter_cons, ha, decide_true, if_true, List.length_cons] at h
      omega

end TF.Helper
