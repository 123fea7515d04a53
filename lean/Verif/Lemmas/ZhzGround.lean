import Verif.Lemmas.ZhzPrint

/-!
# The terms of the ground-state z_t equations
-/

namespace TF.Zhz

open TF.Py
open TF.CC (Op HOp hamiltonian collect_ok_of collect)
open TF.Spec.Zhz

/-- the only contraction of `h` with a z operator without annihilation operators -/
def gsTable (lhs : Op) (h : HOp) : Place → Place → Nat
  | .lhs, .h => lhs.m
  | .h, .lhs => h.m
  | .right, .h => h.n - lhs.m
  | .right, .lhs => lhs.n - h.m
  | _, _ => 0

/-- its term -/
def gsTerm (lhs : Op) (h : HOp) : Term :=
  let k := (lhs.n - h.m) + (h.n - lhs.m)
  { lhs := { rank := lhs.m + lhs.n, m := lhs.m, n := lhs.n, m_l := 0, n_l := 0, m_r := 0, n_r := lhs.n - h.m
             m_h := lhs.m, n_h := h.m }
    h := { rank := h.m + h.n, m := h.m, n := h.n, m_l := 0, n_l := 0, m_r := 0, n_r := h.n - lhs.m
           m_lhs := h.m, n_lhs := lhs.m }
    left := none
    right := some { rank := k, m := k, n := 0, m_lhs := lhs.n - h.m, n_lhs := 0, m_h := h.n - lhs.m, n_h := 0
                    m_z := 0, n_z := 0 } }

theorem nodup_eq_ite {α : Type} {l : List α} (h : l.Nodup) {a : α} {P : Prop} [Decidable P]
    (hm : ∀ x, x ∈ l ↔ x = a ∧ P) : l = if P then [a] else [] := by
  by_cases hP : P
  · rw [if_pos hP]
    cases l with
    | nil => exact absurd ((hm a).2 ⟨rfl, hP⟩) (by simp)
    | cons b l =>
      have hb := ((hm b).1 (by simp)).1
      subst hb
      cases l with
      | nil => rfl
      | cons c l =>
        have hc := ((hm c).1 (by simp)).1
        subst hc
        simp at h
  · rw [if_neg hP, List.eq_nil_iff_forall_not_mem]
    intro x hx
    exact hP ((hm x).1 hx).2

theorem gsTable_pairing {lhs : Op} {cc : Nat} {h : HOp} (hg : contributes lhs cc h = true) {z : Op}
    (hm : z.m = (lhs.n - h.m) + (h.n - lhs.m)) (hn : z.n = 0) :
    IsPairing (creators lhs h none (some z)) (annihilators lhs h none (some z)) (gsTable lhs h) := by
  simp only [contributes, Bool.and_eq_true, decide_eq_true_eq] at hg
  constructor
  · intro i; cases i <;> rfl
  · intro i
    cases i <;> simp only [places, List.map_cons, List.map_nil, List.sum_cons, List.sum_nil, gsTable, creators] <;> omega
  · intro i
    cases i <;> simp only [places, List.map_cons, List.map_nil, List.sum_cons, List.sum_nil, gsTable, annihilators] <;>
      omega

theorem gs_forH (lhs : Op) (cc : Nat) (h : HOp) :
    ((choicesH lhs (slotPairs none (some (zOps cc true))) h).filter (Good lhs)).map (termOf lhs) =
      if contributes lhs cc h = true then [gsTerm lhs h] else [] := by
  have hnd : ((choicesH lhs (slotPairs none (some (zOps cc true))) h).filter (Good lhs)).Nodup := by
    refine (nodup_choicesH (nodup_pairs (nodup_opts ?_) (nodup_opts ?_)) h).filter _
    · intro l hl; cases hl
    · rintro l ⟨⟩; exact List.Nodup.of_map _ (zOps_keys_nodup cc true)
  -- what membership means
  have key : ∀ x ∈ (choicesH lhs (slotPairs none (some (zOps cc true))) h).filter (Good lhs),
      x.1 = h ∧ contributes lhs cc h = true ∧ ∃ z ∈ zOps cc true, x.2.1 = (none, some z) ∧
        z.m = (lhs.n - h.m) + (h.n - lhs.m) ∧ z.n = 0 ∧ InRange lhs x ∧ Good lhs x = true ∧
        created (termOf lhs x) = gsTable lhs h := by
    intro x hx
    rw [List.mem_filter, mem_choicesH] at hx
    obtain ⟨⟨h1, h2, h3⟩, h4⟩ := hx
    have h5 := mem_slotPairs.1 (List.mem_of_mem_filter h2)
    obtain ⟨h5a, z, hz, h5b⟩ := h5
    have h5a : x.2.1.1 = none := h5a
    have hp := isPairing_termOf h3 h4
    rw [h1] at hp
    have hl := pairing_lin (p := x.2.1) hp
    rw [h5a, h5b] at hl
    simp only [slot] at hl
    have hzn := (mem_zOps hz).2.2 rfl
    have hzc := (mem_zOps hz).2.1
    have e : x.2.1 = (none, some z) := Prod.ext h5a h5b
    generalize created (termOf lhs x) = c at hl hp ⊢
    refine ⟨h1, ?_, z, hz, e, by omega, hzn, h3, h4, ?_⟩
    · simp only [contributes, Bool.and_eq_true, decide_eq_true_eq]; omega
    · funext i j
      cases i <;> cases j <;> simp only [gsTable] <;> omega
  by_cases hg : contributes lhs cc h = true
  · rw [if_pos hg]
    have hb := hg
    simp only [contributes, Bool.and_eq_true, decide_eq_true_eq] at hb
    obtain ⟨z, hz, z1, z2, z3⟩ := exists_zOps (cc := cc) (gs := true) (m := (lhs.n - h.m) + (h.n - lhs.m)) (n := 0)
      (by omega) (fun _ => rfl)
    have hp := gsTable_pairing hg z2 z3
    have hin := inRange_choiceOf (p := (none, some z)) hp
    have hsp : ((none, some z) : Option Op × Option Op) ∈ slotPairs none (some (zOps cc true)) :=
      mem_slotPairs.2 ⟨rfl, z, hz, rfl⟩
    have hmem : choiceOf h (none, some z) (gsTable lhs h) ∈
        (choicesH lhs (slotPairs none (some (zOps cc true))) h).filter (Good lhs) :=
      List.mem_filter.2 ⟨mem_choicesH.2 ⟨rfl, valid_choiceOf hsp hp, hin.1⟩, hin.2⟩
    have heq := nodup_eq_ite (P := True) hnd (a := choiceOf h (none, some z) (gsTable lhs h)) (by
      intro x
      constructor
      · intro hx
        obtain ⟨x1, -, z', hz', x2, x3, x4, x5, x6, x7⟩ := key x hx
        have : z' = z := List.inj_on_of_nodup_map (zOps_keys_nodup cc true) hz' hz (by simp [x3, x4, z2, z3])
        subst this
        exact ⟨choice_unique x5 hin.1 x6 hin.2 x1 x2 (by rw [x7, created_choiceOf (p := (none, some z')) hp]), trivial⟩
      · rintro ⟨rfl, -⟩; exact hmem)
    rw [heq, if_pos trivial]
    simp only [List.map_cons, List.map_nil, termOf, choiceOf, gsTable, zOf, gsTerm]
    rw [Option.map_none, Option.map_some, z1, z2, z3, show lhs.n - (0 + (lhs.n - h.m)) = h.m by omega,
      show h.n - (0 + (h.n - lhs.m)) = lhs.m by omega]
    rfl
  · rw [if_neg hg, List.map_eq_nil_iff, List.eq_nil_iff_forall_not_mem]
    intro x hx
    exact hg (key x hx).2.1

/-- The generated terms of a ground-state equation: one for every h operator that fits. -/
theorem gs_terms (lhs : Op) (H : List HOp) (cc : Nat) :
    filterTerms lhs H none (some (zOps cc true)) = .ok ((H.filter (contributes lhs cc)).map (gsTerm lhs)) := by
  rw [filterTerms_eq lhs H (slots_ok_iff.2 ⟨by simp, by simp, by simp [zOps_ne_nil]⟩)]
  congr 1
  unfold choices
  rw [List.filter_flatMap, List.map_flatMap, ← flatMap_guard]
  congr 1
  funext h
  exact gs_forH lhs cc h

end TF.Zhz
