import Verif.Spec.FullCC
import Verif.Lemmas.Py
import Mathlib.Tactic

/-! # Lemmas about full-CC term generation -/

set_option linter.unusedVariables false

namespace TF.CC

open TF.Py TF.Spec

theorem mem_mnPairs {k : Nat} {p : Nat × Nat} : p ∈ mnPairs k ↔ p.1 + p.2 ≤ k := by
  obtain ⟨m, n⟩ := p
  simp only [mnPairs, List.mem_flatMap, List.mem_range, List.mem_map, Prod.mk.injEq]
  constructor
  · rintro ⟨a, ha, b, hb, rfl, rfl⟩; omega
  · intro h; exact ⟨m, by omega, n, by omega, rfl, rfl⟩

theorem nodup_mnPairs (k : Nat) : (mnPairs k).Nodup := by
  unfold mnPairs
  rw [List.nodup_flatMap]
  refine ⟨?_, ?_⟩
  · intro m _
    exact List.nodup_range.map (fun a b h => by simpa using h)
  · refine (List.nodup_range (n := k+1)).imp ?_
    intro a b hab
    simp only [Function.onFun, List.disjoint_left, List.mem_map]
    rintro x ⟨_, _, rfl⟩ ⟨_, _, h⟩
    simp only [Prod.mk.injEq] at h
    exact hab h.1.symm

theorem length_rep (c : Char) (k : Nat) : (rep c k).length = k := by
  simp [rep]

theorem mem_hamiltonian {k : Nat} {h : HOp} :
    h ∈ hamiltonian k ↔ h.rank = h.m + h.n ∧ h.m + h.n ≤ k := by
  obtain ⟨r, m, n⟩ := h
  simp only [hamiltonian, List.mem_map, mem_mnPairs, HOp.mk.injEq]
  constructor
  · rintro ⟨p, hp, rfl, rfl, rfl⟩; exact ⟨rfl, hp⟩
  · rintro ⟨rfl, h⟩; exact ⟨(m, n), h, rfl, rfl, rfl⟩

theorem hamiltonian_keys_nodup (k : Nat) : ((hamiltonian k).map fun h => (h.m, h.n)).Nodup := by
  unfold hamiltonian
  rw [List.map_map]
  have : ((fun h : HOp => (h.m, h.n)) ∘ fun p : Nat × Nat => ({ rank := p.1 + p.2, m := p.1, n := p.2 } : HOp)) = id := rfl
  rw [this, List.map_id]
  exact nodup_mnPairs k

theorem mem_sOps {cc : Nat} {gs : Bool} {s : Op} :
    s ∈ sOps cc gs ↔ s.name = sName s.m s.n ∧ s.rank = s.m + s.n ∧ 1 ≤ s.m + s.n ∧ s.m + s.n ≤ cc ∧
      (gs = true → s.n = 0) := by
  obtain ⟨nm, r, m, n⟩ := s
  simp only [sOps, List.mem_map, List.mem_filter, mem_mnPairs, Op.mk.injEq]
  constructor
  · rintro ⟨⟨a, b⟩, ⟨h1, h2⟩, rfl, rfl, rfl, rfl⟩
    simp at h2
    obtain ⟨h3, h4⟩ := h2
    refine ⟨rfl, rfl, ?_, h1, ?_⟩
    · show 1 ≤ a + b
      omega
    · intro hg; rw [hg] at h3; simpa using h3
  · rintro ⟨rfl, rfl, h1, h2, h3⟩
    refine ⟨(m, n), ⟨h2, ?_⟩, rfl, rfl, rfl, rfl⟩
    simp
    refine ⟨?_, by omega⟩
    cases gs
    · exact Or.inl rfl
    · exact Or.inr (h3 rfl)

theorem nodup_sOps (cc : Nat) (gs : Bool) : (sOps cc gs).Nodup := by
  unfold sOps
  refine ((nodup_mnPairs cc).filter _).map ?_
  rintro ⟨a, b⟩ ⟨c, d⟩ h
  simp only [Op.mk.injEq] at h
  exact Prod.ext h.2.2.1 h.2.2.2

theorem tLe_linear : LinearOrderB (fun a b : T => lexLe a.key b.key) :=
  lexLe_linear.comap T.key (by
    rintro ⟨a, b, c, d⟩ ⟨a', b', c', d'⟩ h
    simp only [T.key, List.cons.injEq, and_true] at h
    simp [h])

theorem sortT_perm (l : List T) : (sortT l).Perm l := sortBy_perm _ l

theorem sortT_eq_iff (a b : List T) : sortT a = sortT b ↔ a.Perm b := sortBy_eq_iff_perm tLe_linear a b

theorem sortT_idem (l : List T) : sortT (sortT l) = sortT l := (sortT_eq_iff _ _).2 (sortT_perm l)

theorem sum_map_perm {α : Type} {a b : List α} (h : a.Perm b) (f : α → Nat) : (a.map f).sum = (b.map f).sum :=
  sum_perm (h.map f)

theorem pairs_perm {om on hm hn a b : Nat} {s t : List T} (hp : s.Perm t)
    (h : Pairs om on hm hn s a b) : Pairs om on hm hn t a b := by
  unfold Pairs at *
  rw [← sum_map_perm hp T.n_h, ← sum_map_perm hp T.m_o, ← sum_map_perm hp T.m_h, ← sum_map_perm hp T.n_o]
  exact h

/-! ## collect -/

theorem collect_ok_iff {α β : Type} {f : α → Except PyErr (List β)} {l : List α} {r : List β} :
    collect f l = .ok r ↔ ∃ g : α → List β, (∀ a ∈ l, f a = .ok (g a)) ∧ r = l.flatMap g := by
  classical
  constructor
  · intro h
    refine ⟨fun a => match f a with | .ok x => x | .error _ => [], ?_, ?_⟩
    · induction l generalizing r with
      | nil => simp
      | cons a l ih =>
        unfold collect at h
        split at h
        · cases h
        · next x hx =>
          split at h
          · cases h
          · next y hy =>
            intro b hb
            rcases List.mem_cons.1 hb with rfl | hb
            · simp [hx]
            · exact ih hy b hb
    · induction l generalizing r with
      | nil => cases h; rfl
      | cons a l ih =>
        unfold collect at h
        split at h
        · cases h
        · next x hx =>
          split at h
          · cases h
          · next y hy => cases h; simp [hx, ← ih hy]
  · rintro ⟨g, hg, rfl⟩
    induction l with
    | nil => rfl
    | cons a l ih =>
      unfold collect
      rw [hg a (by simp), ih (fun b hb => hg b (by simp [hb]))]
      simp

theorem collect_ok_of {α β : Type} {f : α → Except PyErr (List β)} {l : List α} (g : α → List β)
    (h : ∀ a ∈ l, f a = .ok (g a)) : collect f l = .ok (l.flatMap g) :=
  collect_ok_iff.2 ⟨g, h, rfl⟩

/-! ## The annotated amplitudes -/

theorem mem_splits {M : Nat} {p : Nat × Nat} : p ∈ splits M ↔ p.1 + p.2 = M := by
  obtain ⟨i, j⟩ := p
  simp only [splits, List.mem_map, List.mem_range, Prod.mk.injEq]
  constructor
  · rintro ⟨a, h, rfl, rfl⟩; omega
  · intro h; exact ⟨i, by omega, rfl, by omega⟩

/-- how a labelled amplitude refines an S operator -/
def Labels (t : T) (s : Op) : Prop := t.m_o + t.m_h = s.m ∧ t.n_o + t.n_h = s.n

def mkT (u l : Nat × Nat) : T := { m_o := u.1, m_h := u.2, n_o := l.1, n_h := l.2 }

theorem forall₂_splits {x : List (Nat × Nat)} {perm : List Op} {f : Op → Nat} :
    List.Forall₂ (· ∈ ·) x (perm.map fun s => splits (f s)) ↔
      List.Forall₂ (fun p s => p.1 + p.2 = f s) x perm := by
  rw [List.forall₂_map_right_iff]
  simp only [mem_splits]

theorem zip_forall₂ {U L : List (Nat × Nat)} {perm : List Op}
    (hU : List.Forall₂ (fun p s => p.1 + p.2 = s.m) U perm)
    (hL : List.Forall₂ (fun p s => p.1 + p.2 = s.n) L perm) :
    List.Forall₂ Labels (List.zipWith mkT U L) perm ∧
    ((List.zipWith mkT U L).map T.m_o) = U.map Prod.fst ∧ ((List.zipWith mkT U L).map T.m_h) = U.map Prod.snd ∧
    ((List.zipWith mkT U L).map T.n_o) = L.map Prod.fst ∧ ((List.zipWith mkT U L).map T.n_h) = L.map Prod.snd := by
  induction hU generalizing L with
  | nil => cases hL; simp
  | cons h hU ih =>
    cases hL with
    | cons h' hL =>
      obtain ⟨i1, i2, i3, i4, i5⟩ := ih hL
      refine ⟨?_, ?_, ?_, ?_, ?_⟩
      · exact List.Forall₂.cons ⟨h, h'⟩ i1
      · simpa [mkT] using i2
      · simpa [mkT] using i3
      · simpa [mkT] using i4
      · simpa [mkT] using i5

theorem unzip_forall₂ {ts : List T} {perm : List Op} (h : List.Forall₂ Labels ts perm) :
    List.Forall₂ (fun p s => p.1 + p.2 = s.m) (ts.map fun t => (t.m_o, t.m_h)) perm ∧
    List.Forall₂ (fun p s => p.1 + p.2 = s.n) (ts.map fun t => (t.n_o, t.n_h)) perm ∧
    List.zipWith mkT (ts.map fun t => (t.m_o, t.m_h)) (ts.map fun t => (t.n_o, t.n_h)) = ts := by
  induction h with
  | nil => simp
  | cons h _ ih => exact ⟨List.Forall₂.cons h.1 ih.1, List.Forall₂.cons h.2 ih.2.1, by simp [ih.2.2, mkT]⟩

/-- the four capacity conditions -/
def Fits (omega : Op) (h : HOp) (ts : List T) : Prop :=
  (ts.map T.m_h).sum ≤ h.n ∧ (ts.map T.m_o).sum ≤ omega.n ∧ (ts.map T.n_h).sum ≤ h.m ∧
    (ts.map T.n_o).sum ≤ omega.m

theorem annotate_ok (omega : Op) (h : HOp) (perms : List (List Op)) :
    ∃ l, annotate omega h perms = .ok l ∧
      ∀ ts, ts ∈ l ↔ ∃ perm ∈ perms, List.Forall₂ Labels ts perm ∧ Fits omega h ts := by
  have hmem : ∀ U L, ((U, L) ∈ perms.flatMap fun perm =>
      (connectionPerms omega h perm).1.flatMap fun upper => (connectionPerms omega h perm).2.map fun lower => (upper, lower)) ↔
      ∃ perm ∈ perms, List.Forall₂ (fun p s => p.1 + p.2 = s.m) U perm ∧
        List.Forall₂ (fun p s => p.1 + p.2 = s.n) L perm ∧
        (U.map Prod.snd).sum ≤ h.n ∧ (U.map Prod.fst).sum ≤ omega.n ∧
        (L.map Prod.snd).sum ≤ h.m ∧ (L.map Prod.fst).sum ≤ omega.m := by
    intro U L
    simp only [connectionPerms, List.mem_flatMap, List.mem_map, List.mem_filter, mem_product,
      Prod.mk.injEq, forall₂_splits, Bool.and_eq_true, decide_eq_true_eq]
    constructor
    · rintro ⟨perm, hp, U', ⟨hU, h1, h2⟩, L', ⟨hL, h3, h4⟩, rfl, rfl⟩
      exact ⟨perm, hp, hU, hL, h1, h2, h3, h4⟩
    · rintro ⟨perm, hp, hU, hL, h1, h2, h3, h4⟩
      exact ⟨perm, hp, U, ⟨hU, h1, h2⟩, L, ⟨hL, h3, h4⟩, rfl, rfl⟩
  unfold annotate
  simp only
  have hall : ((perms.flatMap fun perm =>
      (connectionPerms omega h perm).1.flatMap fun upper => (connectionPerms omega h perm).2.map fun lower => (upper, lower)).all
        fun p => p.1.length == p.2.length) = true := by
    rw [List.all_eq_true]
    rintro ⟨U, L⟩ hUL
    obtain ⟨perm, _, hU, hL, _⟩ := (hmem U L).1 hUL
    simp [hU.length_eq, hL.length_eq]
  rw [if_pos hall]
  refine ⟨_, rfl, ?_⟩
  intro ts
  rw [List.mem_map]
  constructor
  · rintro ⟨⟨U, L⟩, hUL, rfl⟩
    obtain ⟨perm, hp, hU, hL, h1, h2, h3, h4⟩ := (hmem U L).1 hUL
    obtain ⟨i1, i2, i3, i4, i5⟩ := zip_forall₂ hU hL
    refine ⟨perm, hp, i1, ?_⟩
    unfold Fits
    change ((List.zipWith mkT U L).map T.m_h).sum ≤ _ ∧ ((List.zipWith mkT U L).map T.m_o).sum ≤ _ ∧
      ((List.zipWith mkT U L).map T.n_h).sum ≤ _ ∧ ((List.zipWith mkT U L).map T.n_o).sum ≤ _
    rw [i2, i3, i4, i5]
    exact ⟨h1, h2, h3, h4⟩
  · rintro ⟨perm, hp, hF, h1, h2, h3, h4⟩
    obtain ⟨u1, u2, u3⟩ := unzip_forall₂ hF
    refine ⟨(ts.map fun t : T => (t.m_o, t.m_h), ts.map fun t : T => (t.n_o, t.n_h)), (hmem _ _).2 ?_, u3⟩
    refine ⟨perm, hp, u1, u2, ?_⟩
    simp only [List.map_map, Function.comp_def]
    exact ⟨h1, h2, h3, h4⟩

/-! ## Explicit connections -/

/-- The term built for a fitting list of amplitudes. -/
def mkTerm (omega : Op) (h : HOp) (s : List T) : Term :=
  { omega := { rank := omega.m + omega.n, m := omega.m, n := omega.n,
               m_h := omega.m - (s.map T.n_o).sum, n_h := omega.n - (s.map T.m_o).sum,
               m_t := s.map T.n_o, n_t := s.map T.m_o }
    h := { rank := h.m + h.n, m := h.m, n := h.n, m_o := h.m - (s.map T.n_h).sum,
           n_o := h.n - (s.map T.m_h).sum, m_t := s.map T.n_h, n_t := s.map T.m_h }
    ts := s }

/-- the left-overs match -/
def Matched (omega : Op) (h : HOp) (s : List T) : Prop :=
  h.m - (s.map T.n_h).sum = omega.n - (s.map T.m_o).sum ∧
  h.n - (s.map T.m_h).sum = omega.m - (s.map T.n_o).sum

instance (omega : Op) (h : HOp) (s : List T) : Decidable (Matched omega h s) := by
  unfold Matched; infer_instance

theorem explicitOne_eq {omega : Op} {h : HOp} {s : List T} (hf : Fits omega h s) :
    explicitOne omega h s = .ok (if Matched omega h s then some (mkTerm omega h s) else none) := by
  obtain ⟨h1, h2, h3, h4⟩ := hf
  unfold explicitOne
  simp only
  rw [if_pos (by omega), if_pos (by omega)]
  by_cases hm : Matched omega h s
  · rw [if_pos hm]
    obtain ⟨m1, m2⟩ := hm
    rw [if_neg (by omega), if_neg (by omega)]
    unfold mkTerm
    congr 3
    all_goals (simp only [OmegaC.mk.injEq, HC.mk.injEq, true_and, and_true]; omega)
  · rw [if_neg hm]
    unfold Matched at hm
    split
    · rfl
    · split
      · rfl
      · exfalso; omega

theorem explicitConnections_eq {omega : Op} {h : HOp} {us : List (List T)} (hf : ∀ s ∈ us, Fits omega h s) :
    explicitConnections omega h us =
      .ok ((us.filter fun s => decide (Matched omega h s)).map (mkTerm omega h)) := by
  unfold explicitConnections
  rw [collect_ok_of (fun s => if Matched omega h s then [mkTerm omega h s] else [])]
  · congr 1
    clear hf
    induction us with
    | nil => rfl
    | cons s us ih =>
      simp only [List.flatMap_cons, ih, List.filter_cons, decide_eq_true_eq]
      split <;> simp
  · intro s hs
    rw [explicitOne_eq (hf s hs)]
    by_cases hm : Matched omega h s
    · simp [hm]
    · simp [hm]

theorem Fits.perm {omega : Op} {h : HOp} {s t : List T} (hp : s.Perm t) (hf : Fits omega h s) : Fits omega h t := by
  unfold Fits at *
  rw [← sum_map_perm hp T.n_h, ← sum_map_perm hp T.m_o, ← sum_map_perm hp T.m_h, ← sum_map_perm hp T.n_o]
  exact hf

theorem pairs_iff {omega : Op} {h : HOp} {s : List T} :
    (∃ a b, Pairs omega.m omega.n h.m h.n s a b) ↔ Fits omega h s ∧ Matched omega h s := by
  unfold Pairs Fits Matched
  constructor
  · rintro ⟨a, b, h1, h2, h3, h4⟩; omega
  · rintro ⟨⟨h1, h2, h3, h4⟩, h5, h6⟩
    exact ⟨h.m - (s.map T.n_h).sum, h.n - (s.map T.m_h).sum, by omega, by omega, by omega, by omega⟩

/-! ## The rejection tests -/

theorem sum_labels {ts : List T} {perm : List Op} (h : List.Forall₂ Labels ts perm) :
    (ts.map T.m_o).sum + (ts.map T.m_h).sum = (perm.map Op.m).sum ∧
    (ts.map T.n_o).sum + (ts.map T.n_h).sum = (perm.map Op.n).sum := by
  induction h with
  | nil => simp
  | cons h _ ih =>
    obtain ⟨h1, h2⟩ := h
    obtain ⟨i1, i2⟩ := ih
    simp only [List.map_cons, List.sum_cons]
    omega

theorem sum_zero_of_all {l : List Op} {f : Op → Nat} (h : ∀ s ∈ l, f s = 0) : (l.map f).sum = 0 := by
  induction l with
  | nil => rfl
  | cons a l ih => simp [h a (by simp), ih (fun s hs => h s (by simp [hs]))]

/-- none of the rejection tests applies to a product that can be fully paired -/
theorem validPerms_keeps {omega : Op} {h : HOp} {series : List (List Op)} {perm : List Op} {ts : List T}
    (hp : perm ∈ series) (hl : List.Forall₂ Labels ts perm) (hf : Fits omega h ts)
    (hm : Matched omega h ts) : perm ∈ validPerms omega h series := by
  obtain ⟨s1, s2⟩ := sum_labels hl
  obtain ⟨f1, f2, f3, f4⟩ := hf
  obtain ⟨m1, m2⟩ := hm
  unfold validPerms
  rw [List.mem_filter]
  refine ⟨hp, ?_⟩
  simp only [Bool.and_eq_true, decide_eq_true_eq, Bool.not_eq_true']
  refine ⟨⟨⟨by omega, ?_⟩, ?_⟩, ?_⟩
  · simp only [tJoinsT, Bool.or_eq_false_iff, decide_eq_false_iff_not]; omega
  · unfold omegaJoinsItself
    split
    · rfl
    · next hc =>
      split
      · rfl
      · next hc2 =>
        simp only [Bool.or_eq_true, beq_iff_eq, not_or] at hc
        simp only [Bool.or_eq_true, Bool.and_eq_true, decide_eq_true_eq, not_or, not_and] at hc2
        by_contra hh
        simp only [Bool.not_eq_false, Bool.not_eq_true', List.any_eq_false, Bool.or_eq_true,
          Bool.and_eq_true, decide_eq_true_eq, not_or, not_and] at hh
        have z1 : (perm.map Op.m).sum = 0 := sum_zero_of_all (fun s hs => by have := (hh s hs).1; omega)
        have z2 : (perm.map Op.n).sum = 0 := sum_zero_of_all (fun s hs => by have := (hh s hs).2; omega)
        omega
  · unfold hJoinsItself
    split
    · rfl
    · next hc =>
      split
      · rfl
      · next hc2 =>
        simp only [Bool.or_eq_true, beq_iff_eq, not_or] at hc
        simp only [Bool.or_eq_true, Bool.and_eq_true, decide_eq_true_eq, not_or, not_and] at hc2
        by_contra hh
        simp only [Bool.not_eq_false, Bool.not_eq_true', List.any_eq_false, Bool.or_eq_true,
          Bool.and_eq_true, decide_eq_true_eq, not_or, not_and] at hh
        have z1 : (perm.map Op.m).sum = 0 := sum_zero_of_all (fun s hs => by have := (hh s hs).2; omega)
        have z2 : (perm.map Op.n).sum = 0 := sum_zero_of_all (fun s hs => by have := (hh s hs).1; omega)
        omega

theorem validPerms_sub {omega : Op} {h : HOp} {series : List (List Op)} {perm : List Op}
    (hp : perm ∈ validPerms omega h series) : perm ∈ series := (List.mem_filter.1 hp).1

/-! ## One Hamiltonian operator -/

/-- the amplitude lists that survive for one `h` -/
def survivors (so : SetOrder (List T)) (omega : Op) (series : List (List Op)) (h : HOp) : List (List T) :=
  match annotate omega h (validPerms omega h series) with
  | .error _ => []
  | .ok l => (removeDuplicates so l).filter fun s => decide (Matched omega h s)

theorem filterForH_eq (so : SetOrder (List T)) (rf : Bool) (omega : Op) (series : List (List Op)) (h : HOp) :
    filterForH so rf omega series h = .ok (((survivors so omega series h).map (mkTerm omega h)).filter
      fun t => !rf || decide (t.omega.m_h = 0)) := by
  obtain ⟨l, hl, hmem⟩ := annotate_ok omega h (validPerms omega h series)
  unfold filterForH survivors
  simp only [hl]
  have hfits : ∀ s ∈ removeDuplicates so l, Fits omega h s := by
    intro s hs
    rw [removeDuplicates, so.mem, List.mem_map] at hs
    obtain ⟨s', hs', rfl⟩ := hs
    obtain ⟨_, _, _, hf⟩ := (hmem s').1 hs'
    exact hf.perm (sortT_perm s').symm
  rw [explicitConnections_eq hfits]
  simp only
  by_cases hv : validPerms omega h series = []
  · rw [if_pos hv]
    have : l = [] := by
      rw [List.eq_nil_iff_forall_not_mem]
      intro x hx
      obtain ⟨p, hp, _⟩ := (hmem x).1 hx
      rw [hv] at hp; simp at hp
    have hr : removeDuplicates so l = [] := by
      rw [List.eq_nil_iff_forall_not_mem]
      intro x hx
      rw [removeDuplicates, so.mem, this] at hx
      simp at hx
    rw [hr]; rfl
  · rw [if_neg hv]
    congr 1
    generalize hL : (removeDuplicates so l).filter (fun s => decide (Matched omega h s)) = L
    cases rf with
    | false => simp
    | true =>
      simp only [Bool.true_and, Bool.not_true, Bool.false_or]
      have hsub : ∀ t ∈ L.map (mkTerm omega h), t.omega.m_h = h.n - (t.ts.map T.m_h).sum ∧ t.omega.m_h ≤ omega.m := by
        intro t ht
        rw [List.mem_map] at ht
        obtain ⟨s, hs, rfl⟩ := ht
        rw [← hL, List.mem_filter] at hs
        have := of_decide_eq_true hs.2
        refine ⟨this.2.symm, ?_⟩
        simp [mkTerm]
      by_cases hc : (decide (omega.m ≥ 1) && decide (h.n ≥ 1)) = true
      · rw [if_pos hc]
        unfold removeFZero
        refine List.filter_congr ?_
        intro t ht
        by_cases hz : t.omega.m_h = 0 <;> simp [hz]
        omega
      · rw [if_neg hc]
        symm
        rw [List.filter_eq_self]
        intro t ht
        obtain ⟨h1, h2⟩ := hsub t ht
        simp only [Bool.and_eq_true, decide_eq_true_eq, not_and] at hc
        simp only [decide_eq_true_eq]
        omega

theorem mem_survivors {so : SetOrder (List T)} {omega : Op} {series : List (List Op)} {h : HOp} {ts : List T} :
    ts ∈ survivors so omega series h ↔ sortT ts = ts ∧ Fits omega h ts ∧ Matched omega h ts ∧
      ∃ ts', ts'.Perm ts ∧ ∃ perm ∈ series, List.Forall₂ Labels ts' perm := by
  obtain ⟨l, hl, hmem⟩ := annotate_ok omega h (validPerms omega h series)
  unfold survivors
  rw [hl]
  simp only [List.mem_filter, removeDuplicates, so.mem, List.mem_map, decide_eq_true_eq]
  constructor
  · rintro ⟨⟨s', hs', rfl⟩, hm⟩
    obtain ⟨perm, hp, hlab, hf⟩ := (hmem s').1 hs'
    exact ⟨sortT_idem _, hf.perm (sortT_perm s').symm, hm, s', (sortT_perm s').symm, perm, validPerms_sub hp, hlab⟩
  · rintro ⟨hs, hf, hm, s', hp', perm, hp, hlab⟩
    have hf' : Fits omega h s' := hf.perm hp'.symm
    have hm' : Matched omega h s' := (pairs_iff.1 (by
      obtain ⟨a, b, hab⟩ := pairs_iff.2 ⟨hf, hm⟩
      exact ⟨a, b, pairs_perm hp'.symm hab⟩)).2
    refine ⟨⟨s', (hmem s').2 ⟨perm, validPerms_keeps hp hlab hf' hm', hlab, hf'⟩, ?_⟩, hm⟩
    rw [← hs, sortT_eq_iff]; exact hp'

theorem nodup_survivors (so : SetOrder (List T)) (omega : Op) (series : List (List Op)) (h : HOp) :
    (survivors so omega series h).Nodup := by
  unfold survivors
  split
  · simp
  · exact (so.nodup _).filter _

/-! ## The Taylor orders -/

/-- the wrapped series of order `k` -/
def orderSeries (cc : Nat) (gs : Bool) : Nat → List (List Op)
  | 0 => [[{ name := "1", rank := 0, m := 0, n := 0 }]]
  | k + 1 => productRepeat (sOps cc gs) (k + 1)

theorem sOps_ne_nil {cc : Nat} (hcc : 1 ≤ cc) (gs : Bool) : sOps cc gs ≠ [] := by
  intro h
  have : (⟨sName 1 0, 1, 1, 0⟩ : Op) ∈ sOps cc gs := by
    rw [mem_sOps]; exact ⟨rfl, rfl, by decide, hcc, fun _ => rfl⟩
  rw [h] at this; simp at this

theorem productRepeat_one {α : Type} (l : List α) : productRepeat l 1 = l.map fun s => [s] := by
  simp only [productRepeat, List.replicate, product, List.map_cons, List.map_nil]
  induction l with
  | nil => rfl
  | cons a l ih => simpa [List.flatMap_cons] using ih

theorem productRepeat_ne_nil {α : Type} {l : List α} (h : l ≠ []) (k : Nat) : productRepeat l k ≠ [] := by
  obtain ⟨a, ha⟩ := List.exists_mem_of_ne_nil l h
  intro hn
  have : List.replicate k a ∈ productRepeat l k := by
    rw [mem_productRepeat]; exact ⟨by simp, fun b hb => by rw [List.eq_of_mem_replicate hb]; exact ha⟩
  rw [hn] at this; simp at this

theorem sTaylor_eq (cc smax : Nat) (gs : Bool) : sTaylor cc smax gs =
    (List.range (smax + 1)).map fun k =>
      match k with
      | 0 => .one { name := "1", rank := 0, m := 0, n := 0 }
      | 1 => .lin (sOps cc gs)
      | k => .prods (productRepeat (sOps cc gs) k) := rfl

theorem wrapSeries_order {cc : Nat} (hcc : 1 ≤ cc) (gs : Bool) (k : Nat) :
    wrapSeries (match k with
      | 0 => .one { name := "1", rank := 0, m := 0, n := 0 }
      | 1 => .lin (sOps cc gs)
      | k => .prods (productRepeat (sOps cc gs) k)) = .ok (orderSeries cc gs k) := by
  match k with
  | 0 => rfl
  | 1 =>
    simp only [orderSeries]
    rw [productRepeat_one]
    cases h : sOps cc gs with
    | nil => exact absurd h (sOps_ne_nil hcc gs)
    | cons a l => rfl
  | k + 2 =>
    simp only [orderSeries]
    cases h : productRepeat (sOps cc gs) (k + 2) with
    | nil => exact absurd h (productRepeat_ne_nil (sOps_ne_nil hcc gs) _)
    | cons a l =>
      have : a ∈ productRepeat (sOps cc gs) (k + 2) := by rw [h]; simp
      have hl := (mem_productRepeat.1 this).1
      simp only [wrapSeries, hl]
      rw [if_pos (by omega)]

/-- the generated terms, as an explicit list -/
def termList (so : SetOrder (List T)) (rf gs : Bool) (hMax cc smax : Nat) (omega : Op) : List Term :=
  (List.range (smax + 1)).flatMap fun k => (hamiltonian hMax).flatMap fun h =>
    ((survivors so omega (orderSeries cc gs k) h).map (mkTerm omega h)).filter
      fun t => !rf || decide (t.omega.m_h = 0)

theorem termsFor_eq (so : SetOrder (List T)) (rf gs : Bool) (hMax cc smax : Nat) (hcc : 1 ≤ cc) (omega : Op) :
    termsFor so rf gs hMax cc smax omega = .ok (termList so rf gs hMax cc smax omega) := by
  unfold termsFor allTerms
  rw [sTaylor_eq]
  rw [collect_ok_iff]
  refine ⟨fun s => match wrapSeries s with
    | .error _ => []
    | .ok series => (hamiltonian hMax).flatMap fun h => ((survivors so omega series h).map (mkTerm omega h)).filter
      fun t => !rf || decide (t.omega.m_h = 0), ?_, ?_⟩
  · intro s hs
    rw [List.mem_map] at hs
    obtain ⟨k, _, rfl⟩ := hs
    unfold filterTerms
    simp only [wrapSeries_order hcc gs k]
    exact collect_ok_of _ (fun h _ => filterForH_eq so rf omega _ h)
  · unfold termList
    rw [List.flatMap_map]
    congr 1
    funext k
    rw [wrapSeries_order hcc gs k]

theorem mem_termList {so : SetOrder (List T)} {rf gs : Bool} {hMax cc smax : Nat} {omega : Op} {t : Term} :
    t ∈ termList so rf gs hMax cc smax omega ↔ ∃ k ≤ smax, ∃ h ∈ hamiltonian hMax,
      ∃ ts ∈ survivors so omega (orderSeries cc gs k) h, t = mkTerm omega h ts ∧
        (rf = true → t.omega.m_h = 0) := by
  unfold termList
  simp only [List.mem_flatMap, List.mem_range, List.mem_filter, List.mem_map, Bool.or_eq_true,
    Bool.not_eq_true', decide_eq_true_eq]
  constructor
  · rintro ⟨k, hk, h, hh, ⟨ts, hts, rfl⟩, hf⟩
    refine ⟨k, by omega, h, hh, ts, hts, rfl, ?_⟩
    intro e; rcases hf with hf | hf
    · rw [e] at hf; cases hf
    · exact hf
  · rintro ⟨k, hk, h, hh, ts, hts, rfl, hf⟩
    refine ⟨k, by omega, h, hh, ⟨ts, hts, rfl⟩, ?_⟩
    cases rf
    · exact Or.inl rfl
    · exact Or.inr (hf rfl)

/-- amplitude lists of Taylor order `k` -/
theorem order_labels {cc : Nat} {gs : Bool} {k : Nat} {ts : List T} :
    (∃ perm ∈ orderSeries cc gs k, List.Forall₂ Labels ts perm) ↔
      (k = 0 ∧ ts = [⟨0, 0, 0, 0⟩]) ∨ (1 ≤ k ∧ ts.length = k ∧ ∀ t ∈ ts, AmpAllowed cc gs t) := by
  cases k with
  | zero =>
    have : ¬ (1 ≤ 0 ∧ ts.length = 0 ∧ ∀ t ∈ ts, AmpAllowed cc gs t) := by rintro ⟨h, _⟩; omega
    simp only [orderSeries, List.mem_singleton, exists_eq_left, true_and, this, or_false]
    constructor
    · intro h
      cases h with
      | cons h1 h2 =>
        cases h2
        rename_i t
        obtain ⟨a, b, c, d⟩ := t
        simp only [Labels] at h1
        have : a = 0 ∧ b = 0 ∧ c = 0 ∧ d = 0 := by omega
        obtain ⟨rfl, rfl, rfl, rfl⟩ := this
        rfl
    · rintro rfl
      exact List.Forall₂.cons ⟨rfl, rfl⟩ List.Forall₂.nil
  | succ k =>
    simp only [orderSeries, mem_productRepeat, Nat.succ_ne_zero, false_and, false_or, Nat.le_add_left,
      true_and]
    constructor
    · rintro ⟨perm, ⟨hlen, hmem⟩, hF⟩
      refine ⟨by rw [hF.length_eq, hlen], ?_⟩
      clear hlen
      induction hF with
      | nil => simp
      | @cons t s ts perm h1 _ ih =>
        intro t' ht'
        rcases List.mem_cons.1 ht' with rfl | ht'
        · obtain ⟨_, _, c1, c2, c3⟩ := mem_sOps.1 (hmem s (by simp))
          obtain ⟨e1, e2⟩ := h1
          unfold AmpAllowed ampRank
          refine ⟨by omega, by omega, ?_⟩
          intro hg; have := c3 hg; omega
        · exact ih (fun a ha => hmem a (by simp [ha])) t' ht'
    · rintro ⟨hlen, hall⟩
      refine ⟨ts.map fun t => ⟨sName (t.m_o + t.m_h) (t.n_o + t.n_h), (t.m_o + t.m_h) + (t.n_o + t.n_h),
        t.m_o + t.m_h, t.n_o + t.n_h⟩, ⟨by simpa using hlen, ?_⟩, ?_⟩
      · intro s hs
        rw [List.mem_map] at hs
        obtain ⟨t, ht, rfl⟩ := hs
        obtain ⟨c1, c2, c3⟩ := hall t ht
        unfold ampRank at c1 c2
        rw [mem_sOps]
        refine ⟨rfl, rfl, ?_, ?_, ?_⟩
        · show 1 ≤ t.m_o + t.m_h + (t.n_o + t.n_h); omega
        · show t.m_o + t.m_h + (t.n_o + t.n_h) ≤ cc; omega
        · intro hg; have := c3 hg; show t.n_o + t.n_h = 0; omega
      · rw [List.forall₂_map_right_iff]
        rw [List.forall₂_same]
        intro t _; exact ⟨rfl, rfl⟩

theorem AmpAllowed.perm_all {cc : Nat} {gs : Bool} {s t : List T} (hp : s.Perm t)
    (h : ∀ x ∈ s, AmpAllowed cc gs x) : ∀ x ∈ t, AmpAllowed cc gs x :=
  fun x hx => h x (hp.mem_iff.2 hx)

theorem mem_survivors_order {so : SetOrder (List T)} {omega : Op} {cc k : Nat} {gs : Bool} {h : HOp} {ts : List T} :
    ts ∈ survivors so omega (orderSeries cc gs k) h ↔ sortT ts = ts ∧ Fits omega h ts ∧ Matched omega h ts ∧
      ((k = 0 ∧ ts = [⟨0, 0, 0, 0⟩]) ∨ (1 ≤ k ∧ ts.length = k ∧ ∀ t ∈ ts, AmpAllowed cc gs t)) := by
  rw [mem_survivors]
  simp only [order_labels]
  constructor
  · rintro ⟨h1, h2, h3, ts', hp, h4⟩
    refine ⟨h1, h2, h3, ?_⟩
    rcases h4 with ⟨hk, rfl⟩ | ⟨hk, hl, ha⟩
    · exact Or.inl ⟨hk, by simpa using hp.symm⟩
    · exact Or.inr ⟨hk, by rw [← hp.length_eq]; exact hl, AmpAllowed.perm_all hp ha⟩
  · rintro ⟨h1, h2, h3, h4⟩
    exact ⟨h1, h2, h3, ts, List.Perm.refl _, h4⟩

theorem zero_not_allowed {cc : Nat} {gs : Bool} : ¬ AmpAllowed cc gs ⟨0, 0, 0, 0⟩ := by
  intro h; exact absurd h.1 (by decide)

end TF.CC
