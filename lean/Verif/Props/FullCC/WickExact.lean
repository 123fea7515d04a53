import Verif.Props.FullCC.Wick
import Mathlib.Algebra.DualNumber

/-!
# C80: when the ground-state functions of a full-CC module compute `H e^T`

At rank 2 of the Hamiltonian, or with single-mode amplitudes only, the functions for at most one mode compute the part
of `H e^T` with that many modes.  With more modes or a higher rank they do not.
-/

namespace TF.CC

open TF.Py TF.Spec TF.Spec.CCRun TF.Spec.Tensor TF.Spec.Fock TF.Spec.Wick TF.Fock

/-! ## The terms with a Hamiltonian of rank 2 -/

/-- the amplitudes with at most two modes of the Hamiltonian and at most one of the projection operator, in any order -/
def smallLists : List (List T) :=
  let p : T := ⟨1, 0, 0, 0⟩
  let q : T := ⟨2, 0, 0, 0⟩
  let r : T := ⟨0, 0, 1, 0⟩
  let s : T := ⟨1, 0, 1, 0⟩
  let u : T := ⟨2, 0, 1, 0⟩
  [[], [p], [q], [r], [s], [u], [p, p], [p, r], [r, p], [q, r], [r, q], [p, s], [s, p], [p, p, r], [p, r, p], [r, p, p]]

theorem mem_smallLists (xs : List T) (h : ∀ x ∈ xs, x.n_h = 0 ∧ x.n_o = 0 ∧ 1 ≤ x.m_h + x.m_o) (h1 : (xs.map T.m_h).sum ≤ 2)
    (h2 : (xs.map T.m_o).sum ≤ 1) : xs ∈ smallLists := by
  match xs with
  | [] => decide
  | [a] =>
    obtain ⟨a1, a2, a3, a4⟩ := a
    obtain ⟨e1, e2, e3⟩ := h _ (List.mem_cons_self ..)
    simp only [List.map_cons, List.map_nil, List.sum_cons, List.sum_nil] at *
    subst e1 e2
    have : a1 ≤ 2 := by omega
    have : a3 ≤ 1 := by omega
    interval_cases a1 <;> interval_cases a3 <;> first | decide | omega
  | [a, b] =>
    obtain ⟨a1, a2, a3, a4⟩ := a
    obtain ⟨b1, b2, b3, b4⟩ := b
    obtain ⟨e1, e2, e3⟩ := h ⟨a1, a2, a3, a4⟩ (by simp)
    obtain ⟨f1, f2, f3⟩ := h ⟨b1, b2, b3, b4⟩ (by simp)
    simp only [List.map_cons, List.map_nil, List.sum_cons, List.sum_nil] at *
    subst e1 e2 f1 f2
    have : a1 ≤ 2 := by omega
    have : a3 ≤ 1 := by omega
    have : b1 ≤ 2 := by omega
    have : b3 ≤ 1 := by omega
    interval_cases a1 <;> interval_cases a3 <;> interval_cases b1 <;> interval_cases b3 <;> first | omega | decide
  | [a, b, c] =>
    obtain ⟨a1, a2, a3, a4⟩ := a
    obtain ⟨b1, b2, b3, b4⟩ := b
    obtain ⟨c1, c2, c3, c4⟩ := c
    obtain ⟨e1, e2, e3⟩ := h ⟨a1, a2, a3, a4⟩ (by simp)
    obtain ⟨f1, f2, f3⟩ := h ⟨b1, b2, b3, b4⟩ (by simp)
    obtain ⟨g1, g2, g3⟩ := h ⟨c1, c2, c3, c4⟩ (by simp)
    simp only [List.map_cons, List.map_nil, List.sum_cons, List.sum_nil] at *
    subst e1 e2 f1 f2 g1 g2
    have : a1 ≤ 1 := by omega
    have : a3 ≤ 1 := by omega
    have : b1 ≤ 1 := by omega
    have : b3 ≤ 1 := by omega
    have : c1 ≤ 1 := by omega
    have : c3 ≤ 1 := by omega
    interval_cases a1 <;> interval_cases a3 <;> interval_cases b1 <;> interval_cases b3 <;> interval_cases c1 <;> interval_cases c3 <;>
      first | omega | decide
  | a :: b :: c :: d :: l =>
    have e := (h a (by simp)).2.2
    have f := (h b (by simp)).2.2
    have g := (h c (by simp)).2.2
    have i := (h d (by simp)).2.2
    simp only [List.map_cons, List.sum_cons] at h1 h2
    omega

theorem smallLists_factor : ∀ k < 2, ∀ xs ∈ smallLists, xs ≠ [] →
    (distinctTouching xs).factorial * blockFactorials xs * repeats xs * (if xs.length = 1 then k.factorial else 1) = (xs.map T.m_h).sum.factorial * k.factorial := by
  decide +kernel

set_option synthInstance.maxSize 2000 in
set_option synthInstance.maxHeartbeats 400000 in
theorem smallLists_key : ∀ k < 2, ∀ xs ∈ smallLists, ∀ ys ∈ smallLists, xs ≠ [] → ys ≠ [] → (xs.map T.m_o).sum ≤ k → (ys.map T.m_o).sum ≤ k →
    k - (xs.map T.m_o).sum + (xs.map T.m_h).sum ≤ 2 → k - (ys.map T.m_o).sum + (ys.map T.m_h).sum ≤ 2 →
    (decide (∀ x ∈ xs, TouchesH x) = decide (∀ y ∈ ys, TouchesH y)) →
    max (k - (xs.map T.m_o).sum) (xs.map T.m_h).sum = max (k - (ys.map T.m_o).sum) (ys.map T.m_h).sum →
    (xs.map rankT).foldl max 0 = (ys.map rankT).foldl max 0 → xs.isPerm ys = true := by
  decide +kernel

/-! ## The terms with single-mode amplitudes -/

theorem perm_singles (xs : List T) (h : ∀ x ∈ xs, x.n_h = 0 ∧ x.n_o = 0 ∧ x.m_h + x.m_o = 1) :
    xs.Perm (List.replicate (xs.map T.m_h).sum ⟨1, 0, 0, 0⟩ ++ List.replicate (xs.map T.m_o).sum ⟨0, 0, 1, 0⟩) := by
  induction xs with
  | nil => simp
  | cons x xs ih =>
    obtain ⟨x1, x2, x3, x4⟩ := x
    obtain ⟨e1, e2, e3⟩ := h ⟨x1, x2, x3, x4⟩ (by simp)
    simp only at e1 e2 e3
    subst e1 e2
    have ih' := ih fun x hx => h x (List.mem_cons_of_mem _ hx)
    simp only [List.map_cons, List.sum_cons]
    rcases (show (x1 = 0 ∧ x3 = 1) ∨ (x1 = 1 ∧ x3 = 0) by omega) with ⟨rfl, rfl⟩ | ⟨rfl, rfl⟩
    · rw [Nat.zero_add, Nat.add_comm 1, List.replicate_succ]
      exact (ih'.cons _).trans List.perm_middle.symm
    · rw [Nat.zero_add, Nat.add_comm 1, List.replicate_succ]
      exact ih'.cons _

theorem singles_factor (k : Nat) (hk : k ≤ 1) (xs : List T) (h : ∀ x ∈ xs, x.n_h = 0 ∧ x.n_o = 0 ∧ x.m_h + x.m_o = 1) (hj : (xs.map T.m_o).sum ≤ 1) :
    (distinctTouching xs).factorial * blockFactorials xs * repeats xs * (if xs.length = 1 then k.factorial else 1) = (xs.map T.m_h).sum.factorial * k.factorial := by
  have hk1 : k.factorial = 1 := by interval_cases k <;> rfl
  rw [hk1, ite_self, Nat.mul_one, Nat.mul_one]
  have hp := perm_singles xs h
  have hb : blockFactorials xs = 1 := by
    unfold blockFactorials
    apply List.prod_eq_one
    intro a ha
    obtain ⟨x, hx, rfl⟩ := List.mem_map.1 ha
    obtain ⟨_, _, h3⟩ := h x hx
    rcases (show (x.m_h = 0 ∧ x.m_o = 1) ∨ (x.m_h = 1 ∧ x.m_o = 0) by omega) with ⟨a, b⟩ | ⟨a, b⟩ <;> rw [a, b] <;> rfl
  have hd : (distinctTouching xs).factorial = 1 := by
    have : distinctTouching xs ≤ 1 := by
      unfold distinctTouching
      rw [Finset.card_le_one]
      intro a ha b hb
      rw [List.mem_toFinset, List.mem_filter, decide_eq_true_eq] at ha hb
      have g : ∀ x ∈ xs, TouchesH x → x = ⟨1, 0, 0, 0⟩ := by
        intro x hx ht
        obtain ⟨x1, x2, x3, x4⟩ := x
        obtain ⟨e1, e2, e3⟩ := h _ hx
        unfold TouchesH at ht
        simp only at e1 e2 e3 ht
        rw [T.mk.injEq]
        omega
      rw [g a ha.1 ha.2, g b hb.1 hb.2]
    interval_cases distinctTouching xs <;> rfl
  have hc1 : xs.count ⟨1, 0, 0, 0⟩ = (xs.map T.m_h).sum := by
    rw [hp.count_eq, List.count_append, List.count_replicate_self, List.count_eq_zero_of_not_mem, Nat.add_zero]
    intro hm
    have := List.eq_of_mem_replicate hm
    simp at this
  have hc2 : xs.count ⟨0, 0, 1, 0⟩ = (xs.map T.m_o).sum := by
    rw [hp.count_eq, List.count_append, List.count_replicate_self, List.count_eq_zero_of_not_mem, Nat.zero_add]
    intro hm
    have := List.eq_of_mem_replicate hm
    simp at this
  have hr : repeats xs = (xs.map T.m_h).sum.factorial := by
    unfold repeats
    have hsub : xs.toFinset ⊆ {(⟨1, 0, 0, 0⟩ : T), ⟨0, 0, 1, 0⟩} := by
      intro x hx
      have := hp.mem_iff.1 (List.mem_toFinset.1 hx)
      simp only [List.mem_append] at this
      rcases this with this | this
      · rw [List.eq_of_mem_replicate this]; simp
      · rw [List.eq_of_mem_replicate this]; simp
    rw [Finset.prod_subset hsub fun x _ hx => by rw [List.count_eq_zero_of_not_mem (fun hm => hx (List.mem_toFinset.2 hm))]; rfl,
      Finset.prod_pair (by decide), hc1, hc2]
    have : (xs.map T.m_o).sum.factorial = 1 := by interval_cases (xs.map T.m_o).sum <;> rfl
    rw [this, Nat.mul_one]
  rw [hb, hd, hr, Nat.one_mul]

theorem singles_key (k : Nat) (hk : k ≤ 1) (xs ys : List T) (h : ∀ x ∈ xs, x.n_h = 0 ∧ x.n_o = 0 ∧ x.m_h + x.m_o = 1)
    (h' : ∀ x ∈ ys, x.n_h = 0 ∧ x.n_o = 0 ∧ x.m_h + x.m_o = 1) (hx : xs ≠ []) (hy : ys ≠ []) (h1 : (xs.map T.m_o).sum ≤ k) (h2 : (ys.map T.m_o).sum ≤ k)
    (h3 : (∀ x ∈ xs, TouchesH x) ↔ ∀ y ∈ ys, TouchesH y)
    (h4 : max (k - (xs.map T.m_o).sum) (xs.map T.m_h).sum = max (k - (ys.map T.m_o).sum) (ys.map T.m_h).sum) : xs.Perm ys := by
  have len : ∀ zs : List T, (∀ x ∈ zs, x.n_h = 0 ∧ x.n_o = 0 ∧ x.m_h + x.m_o = 1) → zs.length = (zs.map T.m_h).sum + (zs.map T.m_o).sum := by
    intro zs hz
    have := (perm_singles zs hz).length_eq
    simpa using this
  have fc : ∀ zs : List T, (∀ x ∈ zs, x.n_h = 0 ∧ x.n_o = 0 ∧ x.m_h + x.m_o = 1) → ((∀ x ∈ zs, TouchesH x) ↔ (zs.map T.m_o).sum = 0) := by
    intro zs hz
    rw [List.sum_eq_zero_iff]
    simp only [List.mem_map, forall_exists_index, and_imp, forall_apply_eq_imp_iff₂]
    refine forall₂_congr fun x hx => ?_
    obtain ⟨e1, e2, e3⟩ := hz x hx
    unfold TouchesH
    omega
  have l1 := len xs h
  have l2 := len ys h'
  have p1 := List.length_pos_iff.2 hx
  have p2 := List.length_pos_iff.2 hy
  rw [fc xs h, fc ys h'] at h3
  have e1 : (xs.map T.m_o).sum = (ys.map T.m_o).sum := by omega
  have e2 : (xs.map T.m_h).sum = (ys.map T.m_h).sum := by omega
  refine (perm_singles xs h).trans ?_
  rw [e1, e2]
  exact (perm_singles ys h').symm

/-! ## The functions that compute `H e^T` -/

/-- C80 (the part that holds): with all flags set, the function for the projection on at most one mode computes the part of `H e^T` with that
many modes, if the Hamiltonian has rank at most 2 or the amplitudes have one mode.  Missing from the full claim: all other ranks
(`amplitude_projection_iff`). -/
theorem amplitude_projection_partial (so : SetOrder Nat) (sol : SetOrder (List T)) (hMax cc smax omegaMax : Nat) (hcc : 1 ≤ cc) (hS : smax ≤ 6)
    (hP : omegaMax ≤ 6) (hr : hMax ≤ 2 ∨ cc = 1) (F : List OmegaCode) (hF : pythonFile so sol hMax cc smax omegaMax = .ok F) (c : OmegaCode) (hc : c ∈ F)
    (hom : c.omega.m = 0) (hk : c.omega.n ≤ 1) (hs : hMax + c.omega.n ≤ smax) (env : Caller) (h1 : env.singles = true) (h2 : env.ground = true)
    (h3 : FullArgs hMax cc env) (h4 : ∀ n, env.fl.h n = true) (h5 : ∀ n, env.fl.t n = true) : ∃ r,
    callAmplitude (moduleDefs F) env ("compute_m0_n" ++ toString c.omega.n ++ "_amplitude") = .ok (c.omega.n, r) ∧
    ∀ (R : Type) [CommRing R] [Algebra Rat R] (A N M : Nat), hMax + c.omega.n ≤ M → ∀ h t : Nat × Nat → Arr R, (∀ m n, LowerSymmetric m n (h (m, n))) →
      (∀ k, ModeSymmetric k (t (k, 0))) →
      state A N c.omega.n (returned A N h t r) =
        part c.omega.n (Spec.Fock.hamiltonian A N (hamiltonianOf hMax) h (expUpTo M (cluster A N (Finset.Icc 1 cc) fun j => t (j, 0)))) := by
  refine amplitude_exact so sol hMax cc smax omegaMax hcc (by omega) hS hP F hF c hc hom hs env h1 h2 h3 h4 h5 ?_
  intro L hL
  have data : ∀ s ∈ L, onlyH s.ts = false → s.ts ≠ [] ∧ amplitudes s = s.ts ∧ s.h.m = c.omega.n - (s.ts.map T.m_o).sum ∧ (s.ts.map T.m_o).sum ≤ c.omega.n ∧
      s.h.n = (s.ts.map T.m_h).sum ∧ s.h.m + s.h.n ≤ hMax ∧ ∀ x ∈ s.ts, AmpAllowed cc true x := by
    intro s hs' ho
    obtain ⟨d1, d2, _, _, d5, _, d7, d8⟩ := term_data sol true true hMax cc smax hcc c.omega L hL s hs'
    have ha : amplitudes s = s.ts := by unfold amplitudes; rw [if_neg (by simpa [onlyH] using ho)]
    have hne : s.ts ≠ [] := (term_ts_ne_nil sol true true hMax cc smax hcc c.omega L hL s hs').1
    obtain ⟨p1, p2, p3, p4⟩ := d7
    rw [ha] at d8
    have z1 : (s.ts.map T.n_h).sum = 0 := by
      apply List.sum_eq_zero
      intro n hn
      obtain ⟨x, hx, rfl⟩ := List.mem_map.1 hn
      exact ((d8 x hx).2.2 rfl).1
    exact ⟨hne, ha, by omega, by omega, by omega, d5, d8⟩
  constructor
  · intro s hs' ho
    obtain ⟨a1, a2, a3, a4, a5, a6, a7⟩ := data s hs' ho
    unfold factor
    have key : (distinctTouching s.ts).factorial * blockFactorials s.ts * repeats s.ts * (if s.ts.length = 1 then c.omega.n.factorial else 1) =
        s.h.n.factorial * c.omega.n.factorial := by
      rw [a5]
      rcases hr with hr | rfl
      · refine smallLists_factor c.omega.n (by omega) s.ts (mem_smallLists _ (fun x hx => ?_) (by omega) (by omega)) a1
        obtain ⟨b1, _, b3⟩ := a7 x hx
        obtain ⟨b3, b4⟩ := b3 rfl
        unfold ampRank at b1
        omega
      · refine singles_factor c.omega.n hk s.ts (fun x hx => ?_) (by omega)
        obtain ⟨b1, b2, b3⟩ := a7 x hx
        obtain ⟨b3, b4⟩ := b3 rfl
        unfold ampRank at b1 b2
        omega
    rw [key]
    exact div_self (by exact_mod_cast Nat.mul_ne_zero (Nat.factorial_ne_zero _) (Nat.factorial_ne_zero _))
  · intro l hl
    unfold keysOf
    have hsub : (l.filter fun t => !onlyH t.ts).Sublist L := by
      refine (List.filter_sublist).trans ?_
      simp only [termGroups, List.mem_cons, List.not_mem_nil, or_false] at hl
      rcases hl with rfl | rfl | rfl <;> exact List.filter_sublist
    have hu := (terms_unique sol true true hMax cc smax hcc c.omega L hL).sublist hsub
    unfold List.Nodup
    rw [List.pairwise_map]
    refine hu.imp_of_mem ?_
    intro s s' hm hm' hne heq
    apply hne
    obtain ⟨m1, m2⟩ := List.mem_filter.1 hm
    obtain ⟨m1', m2'⟩ := List.mem_filter.1 hm'
    obtain ⟨a1, a2, a3, a4, a5, a6, a7⟩ := data s (mem_termGroups hl m1) (by simpa using m2)
    obtain ⟨b1, b2, b3, b4, b5, b6, b7⟩ := data s' (mem_termGroups hl m1') (by simpa using m2')
    have hfc : (∀ x ∈ s.ts, TouchesH x) ↔ ∀ y ∈ s'.ts, TouchesH y := by
      have hfc' : FullyConnected s ↔ FullyConnected s' := by
        have un : ∀ u : Term, Unlinked u → ¬ FullyConnected u := by
          rintro u ⟨x, hx, hx'⟩ hf
          have := hf x hx
          unfold TouchesH at this
          unfold TakesAllOfOmega at hx'
          omega
        simp only [termGroups, List.mem_cons, List.not_mem_nil, or_false] at hl
        rcases hl with rfl | rfl | rfl
        · exact iff_of_true (by simpa using (List.mem_filter.1 m1).2) (by simpa using (List.mem_filter.1 m1').2)
        · have q1 : Linked s := by simpa using (List.mem_filter.1 m1).2
          have q2 : Linked s' := by simpa using (List.mem_filter.1 m1').2
          exact iff_of_false q1.1 q2.1
        · exact iff_of_false (un _ (by simpa using (List.mem_filter.1 m1).2)) (un _ (by simpa using (List.mem_filter.1 m1').2))
      unfold FullyConnected at hfc'
      rwa [a2, b2] at hfc'
    unfold keyOf at heq
    rw [Key.mk.injEq] at heq
    obtain ⟨k1, k2, _⟩ := heq
    rw [a3, b3, a5, b5] at k1
    have hp : s.ts.Perm s'.ts := by
      rcases hr with hr | rfl
      · have small : ∀ zs : List T, (∀ x ∈ zs, AmpAllowed cc true x) → ∀ x ∈ zs, x.n_h = 0 ∧ x.n_o = 0 ∧ 1 ≤ x.m_h + x.m_o := by
          intro zs hz x hx
          obtain ⟨b1, _, b3⟩ := hz x hx
          obtain ⟨b3, b4⟩ := b3 rfl
          unfold ampRank at b1
          omega
        refine List.isPerm_iff.1 <| smallLists_key c.omega.n (by omega) s.ts (mem_smallLists _ (small _ a7) (by omega) (by omega)) s'.ts
          (mem_smallLists _ (small _ b7) (by omega) (by omega)) a1 b1 a4 b4 (by omega) (by omega) (decide_eq_decide.2 hfc) k1 k2
      · have one : ∀ zs : List T, (∀ x ∈ zs, AmpAllowed 1 true x) → ∀ x ∈ zs, x.n_h = 0 ∧ x.n_o = 0 ∧ x.m_h + x.m_o = 1 := by
          intro zs hz x hx
          obtain ⟨b1, b2, b3⟩ := hz x hx
          obtain ⟨b3, b4⟩ := b3 rfl
          unfold ampRank at b1 b2
          omega
        exact singles_key c.omega.n hk s.ts s'.ts (one _ a7) (one _ b7) a1 b1 a4 b4 hfc k1
    refine ⟨?_, ?_, ?_⟩
    · rw [a3, b3, (hp.map T.m_o).sum_eq]
    · rw [a5, b5, (hp.map T.m_h).sum_eq]
    · rw [a2, b2]; exact hp

/-! ## One state and one mode -/

section Scalar

variable {R : Type} [CommRing R] [Algebra Rat R]

/-- the arrays with one entry -/
def constH (η : Nat × Nat → R) : Nat × Nat → Arr R := fun p _ => η p
def constT (τ : Nat → R) : Nat × Nat → Arr R := fun p _ => τ p.1

/-- the product of the entries of the tensors of a term -/
def product (η : R) (τ : Nat → R) (xs : List T) : R := η * (xs.map fun x => τ (x.m_h + x.m_o)).prod

noncomputable def weight (m : Nat) (xs : List T) : Rat :=
  ∑ ys ∈ xs.permutations.toFinset, 1 / ((ys.length.factorial * m.factorial * blockFactorials ys : Nat) : Rat)

/-- the matrix with one entry -/
def entry {P : Type} (p : P) : Matrix (Fin 1) (Fin 1) P := Matrix.of fun _ _ => p

theorem entry_mul {P : Type} [CommRing P] (p q : P) : entry p * entry q = entry (p * q) := by
  ext a b
  simp [entry, Matrix.mul_apply]

theorem mat_constT (τ : Nat → R) (p : Nat × Nat) (l : List Nat) : mat 1 (constT τ p) l = entry (τ p.1) := rfl
theorem mat_constH (η : Nat × Nat → R) (p : Nat × Nat) (l : List Nat) : mat 1 (constH η p) l = entry (η p) := rfl

theorem amps_const (τ : Nat → R) (xs : List T) : ∀ K I, (amps 1 (constT τ) xs K I).prod = entry (xs.map fun x => τ (x.m_h + x.m_o)).prod := by
  induction xs with
  | nil => intro K I; ext a b; rw [Subsingleton.elim a b]; simp [amps, entry]
  | cons x xs ih =>
    intro K I
    rw [amps, List.prod_cons, ih, mat_constT, entry_mul, List.map_cons, List.prod_cons]

theorem ordered_const (η : Nat × Nat → R) (τ : Nat → R) (m n k : Nat) (xs : List T) : ordered 1 1 (constH η (m, n)) (constT τ) m n k xs =
    (1 / ((xs.length.factorial * m.factorial * blockFactorials xs : Nat) : Rat)) • entry (MvPolynomial.X 0 ^ k * MvPolynomial.C (product (η (m, n)) τ xs)) := by
  unfold ordered
  congr 1
  rw [Fintype.sum_unique, Fintype.sum_unique, amps_const]
  ext a b : 2
  have hc : create (R := R) (default : Fin k → Fin 1) = MvPolynomial.X 0 ^ k := by simp [create]
  rw [hc, mat_constH, entry_mul]
  simp [entry, product]

theorem contribution_const (η : Nat × Nat → R) (τ : Nat → R) (m n k : Nat) (xs : List T) : contribution 1 1 (constH η (m, n)) (constT τ) m n k xs =
    weight m xs • entry (MvPolynomial.X 0 ^ k * MvPolynomial.C (product (η (m, n)) τ xs)) := by
  unfold contribution weight
  rw [Finset.sum_smul]
  refine Finset.sum_congr rfl fun ys hy => ?_
  rw [ordered_const]
  have hp : ys.Perm xs := List.mem_permutations.1 (List.mem_toFinset.1 hy)
  unfold product
  rw [(hp.map _).prod_eq]

theorem weight_pos (m : Nat) (xs : List T) : 0 < weight m xs := by
  unfold weight
  apply Finset.sum_pos
  · intro ys _
    have : 0 < ys.length.factorial * m.factorial * blockFactorials ys := by
      refine Nat.mul_pos (Nat.mul_pos (Nat.factorial_pos _) (Nat.factorial_pos _)) ?_
      unfold blockFactorials
      refine List.prod_pos ?_
      intro a ha
      obtain ⟨x, _, rfl⟩ := List.mem_map.1 ha
      exact Nat.mul_pos (Nat.factorial_pos _) (Nat.factorial_pos _)
    exact one_div_pos.2 (by exact_mod_cast this)
  · exact ⟨xs, List.mem_toFinset.2 (List.mem_permutations.2 (List.Perm.refl _))⟩

theorem contribution_ne_zero (η : Nat × Nat → R) (τ : Nat → R) (m n k : Nat) (xs : List T) (h : product (η (m, n)) τ xs ≠ 0) :
    contribution 1 1 (constH η (m, n)) (constT τ) m n k xs ≠ 0 := by
  rw [contribution_const]
  intro h0
  have h1 : weight m xs • (MvPolynomial.X 0 ^ k * MvPolynomial.C (product (η (m, n)) τ xs) : MvPolynomial (Fin 1) R) = 0 := congrFun (congrFun h0 0) 0
  have h2 : (weight m xs)⁻¹ • (weight m xs • (MvPolynomial.X 0 ^ k * MvPolynomial.C (product (η (m, n)) τ xs) : MvPolynomial (Fin 1) R)) = 0 := by rw [h1, smul_zero]
  rw [smul_smul, inv_mul_cancel₀ (weight_pos m xs).ne', one_smul] at h2
  have h3 := congrArg (MvPolynomial.coeff (Finsupp.single (0 : Fin 1) k)) h2
  rw [mul_comm, MvPolynomial.coeff_C_mul, MvPolynomial.X_pow_eq_monomial, MvPolynomial.coeff_monomial, if_pos rfl, mul_one, MvPolynomial.coeff_zero] at h3
  exact h h3

theorem contribution_zero (η : Nat × Nat → R) (τ : Nat → R) (m n k : Nat) (xs : List T) (h : product (η (m, n)) τ xs = 0) :
    contribution 1 1 (constH η (m, n)) (constT τ) m n k xs = 0 := by
  rw [contribution_const, h, map_zero, mul_zero]
  have : entry (0 : MvPolynomial (Fin 1) R) = 0 := rfl
  rw [this, smul_zero]

end Scalar

theorem contribution_perm {R : Type} [CommRing R] [Algebra Rat R] (A N : Nat) (h : Arr R) (t : Nat × Nat → Arr R) (m n k : Nat) {xs ys : List T} (hp : xs.Perm ys) :
    contribution A N h t m n k xs = contribution A N h t m n k ys := by
  unfold contribution
  refine Finset.sum_congr ?_ fun _ _ => rfl
  ext zs
  rw [List.mem_toFinset, List.mem_toFinset, List.mem_permutations, List.mem_permutations]
  exact ⟨fun h => h.trans hp, fun h => h.trans hp.symm⟩

theorem factor_perm (n k : Nat) {xs ys : List T} (hp : xs.Perm ys) : factor n k xs = factor n k ys := by
  unfold factor
  have h1 : distinctTouching xs = distinctTouching ys := by
    unfold distinctTouching
    rw [List.toFinset_eq_of_perm _ _ (hp.filter _)]
  have h2 : repeats xs = repeats ys := by
    unfold repeats
    rw [List.toFinset_eq_of_perm _ _ hp]
    exact Finset.prod_congr rfl fun x _ => by rw [hp.count_eq]
  rw [h1, h2, blockFactorials_perm hp, hp.length_eq]

theorem sum_two_values {P ι : Type} [AddCommMonoid P] (l : List ι) (f : ι → P) (X : P) (h : ∀ i ∈ l, f i = 0 ∨ f i = X) : ∃ c : Nat, (l.map f).sum = c • X := by
  induction l with
  | nil => exact ⟨0, by simp⟩
  | cons i l ih =>
    obtain ⟨c, hc⟩ := ih fun j hj => h j (List.mem_cons_of_mem _ hj)
    rw [List.map_cons, List.sum_cons, hc]
    rcases h i (by simp) with e | e <;> rw [e]
    · exact ⟨c, zero_add _⟩
    · exact ⟨c + 1, by rw [add_comm, succ_nsmul]⟩

theorem sum_multiples {P ι : Type} [AddCommMonoid P] (l : List ι) (f : ι → P) (X : P) (h : ∀ i ∈ l, ∃ c : Nat, f i = c • X) : ∃ c : Nat, (l.map f).sum = c • X := by
  induction l with
  | nil => exact ⟨0, by simp⟩
  | cons i l ih =>
    obtain ⟨c, hc⟩ := ih fun j hj => h j (List.mem_cons_of_mem _ hj)
    obtain ⟨d, hd⟩ := h i (by simp)
    rw [List.map_cons, List.sum_cons, hc, hd]
    exact ⟨d + c, (add_nsmul ..).symm⟩

/-- If a function computes the part of `H e^T` then a multiple of the factor of any term is 1. -/
theorem factor_of_exact (so : SetOrder Nat) (sol : SetOrder (List T)) (hMax cc smax omegaMax : Nat) (hcc : 1 ≤ cc) (hH : hMax ≤ 6) (hS : smax ≤ 6)
    (hP : omegaMax ≤ 6) (F : List OmegaCode) (hF : pythonFile so sol hMax cc smax omegaMax = .ok F) (c : OmegaCode) (hc : c ∈ F) (hom : c.omega.m = 0)
    (hs : hMax + c.omega.n ≤ smax) (env : Caller) (h1 : env.singles = true) (h2 : env.ground = true) (h3 : FullArgs hMax cc env) (r : List (Added Einsum))
    (hr : callAmplitude (moduleDefs F) env ("compute_m0_n" ++ toString c.omega.n ++ "_amplitude") = .ok (c.omega.n, r))
    (hex : ∀ (R : Type) [CommRing R] [Algebra Rat R] (A N M : Nat), hMax + c.omega.n ≤ M → ∀ h t : Nat × Nat → Arr R, (∀ m n, LowerSymmetric m n (h (m, n))) →
      (∀ k, ModeSymmetric k (t (k, 0))) →
      state A N c.omega.n (returned A N h t r) =
        part c.omega.n (Spec.Fock.hamiltonian A N (hamiltonianOf hMax) h (expUpTo M (cluster A N (Finset.Icc 1 cc) fun j => t (j, 0)))))
    (R : Type) [CommRing R] [Algebra Rat R] (η : Nat × Nat → R) (τ : Nat → R) (n : Nat) (ts : List T) (hn : n ≤ hMax) (hts : ∀ x ∈ ts, AmpAllowed cc true x) (hlen : ts.length ≤ smax)
    (e1 : (ts.map T.m_o).sum = c.omega.n) (e2 : (ts.map T.m_h).sum = n) (hz : η (c.omega.n, 0) = 0) (hv : product (η (0, n)) τ ts ≠ 0)
    (hu : ∀ (m n' : Nat) (xs : List T), (∀ x ∈ xs, AmpAllowed cc true x) → m + (xs.map T.m_o).sum = c.omega.n → (xs.map T.m_h).sum = n' →
      product (η (m, n')) τ xs ≠ 0 → m = 0 ∧ n' = n ∧ xs.Perm ts) : ∃ q : Nat, (q : Rat) * factor n c.omega.n ts = 1 := by
  obtain ⟨L, r', hL, hr', hv'⟩ := amplitude_operator so sol hMax cc smax omegaMax hcc hH hS hP F hF c hc hom env h1 h2 h3
  rw [hr] at hr'
  obtain rfl : r = r' := by injection hr' with h; exact (Prod.mk.inj h).2
  have hh : ∀ m n, LowerSymmetric m n (constH η (m, n)) := fun _ _ _ _ _ _ _ _ _ _ => rfl
  have ht : ∀ k, ModeSymmetric k (constT τ (k, 0)) := by
    intro k
    unfold ModeSymmetric constT
    intros
    rfl
  have ex := hex R 1 1 (hMax + c.omega.n) le_rfl (constH η) (constT τ) hh ht
  rw [hv' R 1 1 (constH η) (constT τ) hh, exp_contributions sol hMax cc smax hcc c.omega hom hs L hL 1 1 _ le_rfl (constH η) (constT τ) hh ht] at ex
  set C := contribution 1 1 (constH η (0, n)) (constT τ) 0 n c.omega.n ts with hC
  have hCne : C ≠ 0 := contribution_ne_zero η τ 0 n _ ts hv
  have data : ∀ s ∈ L, product (η (s.h.m, s.h.n)) τ (amplitudes s) ≠ 0 → s.h.m = 0 ∧ s.h.n = n ∧ (amplitudes s).Perm ts := by
    intro s hs' hp
    obtain ⟨d1, d2, _, _, d5, d6, _, d8⟩ := term_data sol true true hMax cc smax hcc c.omega L hL s hs'
    obtain ⟨p1, p2, p3, p4⟩ := d6
    have z1 : ((amplitudes s).map T.n_h).sum = 0 := by
      apply List.sum_eq_zero
      intro n hn
      obtain ⟨x, hx, rfl⟩ := List.mem_map.1 hn
      exact ((d8 x hx).2.2 rfl).1
    exact hu _ _ _ d8 (by omega) (by omega) hp
  -- the right-hand side
  obtain ⟨s, hsL, s1, s2, s3⟩ := terms_complete sol true hMax cc smax hcc c.omega L (termsFor_ground sol hMax cc smax hcc c.omega hom L hL) 0 n (by omega) ts hlen
    ⟨hts, 0, 0, by
      have z1 : (ts.map T.n_h).sum = 0 := by
        apply List.sum_eq_zero
        intro n hn
        obtain ⟨x, hx, rfl⟩ := List.mem_map.1 hn
        exact ((hts x hx).2.2 rfl).1
      have z2 : (ts.map T.n_o).sum = 0 := by
        apply List.sum_eq_zero
        intro n hn
        obtain ⟨x, hx, rfl⟩ := List.mem_map.1 hn
        exact ((hts x hx).2.2 rfl).2
      refine ⟨by omega, by omega, by omega, by omega⟩⟩
  obtain ⟨l1, l2, hl⟩ := List.append_of_mem hsL
  have hpw := terms_unique sol true true hMax cc smax hcc c.omega L hL
  have other : ∀ s' ∈ L, (SameContraction s' s → False) ∨ (SameContraction s s' → False) →
      contribution 1 1 (constH η (s'.h.m, s'.h.n)) (constT τ) s'.h.m s'.h.n c.omega.n (amplitudes s') = 0 := by
    intro s' hs' hd
    apply contribution_zero
    by_contra hp
    obtain ⟨q1, q2, q3⟩ := data s' hs' hp
    rcases hd with hd | hd
    · exact hd ⟨by omega, by omega, q3.trans s3.symm⟩
    · exact hd ⟨by omega, by omega, s3.trans q3.symm⟩
  have right : (L.map fun s => contribution 1 1 (constH η (s.h.m, s.h.n)) (constT τ) s.h.m s.h.n c.omega.n (amplitudes s)).sum = C := by
    have hmem : ∀ x, x ∈ l1 ∨ x = s ∨ x ∈ l2 → x ∈ L := by
      intro x hx; rw [hl]; simpa using hx
    have hpw' := hpw
    rw [hl, List.pairwise_append, List.pairwise_cons] at hpw'
    rw [hl, List.map_append, List.map_cons, List.sum_append, List.sum_cons]
    rw [List.sum_eq_zero (l := l1.map _), List.sum_eq_zero (l := l2.map _), zero_add, add_zero, s1, s2, contribution_perm _ _ _ _ _ _ _ s3]
    · intro a ha
      obtain ⟨x, hx, rfl⟩ := List.mem_map.1 ha
      exact other x (hmem x (.inr (.inr hx))) (.inr (hpw'.2.1.1 x hx))
    · intro a ha
      obtain ⟨x, hx, rfl⟩ := List.mem_map.1 ha
      exact other x (hmem x (.inl hx)) (.inl (hpw'.2.2 x hx s (by simp)))
  -- the left-hand side
  have left : ∃ q : Nat, ((termGroups L).map fun l => (((kept so l).filter (Enabled env.fl)).map fun s =>
          factor s.h.n c.omega.n s.ts • contribution 1 1 (constH η (s.h.m, s.h.n)) (constT τ) s.h.m s.h.n c.omega.n s.ts).sum).sum = q • (factor n c.omega.n ts • C) := by
    refine sum_multiples _ _ _ fun l hl' => sum_two_values _ _ _ fun s' hs' => ?_
    obtain ⟨m1, _⟩ := List.mem_filter.1 hs'
    have hsL' := mem_termGroups hl' ((kept_sublist so l).subset m1)
    have ho := (kept_keys so l s' m1).1
    have ha : amplitudes s' = s'.ts := by unfold amplitudes; rw [if_neg (by simpa [onlyH] using ho)]
    by_cases hp : product (η (s'.h.m, s'.h.n)) τ s'.ts = 0
    · left
      rw [contribution_zero _ _ _ _ _ _ hp, smul_zero]
    · right
      obtain ⟨q1, q2, q3⟩ := data s' hsL' (by rwa [ha])
      rw [ha] at q3
      rw [q1, q2, contribution_perm _ _ _ _ _ _ _ q3, factor_perm _ _ q3]
  obtain ⟨q, hq⟩ := left
  have hst : state 1 1 c.omega.n (constH η (c.omega.n, 0)) = 0 := by
    rw [state_series]
    have : (mat 1 (constH η (c.omega.n, 0)) : List Nat → Matrix (Fin 1) (Fin 1) R) = fun _ => (0 : Rat) • (0 : Matrix (Fin 1) (Fin 1) R) := by
      funext v
      ext a b
      simp [mat, constH, hz]
    rw [this, series_smul, zero_smul, smul_zero]
  rw [right, hst, ite_self, zero_add, hq, ← Nat.cast_smul_eq_nsmul Rat, smul_smul] at ex
  refine ⟨q, ?_⟩
  by_contra hne1
  have h0 : ((q : Rat) * factor n c.omega.n ts - 1) • C = 0 := by rw [sub_smul, ex, one_smul, sub_self]
  apply hCne
  have := congrArg (fun X => ((q : Rat) * factor n c.omega.n ts - 1)⁻¹ • X) h0
  simpa only [smul_smul, inv_mul_cancel₀ (sub_ne_zero.2 hne1), one_smul, smul_zero] using this

theorem allowed_zero {cc : Nat} {x : T} (h : AmpAllowed cc true x) : x = ⟨x.m_h, 0, x.m_o, 0⟩ ∧ 1 ≤ x.m_h + x.m_o := by
  obtain ⟨h1, _, h3⟩ := h
  obtain ⟨h3, h4⟩ := h3 rfl
  obtain ⟨a, b, c, d⟩ := x
  simp only at h3 h4
  subst h3 h4
  unfold ampRank at h1
  exact ⟨rfl, by omega⟩

theorem product_factors {R : Type} [CommRing R] {η : R} {τ : Nat → R} {xs : List T} (h : product η τ xs ≠ 0) : η ≠ 0 ∧ ∀ x ∈ xs, τ (x.m_h + x.m_o) ≠ 0 := by
  unfold product at h
  refine ⟨left_ne_zero_of_mul h, fun x hx h0 => right_ne_zero_of_mul h ?_⟩
  obtain ⟨l1, l2, rfl⟩ := List.append_of_mem hx
  simp [h0]

/-- the only product of the constant term of the Hamiltonian and amplitudes with `k` modes -/
theorem only_one {cc k : Nat} (hk : 1 ≤ k) (xs : List T) (h : ∀ x ∈ xs, AmpAllowed cc true x) (h1 : ∀ x ∈ xs, x.m_h + x.m_o = k) (h2 : (xs.map T.m_o).sum = k)
    (h3 : (xs.map T.m_h).sum = 0) : xs = [⟨0, 0, k, 0⟩] := by
  match xs with
  | [] => simp at h2; omega
  | [x] =>
    obtain ⟨e, _⟩ := allowed_zero (h x (by simp))
    have := h1 x (by simp)
    simp only [List.map_cons, List.map_nil, List.sum_cons, List.sum_nil, Nat.add_zero] at h2 h3
    rw [e, h2, h3]
  | x :: y :: l =>
    have a := h1 x (by simp)
    have b := h1 y (by simp)
    simp only [List.map_cons, List.sum_cons] at h2 h3
    omega

theorem only_pairs {cc : Nat} (xs : List T) (h : ∀ x ∈ xs, AmpAllowed cc true x) (h1 : ∀ x ∈ xs, x.m_h + x.m_o = 2) (h2 : (xs.map T.m_o).sum = 1)
    (h3 : (xs.map T.m_h).sum = 3) : xs.Perm [⟨2, 0, 0, 0⟩, ⟨1, 0, 1, 0⟩] := by
  match xs with
  | [] => simp at h2
  | [x] =>
    have := h1 x (by simp)
    simp only [List.map_cons, List.map_nil, List.sum_cons, List.sum_nil, Nat.add_zero] at h2 h3
    omega
  | [x, y] =>
    obtain ⟨e, _⟩ := allowed_zero (h x (by simp))
    obtain ⟨f, _⟩ := allowed_zero (h y (by simp))
    have a := h1 x (by simp)
    have b := h1 y (by simp)
    simp only [List.map_cons, List.map_nil, List.sum_cons, List.sum_nil, Nat.add_zero] at h2 h3
    rcases (show (x.m_h = 2 ∧ x.m_o = 0 ∧ y.m_h = 1 ∧ y.m_o = 1) ∨ (x.m_h = 1 ∧ x.m_o = 1 ∧ y.m_h = 2 ∧ y.m_o = 0) by omega) with
      ⟨a, b, c, d⟩ | ⟨a, b, c, d⟩ <;> rw [e, f, a, b, c, d]
    exact List.Perm.swap ..
  | x :: y :: z :: l =>
    have a := h1 x (by simp)
    have b := h1 y (by simp)
    have c := h1 z (by simp)
    simp only [List.map_cons, List.sum_cons] at h2 h3
    omega

open DualNumber in
theorem only_mixed {cc : Nat} (xs : List T) (h : ∀ x ∈ xs, AmpAllowed cc true x) (h2 : (xs.map T.m_o).sum = 0) (h3 : (xs.map T.m_h).sum = 3)
    (h1 : product (1 : ℚ[ε]) (fun j => if j = 1 then ε else if j = 2 then 1 else 0) xs ≠ 0) : xs.Perm [⟨1, 0, 0, 0⟩, ⟨2, 0, 0, 0⟩] := by
  have hf := (product_factors h1).2
  have hm : ∀ x ∈ xs, x.m_h + x.m_o ≤ 2 := by
    intro x hx
    by_contra hc
    apply hf x hx
    rw [if_neg (by omega), if_neg (by omega)]
  match xs with
  | [] => simp at h3
  | [x] =>
    have := hm x (by simp)
    simp only [List.map_cons, List.map_nil, List.sum_cons, List.sum_nil, Nat.add_zero] at h2 h3
    omega
  | [x, y] =>
    obtain ⟨e, _⟩ := allowed_zero (h x (by simp))
    obtain ⟨f, _⟩ := allowed_zero (h y (by simp))
    have a := hm x (by simp)
    have b := hm y (by simp)
    simp only [List.map_cons, List.map_nil, List.sum_cons, List.sum_nil, Nat.add_zero] at h2 h3
    rcases (show (x.m_h = 1 ∧ x.m_o = 0 ∧ y.m_h = 2 ∧ y.m_o = 0) ∨ (x.m_h = 2 ∧ x.m_o = 0 ∧ y.m_h = 1 ∧ y.m_o = 0) by omega) with
      ⟨a, b, c, d⟩ | ⟨a, b, c, d⟩ <;> rw [e, f, a, b, c, d]
    exact List.Perm.swap ..
  | [x, y, z] =>
    obtain ⟨_, e⟩ := allowed_zero (h x (by simp))
    obtain ⟨_, f⟩ := allowed_zero (h y (by simp))
    obtain ⟨_, g⟩ := allowed_zero (h z (by simp))
    simp only [List.map_cons, List.map_nil, List.sum_cons, List.sum_nil, Nat.add_zero] at h2 h3
    exfalso
    apply h1
    have a : x.m_h + x.m_o = 1 := by omega
    have b : y.m_h + y.m_o = 1 := by omega
    unfold product
    simp only [List.map_cons, List.prod_cons, a, b, if_true]
    rw [← mul_assoc (ε : ℚ[ε]), DualNumber.eps_mul_eps, zero_mul, mul_zero]
  | x :: y :: z :: w :: l =>
    obtain ⟨_, e⟩ := allowed_zero (h x (by simp))
    obtain ⟨_, f⟩ := allowed_zero (h y (by simp))
    obtain ⟨_, g⟩ := allowed_zero (h z (by simp))
    obtain ⟨_, i⟩ := allowed_zero (h w (by simp))
    simp only [List.map_cons, List.sum_cons] at h2 h3
    omega

/-- C80: with all flags set, the function for `k` modes computes the part of `H e^T` with `k` modes exactly when `k <= 1` and the Hamiltonian
has rank at most 2 or the amplitudes have one mode. -/
theorem amplitude_projection_iff (so : SetOrder Nat) (sol : SetOrder (List T)) (hMax cc smax omegaMax : Nat) (hcc : 1 ≤ cc) (hH : hMax ≤ 6) (hS : smax ≤ 6)
    (hP : omegaMax ≤ 6) (F : List OmegaCode) (hF : pythonFile so sol hMax cc smax omegaMax = .ok F) (c : OmegaCode) (hc : c ∈ F)
    (hom : c.omega.m = 0) (hs : hMax + c.omega.n ≤ smax) (env : Caller) (h1 : env.singles = true) (h2 : env.ground = true)
    (h3 : FullArgs hMax cc env) (h4 : ∀ n, env.fl.h n = true) (h5 : ∀ n, env.fl.t n = true) (r : List (Added Einsum))
    (hr : callAmplitude (moduleDefs F) env ("compute_m0_n" ++ toString c.omega.n ++ "_amplitude") = .ok (c.omega.n, r)) :
    (∀ (R : Type) [CommRing R] [Algebra Rat R] (A N M : Nat), hMax + c.omega.n ≤ M → ∀ h t : Nat × Nat → Arr R, (∀ m n, LowerSymmetric m n (h (m, n))) →
      (∀ k, ModeSymmetric k (t (k, 0))) →
      state A N c.omega.n (returned A N h t r) =
        part c.omega.n (Spec.Fock.hamiltonian A N (hamiltonianOf hMax) h (expUpTo M (cluster A N (Finset.Icc 1 cc) fun j => t (j, 0))))) ↔
    c.omega.n ≤ 1 ∧ (hMax ≤ 2 ∨ cc = 1) := by
  constructor
  · intro hex
    have hk : c.omega.n ≤ cc := by
      obtain ⟨o, ho, hco, _⟩ := forall₂_mem_right (pythonFile_contents so sol hMax cc smax omegaMax hcc F hF) c hc
      have := ((omegaOps_exact cc omegaMax o).1 ho).2.2.1
      rw [hco]
      omega
    have use := factor_of_exact so sol hMax cc smax omegaMax hcc hH hS hP F hF c hc hom hs env h1 h2 h3 r hr hex
    have hk1 : c.omega.n ≤ 1 := by
      by_contra hk2
      obtain ⟨q, hq⟩ := use Rat (fun p => if p = (0, 0) then 1 else 0) (fun j => if j = c.omega.n then 1 else 0) 0 [⟨0, 0, c.omega.n, 0⟩] (by omega)
        (by
          intro x hx
          rw [List.mem_singleton] at hx
          subst hx
          exact ⟨by unfold ampRank; simp only; omega, by unfold ampRank; simp only; omega, fun _ => ⟨rfl, rfl⟩⟩)
        (by simp only [List.length_singleton]; omega) (by simp) (by simp) (by simp; omega) (by simp [product])
        (by
          intro m n' xs hx e1 e2 hp
          obtain ⟨p1, p2⟩ := product_factors hp
          have hmn : (m, n') = (0, 0) := by by_contra hn; simp [hn] at p1
          obtain ⟨rfl, rfl⟩ := Prod.mk.inj hmn
          refine ⟨rfl, rfl, .of_eq (only_one (by omega) xs hx (fun x hx => ?_) (by omega) e2)⟩
          by_contra hn
          exact p2 x hx (by simp [hn]))
      have hf : factor 0 c.omega.n [⟨0, 0, c.omega.n, 0⟩] = (c.omega.n.factorial : Rat) := by
        unfold factor
        have hd : distinctTouching [⟨0, 0, c.omega.n, 0⟩] = 0 := by simp [distinctTouching, TouchesH]
        have hb : blockFactorials [⟨0, 0, c.omega.n, 0⟩] = c.omega.n.factorial := by simp [blockFactorials]
        have hrp : repeats [(⟨0, 0, c.omega.n, 0⟩ : T)] = 1 := by simp [repeats]
        rw [hd, hb, hrp]
        have : (c.omega.n.factorial : Rat) ≠ 0 := by exact_mod_cast Nat.factorial_ne_zero _
        simp only [List.length_singleton, if_true, Nat.factorial_zero]
        push_cast
        field_simp
      rw [hf] at hq
      have hq' : q * c.omega.n.factorial = 1 := by exact_mod_cast hq
      have h6 := Nat.eq_one_of_mul_eq_one_left hq'
      have h7 : 2 ≤ c.omega.n.factorial := le_trans (by decide) (Nat.factorial_le (show 2 ≤ c.omega.n by omega))
      omega
    refine ⟨hk1, ?_⟩
    by_contra hcon
    have hH3 : 3 ≤ hMax := by omega
    have hc2 : 2 ≤ cc := by omega
    rcases (show c.omega.n = 0 ∨ c.omega.n = 1 by omega) with hn | hn
    · obtain ⟨q, hq⟩ := use (DualNumber Rat) (fun p => if p = (0, 3) then 1 else 0) (fun j => if j = 1 then DualNumber.eps else if j = 2 then 1 else 0) 3 [⟨1, 0, 0, 0⟩, ⟨2, 0, 0, 0⟩] hH3
        (by
          intro x hx
          simp only [List.mem_cons, List.not_mem_nil, or_false] at hx
          rcases hx with rfl | rfl <;> exact ⟨by decide, by unfold ampRank; simp only; omega, fun _ => ⟨rfl, rfl⟩⟩)
        (by simp only [List.length_cons, List.length_nil]; omega) (by simp [hn]) (by simp) (by simp) (by
          simp only [product, if_true, List.map_cons, List.map_nil, List.prod_cons, List.prod_nil]
          intro h0
          have := congrArg TrivSqZeroExt.snd h0
          simp at this)
        (by
          intro m n' xs hx e1 e2 hp
          obtain ⟨p1, p2⟩ := product_factors hp
          have hmn : (m, n') = (0, 3) := by by_contra hn; simp [hn] at p1
          obtain ⟨rfl, rfl⟩ := Prod.mk.inj hmn
          refine ⟨rfl, rfl, only_mixed xs hx (by omega) e2 ?_⟩
          simpa using hp)
      have hf : factor 3 c.omega.n [⟨1, 0, 0, 0⟩, ⟨2, 0, 0, 0⟩] = 2 / 3 := by
        rw [hn]
        decide +kernel
      rw [hf] at hq
      have hq' : q * 2 = 3 := by
        have : (q : Rat) * 2 = 3 := by linarith
        exact_mod_cast this
      omega
    · obtain ⟨q, hq⟩ := use Rat (fun p => if p = (0, 3) then 1 else 0) (fun j => if j = 2 then 1 else 0) 3 [⟨2, 0, 0, 0⟩, ⟨1, 0, 1, 0⟩] hH3
        (by
          intro x hx
          simp only [List.mem_cons, List.not_mem_nil, or_false] at hx
          rcases hx with rfl | rfl <;> exact ⟨by decide, by unfold ampRank; simp only; omega, fun _ => ⟨rfl, rfl⟩⟩)
        (by simp only [List.length_cons, List.length_nil]; omega) (by simp [hn]) (by simp) (by simp) (by simp [product])
        (by
          intro m n' xs hx e1 e2 hp
          obtain ⟨p1, p2⟩ := product_factors hp
          have hmn : (m, n') = (0, 3) := by by_contra hn; simp [hn] at p1
          obtain ⟨rfl, rfl⟩ := Prod.mk.inj hmn
          refine ⟨rfl, rfl, only_pairs xs hx (fun x hx => ?_) (by omega) e2⟩
          by_contra hn
          exact p2 x hx (by simp [hn]))
      have hf : factor 3 c.omega.n [⟨2, 0, 0, 0⟩, ⟨1, 0, 1, 0⟩] = 2 / 3 := by
        rw [hn]
        decide +kernel
      rw [hf] at hq
      have hq' : q * 2 = 3 := by
        have : (q : Rat) * 2 = 3 := by linarith
        exact_mod_cast this
      omega
  · rintro ⟨hk, hr'⟩
    obtain ⟨r', hr1, hv⟩ := amplitude_projection_partial so sol hMax cc smax omegaMax hcc hS hP hr' F hF c hc hom hk hs env h1 h2 h3 h4 h5
    rw [hr] at hr1
    obtain rfl : r = r' := by injection hr1 with h; exact (Prod.mk.inj h).2
    exact hv

/-- The hypotheses are met: a module of rank 2 with doubles, up to three amplitudes, and a caller that passes all tensors and sets all flags; its
functions for no mode and one mode compute the part of `H e^T`, the one for two modes (with four amplitudes) does not. -/
example : ∃ F, pythonFile (SetOrder.std _) (SetOrder.std _) 2 2 4 2 = .ok F ∧ (∀ k ≤ 2, ∃ c ∈ F, c.omega.m = 0 ∧ c.omega.n = k ∧ 2 + c.omega.n ≤ 4) ∧
    FullArgs 2 2 ⟨true, true, allOn, fun _ => true, fun _ => true⟩ ∧ (∀ n, allOn.h n = true) ∧ ∀ n, allOn.t n = true := by
  obtain ⟨F, hF⟩ := ((pythonFile_ok_iff (SetOrder.std _) (SetOrder.std _) 2 2 4 2 (by omega) (by omega) (by omega)).1).2 (by omega)
  refine ⟨F, hF, ?_, ⟨fun _ _ _ => rfl, fun _ _ _ => rfl⟩, fun _ => rfl, fun _ => rfl⟩
  intro k hk
  have hf := pythonFile_contents _ _ 2 2 4 2 (by omega) F hF
  have ho : (⟨rep 'd' 0 ++ rep 'b' k, k, 0, k⟩ : Op) ∈ omegaOps 2 2 := (omegaOps_exact 2 2 _).2 ⟨rfl, by simp, by simpa using hk, by simpa using hk⟩
  obtain ⟨c, hc, hc', _⟩ := forall₂_mem_right hf.flip _ ho
  exact ⟨c, hc, by rw [hc'], by rw [hc'], by rw [hc']; simp only; omega⟩

/-- The factors of some terms: `h_(0,3) t_1 t_2` in the energy has 2/3 instead of 1, `h_(0,2) t_1 t_2` in the function for one mode has 1. -/
example : factor 3 0 [⟨1, 0, 0, 0⟩, ⟨2, 0, 0, 0⟩] = 2 / 3 ∧ factor 2 1 [⟨1, 0, 0, 0⟩, ⟨1, 0, 1, 0⟩] = 1 ∧ factor 0 2 [⟨0, 0, 2, 0⟩] = 2 := by
  decide +kernel

end TF.CC
