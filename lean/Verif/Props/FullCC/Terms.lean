import Verif.Lemmas.FullCC.Terms

/-! # Properties C10 - C17: generation and classification of full-CC terms -/

set_option linter.unusedVariables false

namespace TF.CC

open TF.Py TF.Spec

/-! ## C10: operator families -/

/-- C10: the projection operators are the pairs `(m, n)` with `m + n` at most the coupled-cluster rank
and at most the projection order. -/
theorem omegaOps_exact (cc omegaMax : Nat) (o : Op) :
    o ∈ omegaOps cc omegaMax ↔ o.name = rep 'd' o.m ++ rep 'b' o.n ∧ o.rank = o.m + o.n ∧
      o.m + o.n ≤ cc ∧ o.m + o.n ≤ omegaMax := by
  obtain ⟨nm, r, m, n⟩ := o
  simp only [omegaOps, mem_sortBy, List.mem_map, List.mem_filter, mem_mnPairs, Op.mk.injEq, decide_eq_true_eq]
  constructor
  · rintro ⟨p, ⟨h1, h2⟩, rfl, rfl, rfl, rfl⟩; exact ⟨rfl, rfl, h1, h2⟩
  · rintro ⟨rfl, rfl, h1, h2⟩; exact ⟨(m, n), ⟨h1, h2⟩, rfl, rfl, rfl, rfl⟩

/-- C10: no projection operator is listed twice. -/
theorem omegaOps_nodup (cc omegaMax : Nat) : ((omegaOps cc omegaMax).map fun o => (o.m, o.n)).Nodup := by
  unfold omegaOps
  rw [((sortBy_perm _ _).map _).nodup_iff, List.map_map]
  have : ((fun o : Op => (o.m, o.n)) ∘ fun p : Nat × Nat =>
    ({ name := rep 'd' p.1 ++ rep 'b' p.2, rank := p.1 + p.2, m := p.1, n := p.2 } : Op)) = id := rfl
  rw [this, List.map_id]
  exact (nodup_mnPairs cc).filter _

/-- C10: projection operators come in order of rank. -/
theorem omegaOps_sorted (cc omegaMax : Nat) :
    (omegaOps cc omegaMax).Pairwise fun a b => a.rank ≤ b.rank := by
  have htot : TotalOrderB (fun a b : Op => decide (a.name.length ≤ b.name.length)) :=
    { total := fun a b => by simp; omega
      trans := fun a b c => by simp; omega }
  have hp := sortBy_pairwise htot (((mnPairs cc).filter fun p => decide (p.1 + p.2 ≤ omegaMax)).map fun p =>
      ({ name := rep 'd' p.1 ++ rep 'b' p.2, rank := p.1 + p.2, m := p.1, n := p.2 } : Op))
  have hlen : ∀ o ∈ omegaOps cc omegaMax, o.name.length = o.rank := by
    intro o ho
    obtain ⟨h1, h2, _⟩ := (omegaOps_exact cc omegaMax o).1 ho
    rw [h1, h2, String.length_append, length_rep, length_rep]
  refine List.Pairwise.imp_of_mem ?_ hp
  intro a b ha hb hab
  have := of_decide_eq_true hab
  rw [hlen a ha, hlen b hb] at this
  exact this

/-- C10: the Hamiltonian operators are the pairs `(m, n)` with `m + n` at most the rank, each once. -/
theorem hamiltonian_exact (k : Nat) :
    (∀ h : HOp, h ∈ hamiltonian k ↔ h.rank = h.m + h.n ∧ h.m + h.n ≤ k) ∧
      ((hamiltonian k).map fun h => (h.m, h.n)).Nodup :=
  ⟨fun h => mem_hamiltonian, hamiltonian_keys_nodup k⟩

/-- C10: the S operators are the pairs with `1 ≤ m + n ≤ cc`, and `n = 0` in the ground state. -/
theorem sOps_exact (cc : Nat) (gs : Bool) :
    (∀ m n : Nat, (∃ s ∈ sOps cc gs, s.m = m ∧ s.n = n) ↔ 1 ≤ m + n ∧ m + n ≤ cc ∧ (gs = true → n = 0)) ∧
      ((sOps cc gs).map fun s => (s.m, s.n)).Nodup := by
  refine ⟨?_, ?_⟩
  · intro m n
    constructor
    · rintro ⟨s, hs, rfl, rfl⟩
      obtain ⟨_, _, h1, h2, h3⟩ := mem_sOps.1 hs
      exact ⟨h1, h2, h3⟩
    · rintro ⟨h1, h2, h3⟩
      exact ⟨⟨sName m n, m + n, m, n⟩, mem_sOps.2 ⟨rfl, rfl, h1, h2, h3⟩, rfl, rfl⟩
  · unfold sOps
    rw [List.map_map]
    have : ((fun o : Op => (o.m, o.n)) ∘ fun p : Nat × Nat =>
      ({ name := sName p.1 p.2, rank := p.1 + p.2, m := p.1, n := p.2 } : Op)) = id := rfl
    rw [this, List.map_id]
    exact (nodup_mnPairs cc).filter _

example : (omegaOps 2 1).map (fun o => o.name) = ["", "b", "d"] := by decide
example : (sOps 2 true).map (fun s => s.name) = ["s^1", "s^2"] := by decide

/-! ## C11: Taylor expansion -/

/-- C11: order 0 is the identity. -/
theorem sTaylor_zero (cc smax : Nat) (gs : Bool) :
    (sTaylor cc smax gs)[0]? = some (.one ⟨"1", 0, 0, 0⟩) := by
  simp [sTaylor]

/-- C11: order 1 is the list of S operators. -/
theorem sTaylor_one (cc smax : Nat) (gs : Bool) (h : 1 ≤ smax) :
    (sTaylor cc smax gs)[1]? = some (.lin (sOps cc gs)) := by
  have : (List.range (smax + 1))[1]? = some 1 := by
    rw [List.getElem?_range (by omega)]
  simp [sTaylor, this]

/-- C11: order `k ≥ 2` consists of all products of `k` S operators, each once; there are no further
orders. -/
theorem sTaylor_order (cc smax k : Nat) (gs : Bool) (hk : 2 ≤ k) (h : k ≤ smax) :
    ∃ ps, (sTaylor cc smax gs)[k]? = some (.prods ps) ∧ ps.Nodup ∧
      ∀ p, p ∈ ps ↔ p.length = k ∧ ∀ s ∈ p, s ∈ sOps cc gs := by
  refine ⟨productRepeat (sOps cc gs) k, ?_, nodup_productRepeat (nodup_sOps cc gs), fun p => mem_productRepeat⟩
  have : (List.range (smax + 1))[k]? = some k := List.getElem?_range (by omega)
  simp only [sTaylor, List.getElem?_map, this, Option.map_some]
  match k, hk with
  | k + 2, _ => rfl

theorem sTaylor_length (cc smax : Nat) (gs : Bool) : (sTaylor cc smax gs).length = smax + 1 := by
  simp [sTaylor]

example : (sTaylor 2 2 true)[2]? = some (.prods [[⟨"s^1", 1, 1, 0⟩, ⟨"s^1", 1, 1, 0⟩],
    [⟨"s^1", 1, 1, 0⟩, ⟨"s^2", 2, 2, 0⟩], [⟨"s^2", 2, 2, 0⟩, ⟨"s^1", 1, 1, 0⟩],
    [⟨"s^2", 2, 2, 0⟩, ⟨"s^2", 2, 2, 0⟩]]) := by decide

/-! ## C12 - C16: the terms -/

/-- C15: term generation raises no exception. -/
theorem termsFor_ok (so : SetOrder (List T)) (rf gs : Bool) (hMax cc smax : Nat) (hcc : 1 ≤ cc) (omega : Op) :
    ∃ L, termsFor so rf gs hMax cc smax omega = .ok L := ⟨_, termsFor_eq so rf gs hMax cc smax hcc omega⟩

theorem amplitudes_mkTerm {omega : Op} {h : HOp} {ts : List T} :
    amplitudes (mkTerm omega h ts) = if ts = [⟨0, 0, 0, 0⟩] then [] else ts := rfl

theorem amplitudes_of_allowed {cc : Nat} {gs : Bool} {ts : List T} (h : ∀ t ∈ ts, AmpAllowed cc gs t) :
    (if ts = [⟨0, 0, 0, 0⟩] then [] else ts) = ts := by
  split
  · next e => subst e; exact absurd (h _ (by simp)) zero_not_allowed
  · rfl

/-- C12: every generated term is a contraction of `Omega`, an `h` allowed by the truncation and at
most `smax` allowed amplitudes; the numbers recorded on `Omega` and `h` are those of the contraction:
per amplitude (`m_t`, `n_t`) and for the pairs between `Omega` and `h`. -/
theorem terms_sound (so : SetOrder (List T)) (rf gs : Bool) (hMax cc smax : Nat) (hcc : 1 ≤ cc) (omega : Op)
    (L : List Term) (hL : termsFor so rf gs hMax cc smax omega = .ok L) (t : Term) (ht : t ∈ L) :
    t.omega.m = omega.m ∧ t.omega.n = omega.n ∧ t.h.m + t.h.n ≤ hMax ∧
    (amplitudes t).length ≤ smax ∧
    IsContraction cc gs t.omega.m t.omega.n t.h.m t.h.n (amplitudes t) ∧
    Pairs t.omega.m t.omega.n t.h.m t.h.n (amplitudes t) t.h.m_o t.omega.m_h ∧
    t.h.m_o = t.omega.n_h ∧ t.h.n_o = t.omega.m_h ∧
    t.omega.m_t = t.ts.map T.n_o ∧ t.omega.n_t = t.ts.map T.m_o ∧
    t.h.m_t = t.ts.map T.n_h ∧ t.h.n_t = t.ts.map T.m_h ∧
    t.omega.rank = t.omega.m + t.omega.n ∧ t.h.rank = t.h.m + t.h.n := by
  rw [termsFor_eq so rf gs hMax cc smax hcc omega] at hL
  cases hL
  obtain ⟨k, hk, h, hh, ts, hts, rfl, _⟩ := mem_termList.1 ht
  obtain ⟨_, hf, hm, hcase⟩ := mem_survivors_order.1 hts
  have hp : Pairs omega.m omega.n h.m h.n ts (h.m - (ts.map T.n_h).sum) (omega.m - (ts.map T.n_o).sum) := by
    obtain ⟨f1, f2, f3, f4⟩ := hf
    obtain ⟨m1, m2⟩ := hm
    unfold Pairs
    omega
  have hamp : (∀ x ∈ amplitudes (mkTerm omega h ts), AmpAllowed cc gs x) ∧
      (amplitudes (mkTerm omega h ts)).length ≤ smax ∧
      Pairs omega.m omega.n h.m h.n (amplitudes (mkTerm omega h ts)) (h.m - (ts.map T.n_h).sum)
        (omega.m - (ts.map T.n_o).sum) := by
    rw [amplitudes_mkTerm]
    rcases hcase with ⟨rfl, rfl⟩ | ⟨hk1, hl, ha⟩
    · rw [if_pos rfl]
      refine ⟨by simp, by simp, ?_⟩
      simpa [Pairs] using hp
    · rw [amplitudes_of_allowed ha]
      exact ⟨ha, by omega, hp⟩
  refine ⟨rfl, rfl, (mem_hamiltonian.1 hh).2, hamp.2.1, ⟨hamp.1, _, _, hamp.2.2⟩, hamp.2.2, hm.1, hm.2,
    rfl, rfl, rfl, rfl, rfl, rfl⟩

/-- C13: every contraction of `Omega` with an allowed `h` and at most `smax` allowed amplitudes is
among the generated terms (without f-term removal), whatever the order of its amplitudes. -/
theorem terms_complete (so : SetOrder (List T)) (gs : Bool) (hMax cc smax : Nat) (hcc : 1 ≤ cc) (omega : Op)
    (L : List Term) (hL : termsFor so false gs hMax cc smax omega = .ok L)
    (hm hn : Nat) (hh : hm + hn ≤ hMax) (ts : List T) (hlen : ts.length ≤ smax)
    (hc : IsContraction cc gs omega.m omega.n hm hn ts) :
    ∃ t ∈ L, t.h.m = hm ∧ t.h.n = hn ∧ (amplitudes t).Perm ts := by
  rw [termsFor_eq so false gs hMax cc smax hcc omega] at hL
  cases hL
  obtain ⟨hall, hpairs⟩ := hc
  have hH : (⟨hm + hn, hm, hn⟩ : HOp) ∈ hamiltonian hMax := mem_hamiltonian.2 ⟨rfl, hh⟩
  by_cases hk : ts = []
  · subst hk
    have hz : ∃ a b, Pairs omega.m omega.n hm hn [⟨0, 0, 0, 0⟩] a b := by simpa [Pairs] using hpairs
    obtain ⟨hf, hmt⟩ := (pairs_iff (h := ⟨hm + hn, hm, hn⟩)).1 hz
    refine ⟨mkTerm omega ⟨hm + hn, hm, hn⟩ [⟨0, 0, 0, 0⟩], ?_, rfl, rfl, ?_⟩
    · rw [mem_termList]
      refine ⟨0, by omega, _, hH, _, ?_, rfl, by simp⟩
      rw [mem_survivors_order]
      exact ⟨rfl, hf, hmt, Or.inl ⟨rfl, rfl⟩⟩
    · rw [amplitudes_mkTerm, if_pos rfl]
  · have hk1 : 1 ≤ ts.length := by
      cases ts with
      | nil => exact absurd rfl hk
      | cons a l => simp
    obtain ⟨a, b, hab⟩ := hpairs
    obtain ⟨hf, hmt⟩ := (pairs_iff (h := ⟨hm + hn, hm, hn⟩)).1 ⟨a, b, pairs_perm (sortT_perm ts).symm hab⟩
    have hall' := AmpAllowed.perm_all (sortT_perm ts).symm hall
    refine ⟨mkTerm omega ⟨hm + hn, hm, hn⟩ (sortT ts), ?_, rfl, rfl, ?_⟩
    · rw [mem_termList]
      refine ⟨ts.length, hlen, _, hH, _, ?_, rfl, by simp⟩
      rw [mem_survivors_order]
      refine ⟨sortT_idem _, hf, hmt, Or.inr ⟨hk1, ?_, hall'⟩⟩
      exact (sortT_perm ts).length_eq
    · rw [amplitudes_mkTerm, amplitudes_of_allowed hall']
      exact sortT_perm ts

/-- Two terms describe the same contraction. -/
def SameContraction (s t : Term) : Prop :=
  s.h.m = t.h.m ∧ s.h.n = t.h.n ∧ (amplitudes s).Perm (amplitudes t)

/-- C14: no two generated terms (at different places of the list) describe the same contraction. -/
theorem terms_unique (so : SetOrder (List T)) (rf gs : Bool) (hMax cc smax : Nat) (hcc : 1 ≤ cc) (omega : Op)
    (L : List Term) (hL : termsFor so rf gs hMax cc smax omega = .ok L) :
    L.Pairwise fun s t => ¬ SameContraction s t := by
  rw [termsFor_eq so rf gs hMax cc smax hcc omega] at hL
  cases hL
  have key : ∀ (k : Nat) (h : HOp) (ts : List T), ts ∈ survivors so omega (orderSeries cc gs k) h →
      sortT ts = ts ∧ (amplitudes (mkTerm omega h ts)).length = k ∧
      ((k = 0 ∧ ts = [⟨0, 0, 0, 0⟩]) ∨ amplitudes (mkTerm omega h ts) = ts) := by
    intro k h ts hts
    obtain ⟨h1, _, _, h4⟩ := mem_survivors_order.1 hts
    rw [amplitudes_mkTerm]
    rcases h4 with ⟨rfl, rfl⟩ | ⟨hk, hl, ha⟩
    · exact ⟨h1, rfl, Or.inl ⟨rfl, rfl⟩⟩
    · rw [amplitudes_of_allowed ha]
      exact ⟨h1, hl, Or.inr rfl⟩
  unfold termList
  rw [List.pairwise_flatMap]
  refine ⟨?_, ?_⟩
  · intro k _
    rw [List.pairwise_flatMap]
    refine ⟨?_, ?_⟩
    · intro h _
      refine List.Pairwise.filter _ ?_
      rw [List.pairwise_map]
      refine List.Pairwise.imp_of_mem ?_ (nodup_survivors so omega (orderSeries cc gs k) h)
      intro a b ha hb hne hsame
      obtain ⟨a1, a2, a3⟩ := key k h a ha
      obtain ⟨b1, b2, b3⟩ := key k h b hb
      have hp := hsame.2.2
      rcases a3 with ⟨rfl, rfl⟩ | a3
      · rcases b3 with ⟨_, rfl⟩ | b3
        · exact hne rfl
        · rw [b3] at b2
          have : b = [] := List.length_eq_zero_iff.1 b2
          subst this
          obtain ⟨_, _, _, h4⟩ := mem_survivors_order.1 hb
          rcases h4 with ⟨_, h⟩ | ⟨h, _⟩
          · cases h
          · omega
      · rcases b3 with ⟨rfl, rfl⟩ | b3
        · rw [a3] at a2
          have : a = [] := List.length_eq_zero_iff.1 a2
          subst this
          obtain ⟨_, _, _, h4⟩ := mem_survivors_order.1 ha
          rcases h4 with ⟨_, h⟩ | ⟨h, _⟩
          · cases h
          · omega
        · rw [a3, b3] at hp
          apply hne
          rw [← a1, ← b1, sortT_eq_iff]; exact hp
    · have hH := hamiltonian_keys_nodup hMax
      rw [List.Nodup, List.pairwise_map] at hH
      refine hH.imp ?_
      intro h h' hne
      intro x hx y hy hsame
      rw [List.mem_filter, List.mem_map] at hx hy
      obtain ⟨⟨ts, _, rfl⟩, _⟩ := hx
      obtain ⟨⟨ts', _, rfl⟩, _⟩ := hy
      exact hne (Prod.ext hsame.1 hsame.2.1)
  · refine (List.nodup_range (n := smax + 1)).imp ?_
    intro k k' hne
    intro x hx y hy hsame
    rw [List.mem_flatMap] at hx hy
    obtain ⟨h, _, hx⟩ := hx
    obtain ⟨h', _, hy⟩ := hy
    rw [List.mem_filter, List.mem_map] at hx hy
    obtain ⟨⟨ts, hts, rfl⟩, _⟩ := hx
    obtain ⟨⟨ts', hts', rfl⟩, _⟩ := hy
    have h1 := (key k h ts hts).2.1
    have h2 := (key k' h' ts' hts').2.1
    have := hsame.2.2.length_eq
    exact hne (by omega)

/-- C16: with f-term removal, the generated terms are exactly those generated without it in which no
creation operator of `Omega` is paired with `h`, in the same order. -/
theorem remove_f_exact (so : SetOrder (List T)) (gs : Bool) (hMax cc smax : Nat) (hcc : 1 ≤ cc) (omega : Op)
    (L L' : List Term) (hL : termsFor so false gs hMax cc smax omega = .ok L)
    (hL' : termsFor so true gs hMax cc smax omega = .ok L') :
    L' = L.filter fun t => decide (t.omega.m = (t.ts.map T.n_o).sum) := by
  have hsound := fun t ht => terms_sound so false gs hMax cc smax hcc omega L hL t ht
  rw [termsFor_eq so false gs hMax cc smax hcc omega] at hL
  rw [termsFor_eq so true gs hMax cc smax hcc omega] at hL'
  cases hL; cases hL'
  have h1 : termList so true gs hMax cc smax omega =
      (termList so false gs hMax cc smax omega).filter fun t => decide (t.omega.m_h = 0) := by
    unfold termList
    simp only [List.filter_flatMap, List.filter_filter]
    simp
  rw [h1]
  refine List.filter_congr ?_
  intro t ht
  obtain ⟨_, _, _, _, _, hp, _⟩ := hsound t ht
  have hs : ((amplitudes t).map T.n_o).sum = (t.ts.map T.n_o).sum := by
    unfold amplitudes; split
    · next e => rw [e]; rfl
    · rfl
  have := hp.2.2.2
  rw [hs] at this
  by_cases hz : t.omega.m_h = 0
  · simp [hz]; omega
  · simp [hz]; omega

/-! ## C17: classification -/

theorem classifyLoop_ok {o : OmegaC} {flag : Bool} {l : List T} {c : Cls} (h : classifyLoop o flag l = .ok c) :
    (c = .unlinked ↔ ∃ x ∈ l, TakesAllOfOmega o.m o.n x) ∧
    (c = .fully ↔ flag = false ∧ ∀ x ∈ l, TouchesH x) := by
  induction l generalizing flag with
  | nil =>
    simp only [classifyLoop] at h
    cases h
    cases flag <;> simp
  | cons s l ih =>
    unfold classifyLoop at h
    by_cases hc : s.isConnected = true
    · rw [if_pos hc] at h
      obtain ⟨i1, i2⟩ := ih h
      have ht : TouchesH s := by
        simp only [T.isConnected, Bool.not_eq_true', Bool.and_eq_false_iff, beq_eq_false_iff_ne] at hc
        unfold TouchesH; omega
      have hn : ¬ TakesAllOfOmega o.m o.n s := by
        rintro ⟨a, b, _⟩; unfold TouchesH at ht; omega
      simp only [List.mem_cons, exists_eq_or_imp, forall_eq_or_imp, hn, false_or, ht, true_and]
      exact ⟨i1, i2⟩
    · rw [if_neg hc] at h
      have hz : s.m_h = 0 ∧ s.n_h = 0 := by
        simpa [T.isConnected] using hc
      have ht : ¬ TouchesH s := by unfold TouchesH; omega
      by_cases hu : s.m_o = o.n ∧ s.n_o = o.m
      · rw [if_pos hu] at h
        cases h
        have : TakesAllOfOmega o.m o.n s := ⟨hz.1, hz.2, hu.1, hu.2⟩
        simp [this, ht]
      · rw [if_neg hu] at h
        split at h
        · cases h
        · obtain ⟨i1, i2⟩ := ih h
          have hn : ¬ TakesAllOfOmega o.m o.n s := by
            rintro ⟨_, _, a, b⟩; exact hu ⟨a, b⟩
          simp only [List.mem_cons, exists_eq_or_imp, forall_eq_or_imp, hn, false_or, ht, false_and, and_false,
            iff_false]
          exact ⟨i1, by simpa using i2⟩

theorem classify_ok {t : Term} {c : Cls} (h : classify t = .ok c) :
    (c = .unlinked ↔ Unlinked t) ∧ (c = .fully ↔ FullyConnected t) ∧ (c = .linked ↔ Linked t) := by
  have hUF : (c = .unlinked ↔ Unlinked t) ∧ (c = .fully ↔ FullyConnected t) := by
    unfold classify at h
    unfold Unlinked FullyConnected amplitudes
    split at h
    · next e => rw [if_pos e]; cases h; simp
    · next e =>
      rw [if_neg e]
      obtain ⟨h1, h2⟩ := classifyLoop_ok h
      exact ⟨h1, by simpa using h2⟩
  refine ⟨hUF.1, hUF.2, ?_⟩
  unfold Linked
  rw [← hUF.1, ← hUF.2]
  cases c <;> simp

/-- C17: the three groups are exactly the fully connected, linked and unlinked terms of the list, in
the original order. -/
theorem separate_exact (l f k u : List Term) (h : separate l = .ok (f, k, u)) :
    f = l.filter (fun t => decide (FullyConnected t)) ∧ k = l.filter (fun t => decide (Linked t)) ∧
      u = l.filter (fun t => decide (Unlinked t)) := by
  induction l generalizing f k u with
  | nil => cases h; exact ⟨rfl, rfl, rfl⟩
  | cons t l ih =>
    unfold separate at h
    split at h
    · cases h
    · next c hc =>
      obtain ⟨c1, c2, c3⟩ := classify_ok hc
      split at h
      · cases h
      · next f' k' u' hs =>
        obtain ⟨i1, i2, i3⟩ := ih f' k' u' hs
        cases c with
        | fully =>
          cases h
          have a1 : FullyConnected t := c2.1 rfl
          have a2 : ¬ Linked t := fun hh => by cases c3.2 hh
          have a3 : ¬ Unlinked t := fun hh => by cases c1.2 hh
          simp [a1, a2, a3, ← i1, ← i2, ← i3]
        | linked =>
          cases h
          have a1 : ¬ FullyConnected t := fun hh => by cases c2.2 hh
          have a2 : Linked t := c3.1 rfl
          have a3 : ¬ Unlinked t := fun hh => by cases c1.2 hh
          simp [a1, a2, a3, ← i1, ← i2, ← i3]
        | unlinked =>
          cases h
          have a1 : ¬ FullyConnected t := fun hh => by cases c2.2 hh
          have a2 : ¬ Linked t := fun hh => by cases c3.2 hh
          have a3 : Unlinked t := c1.1 rfl
          simp [a1, a2, a3, ← i1, ← i2, ← i3]

theorem classifyLoop_total {o : OmegaC} {flag : Bool} {l : List T}
    (h : o.rank = 1 → ∀ x ∈ l, TouchesH x ∨ TakesAllOfOmega o.m o.n x) : ∃ c, classifyLoop o flag l = .ok c := by
  induction l generalizing flag with
  | nil => exact ⟨_, rfl⟩
  | cons s l ih =>
    have hl := fun hr x hx => h hr x (List.mem_cons_of_mem _ hx)
    unfold classifyLoop
    split
    · exact ih hl
    · next hc =>
      split
      · exact ⟨_, rfl⟩
      · next hu =>
        split
        · next hr =>
          exfalso
          have hz : s.m_h = 0 ∧ s.n_h = 0 := by simpa [T.isConnected] using hc
          rcases h hr s (by simp) with ht | ⟨_, _, a, b⟩
          · unfold TouchesH at ht; omega
          · exact hu ⟨a, b⟩
        · exact ih hl

theorem sum_ge_mem {l : List T} {f : T → Nat} {x : T} (h : x ∈ l) : f x ≤ (l.map f).sum :=
  List.le_sum_of_mem (List.mem_map_of_mem h)

/-- C15: classification of generated terms raises no exception (a linear projection never meets a
linked disconnected term). -/
theorem separate_ok (so : SetOrder (List T)) (rf gs : Bool) (hMax cc smax : Nat) (hcc : 1 ≤ cc) (omega : Op)
    (L : List Term) (hL : termsFor so rf gs hMax cc smax omega = .ok L) :
    ∃ f k u, separate L = .ok (f, k, u) := by
  have hcl : ∀ t ∈ L, ∃ c, classify t = .ok c := by
    intro t ht
    obtain ⟨_, _, _, _, ⟨hall, _⟩, hp, _, _, _, _, _, _, hr, _⟩ :=
      terms_sound so rf gs hMax cc smax hcc omega L hL t ht
    unfold classify
    split
    · exact ⟨_, rfl⟩
    · next e =>
      have ha : amplitudes t = t.ts := by unfold amplitudes; rw [if_neg e]
      rw [ha] at hall hp
      refine classifyLoop_total ?_
      intro hr1 x hx
      have h1 := sum_ge_mem (f := T.m_o) hx
      have h2 := sum_ge_mem (f := T.n_o) hx
      obtain ⟨_, p2, _, p4⟩ := hp
      obtain ⟨a1, _, _⟩ := hall x hx
      unfold ampRank at a1
      unfold TouchesH TakesAllOfOmega
      omega
  clear hL
  induction L with
  | nil => exact ⟨_, _, _, rfl⟩
  | cons t l ih =>
    obtain ⟨c, hc⟩ := hcl t (by simp)
    obtain ⟨f, k, u, hs⟩ := ih (fun x hx => hcl x (by simp [hx]))
    unfold separate
    rw [hc, hs]
    cases c <;> exact ⟨_, _, _, rfl⟩

/-- A term is in exactly one group. -/
theorem classes_disjoint (t : Term) :
    (FullyConnected t ∨ Linked t ∨ Unlinked t) ∧ ¬ (FullyConnected t ∧ Unlinked t) ∧
      ¬ (FullyConnected t ∧ Linked t) ∧ ¬ (Linked t ∧ Unlinked t) := by
  refine ⟨?_, ?_, fun h => h.2.1 h.1, fun h => h.1.2 h.2⟩
  · by_cases h1 : FullyConnected t
    · exact Or.inl h1
    · by_cases h2 : Unlinked t
      · exact Or.inr (Or.inr h2)
      · exact Or.inr (Or.inl ⟨h1, h2⟩)
  · rintro ⟨h1, x, hx, hz1, hz2, _⟩
    have := h1 x hx
    unfold TouchesH at this
    omega

/-! ## Witnesses -/

/-- groups of the projection `bb` at `H=2, CC=2, S=2`: all three are inhabited -/
example : (match termsFor (SetOrder.std _) false true 2 2 2 ⟨"bb", 2, 0, 2⟩ with
    | .ok L => (match separate L with
      | .ok (f, k, u) => [f.length, k.length, u.length]
      | .error _ => [])
    | .error _ => []) = [3, 4, 3] := by decide +kernel

/-- f-term removal removes something for the projection `db` -/
example : (termsFor (SetOrder.std _) true false 2 2 2 ⟨"db", 2, 1, 1⟩).map List.length ≠
    (termsFor (SetOrder.std _) false false 2 2 2 ⟨"db", 2, 1, 1⟩).map List.length := by decide +kernel

/-- the projection `b` at full-CC truncations `H=2, CC=2, S=2`: 7 ground-state terms -/
example : (termsFor (SetOrder.std _) false true 2 2 2 ⟨"b", 1, 0, 1⟩).map List.length = .ok 7 := by decide +kernel

example : IsContraction 2 true 0 1 0 2 [⟨1, 0, 0, 0⟩, ⟨1, 0, 1, 0⟩] :=
  ⟨by decide, 0, 0, by decide⟩

end TF.CC
