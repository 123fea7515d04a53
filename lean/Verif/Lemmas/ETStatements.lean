import Verif.Lemmas.ETModule

/-! # Lemmas about the Python code of the e^T z_t equations: the statements of a part -/

namespace TF.ETPy

open TF.Py
open TF.CC (Op HOp Series summationIdx unlinkedIdx collect collect_ok_of collect_ok_iff omegaOps omegaOps_exact omegaOps_nodup)
open TF.ET (Mode Term Dist GoodDist lenOf rankOf termOf termsAt taking mem_taking groundZ seriesOf filterTerms filterTerms_eq mem_termsAt eTaylor eTaylor_one
  tableOf distOf uniform_self uniform_tFactors good_distOf)
open TF.Spec.ET TF.Spec.ETPy

theorem mem_termsAt' {p : Op} (hp : p.m = 0) {cc k : Nat} {h : HOp} {t : Term} :
    t ∈ termsAt p (Zhz.zOps cc true) k h ↔ ∃ z ∈ Zhz.zOps cc true, ∃ c, Contraction p k h z c ∧
      t = termOf p.n h (lenOf k) (rankOf k) z (distOf c) := by
  have hlen := (uniform_tFactors k).len
  rw [mem_termsAt hp (groundZ cc)]
  constructor
  · rintro ⟨z, hz, d, g, hb, hd, rfl⟩
    have hzn := (groundZ cc).n z hz
    have hts := g.len
    rw [← TF.ET.lenOf_mul k] at hb
    rw [← hlen] at g hb
    refine ⟨z, hz, _, TF.ET.isPairing_tableOf hp (uniform_self k) hzn g hb hd, ?_⟩
    congr 1
    have h1 := TF.ET.finRange_getD d.ts (hts.trans hlen.symm)
    have h2 := g.other
    cases d
    simp only [distOf, tableOf, Dist.mk.injEq] at h1 h2 hd ⊢
    exact ⟨trivial, h1.symm, hd, h2⟩
  · rintro ⟨z, hz, c, hc, rfl⟩
    have hzn := (groundZ cc).n z hz
    obtain ⟨g, hb, hd, _⟩ := good_distOf (contraction_facts hp hzn hc)
    refine ⟨z, hz, distOf c, hlen ▸ g, ?_, hd, rfl⟩
    rwa [hlen, TF.ET.lenOf_mul] at hb

/-- Enough letters: h has at most two creation operators and z at most six operators. -/
theorem capacity {hMax cc : Nat} (hcc : cc ≤ 6) {h : HOp} (hh : h ∈ Zhz.prunedH hMax) {z : Op} (hz : z ∈ Zhz.zOps cc true) {N k j hl zl : Nat}
    (n : Nums N k h.m h.n z.m j hl zl) : k + h.n ≤ 10 := by
  have h1 := Zhz.mem_prunedH.1 hh
  have h2 := Zhz.mem_zOps hz
  have n1 := n.le
  have n2 := n.onH
  have n3 := n.onZ
  omega

theorem entries_termOf {mode : Mode} {p : Op} (hp : p.m = 0) (hN : p.n ≤ 6) {hMax cc : Nat} (hcc : cc ≤ 6) {h : HOp}
    (hh : h ∈ taking mode (Zhz.prunedH hMax)) {z : Op} (hz : z ∈ Zhz.zOps cc true) {k : Nat} {c : Pl k → Pl k → Nat} (hc : Contraction p k h z c) :
    ∃ n, entriesOf mode (termOf p.n h (lenOf k) (rankOf k) z (distOf c)) =
      .ok (List.replicate (n + 1) (entryOf mode p.n k h z (classOf c) (c .h .lhs))) := by
  have hlen := (uniform_tFactors k).len
  have hzn := (groundZ cc).n z hz
  have f := contraction_facts hp hzn hc
  have n := nums_of_facts f
  obtain ⟨g, hb, hd, _⟩ := good_distOf f
  have hb' : TF.ET.Balanced p.n h k z.m := by rwa [hlen, TF.ET.lenOf_mul] at hb
  obtain ⟨hh1, hh2⟩ := mem_taking.1 hh
  have := (entriesOf_eq (mode := mode) (hlen ▸ g) hb' hd hzn ((groundZ cc).rank z hz) hh2 (capacity hcc hh1 hz n) (by omega)).2
  have e1 : (distOf c).ts.sum = classOf c := rfl
  have e2 : p.n - (distOf c).lhs = c .h .lhs := by
    have := f.lhs_col
    simp only [distOf]
    omega
  rw [e1, e2] at this
  exact this

theorem isDerivative_termOf (N : Nat) (h : HOp) (L e : Nat) (z : Op) (d : Dist) :
    isDerivative (termOf N h L e z d) = true ↔ (h.m = 0 ∧ h.n = 0) ∧ z.m = N := by
  unfold isDerivative
  rw [Bool.and_eq_true, decide_eq_true_eq, decide_eq_true_eq]
  show h.m + h.n = 0 ∧ z.m = N ↔ _
  omega

theorem eraseP_eq_filter {α : Type} (q : α → Bool) : ∀ l : List α, l.Nodup → (∀ a ∈ l, ∀ b ∈ l, q a = true → q b = true → a = b) →
    l.eraseP q = l.filter fun a => !q a
  | [], _, _ => rfl
  | a :: l, hn, h => by
    rw [List.nodup_cons] at hn
    by_cases hq : q a = true
    · rw [List.eraseP_cons_of_pos hq, List.filter_cons_of_neg (by simp [hq])]
      refine (List.filter_eq_self.2 ?_).symm
      intro b hb
      by_contra hcon
      have := h a (by simp) b (List.mem_cons_of_mem _ hb) hq (by simpa using hcon)
      exact hn.1 (this ▸ hb)
    · rw [List.eraseP_cons_of_neg hq, List.filter_cons_of_pos (by simpa using hq),
        eraseP_eq_filter q l hn.2 (fun a ha b hb => h a (List.mem_cons_of_mem _ ha) b (List.mem_cons_of_mem _ hb))]

theorem mem_zeroTerms {mode : Mode} {hMax cc : Nat} {p : Op} (hp : p.m = 0) {t : Term} :
    t ∈ zeroTerms mode hMax cc p ↔ ∃ h ∈ taking mode (Zhz.prunedH hMax), ∃ z ∈ Zhz.zOps cc true, ∃ c, Contraction p 0 h z c ∧
      ¬ IsDerivative p 0 h z ∧ t = termOf p.n h (lenOf 0) (rankOf 0) z (distOf c) := by
  unfold zeroTerms
  have hnd : ((taking mode (Zhz.prunedH hMax)).flatMap (termsAt p (Zhz.zOps cc true) 0)).Nodup := by
    have := TF.ET.nodup_all hp (groundZ cc) (TF.ET.taking_nodup (mode := mode) (Zhz.prunedH_keys_nodup hMax)) 0
    simpa using this
  rw [eraseP_eq_filter _ _ hnd]
  · simp only [List.mem_filter, List.mem_flatMap, mem_termsAt' hp]
    constructor
    · rintro ⟨⟨h, hh, z, hz, c, hc, rfl⟩, hd⟩
      refine ⟨h, hh, z, hz, c, hc, ?_, rfl⟩
      rintro ⟨_, h1, h2, h3⟩
      rw [(isDerivative_termOf _ _ _ _ _ _).2 ⟨⟨h1, h2⟩, h3⟩] at hd
      simp at hd
    · rintro ⟨h, hh, z, hz, c, hc, hd, rfl⟩
      refine ⟨⟨h, hh, z, hz, c, hc, rfl⟩, ?_⟩
      rw [Bool.not_eq_true', ← Bool.not_eq_true, isDerivative_termOf]
      rintro ⟨⟨h1, h2⟩, h3⟩
      exact hd ⟨rfl, h1, h2, h3⟩
  · intro a ha b hb qa qb
    simp only [List.mem_flatMap, mem_termsAt' hp] at ha hb
    obtain ⟨h, hh, z, hz, c, hc, rfl⟩ := ha
    obtain ⟨h', hh', z', hz', c', hc', rfl⟩ := hb
    rw [isDerivative_termOf] at qa qb
    obtain ⟨⟨a1, a2⟩, a3⟩ := qa
    obtain ⟨⟨b1, b2⟩, b3⟩ := qb
    have hheq : h = h' := TF.ET.HOp_key (TF.ET.taking_nodup (mode := mode) (Zhz.prunedH_keys_nodup hMax)) hh hh' (by simp [a1, a2, b1, b2])
    have hzeq : z = z' := List.inj_on_of_nodup_map (groundZ cc).nodup hz hz' (a3.trans b3.symm)
    subst hheq hzeq
    have hzn := (groundZ cc).n z hz
    have f := contraction_facts hp hzn hc
    have f' := contraction_facts hp hzn hc'
    have n := nums_of_facts f
    have n' := nums_of_facts f'
    congr 1
    have e1 : c .z .lhs = c' .z .lhs := by
      have := n.onZ; have := n'.onZ; have := n.le; have := n'.le; omega
    have e2 : c .z .h = c' .z .h := by rw [f.h_col, f'.h_col]
    have e3 : ∀ i, c .z (.t i) = c' .z (.t i) := by
      intro i
      have h1 := f.t_col i
      have h2 := f'.t_col i
      have h3 : rankOf 0 = 0 := rfl
      omega
    simp only [distOf, e1, e2, e3]

theorem mem_tTerms {mode : Mode} {hMax cc K : Nat} {p : Op} (hp : p.m = 0) {t : Term} :
    t ∈ tTerms mode hMax cc K p ↔ ∃ k, 1 ≤ k ∧ k ≤ K ∧ ∃ h ∈ taking mode (Zhz.prunedH hMax), ∃ z ∈ Zhz.zOps cc true, ∃ c, Contraction p k h z c ∧
      t = termOf p.n h (lenOf k) (rankOf k) z (distOf c) := by
  unfold tTerms
  simp only [List.mem_flatMap, List.mem_range, mem_termsAt' hp]
  constructor
  · rintro ⟨k, hk, h, hh, z, hz, c, hc, rfl⟩
    exact ⟨k + 1, by omega, by omega, h, hh, z, hz, c, hc, rfl⟩
  · rintro ⟨k, h1, h2, h, hh, z, hz, c, hc, rfl⟩
    obtain ⟨k, rfl⟩ : ∃ i, k = i + 1 := ⟨k - 1, by omega⟩
    exact ⟨k, by omega, h, hh, z, hz, c, hc, rfl⟩

/-- The entries that order `k` contributes. -/
def EntryAt (mode : Mode) (hMax cc : Nat) (p : Op) (k : Nat) (e : Entry) : Prop :=
  ∃ h ∈ taking mode (Zhz.prunedH hMax), ∃ z ∈ Zhz.zOps cc true, ∃ c, Contraction p k h z c ∧ ¬ IsDerivative p k h z ∧
    e = entryOf mode p.n k h z (classOf c) (c .h .lhs)

/-- The terms of a part: those of the orders in `S`. -/
structure Covers (mode : Mode) (hMax cc : Nat) (p : Op) (S : Nat → Prop) (ts : List Term) : Prop where
  mem : ∀ t, t ∈ ts ↔ ∃ k, S k ∧ ∃ h ∈ taking mode (Zhz.prunedH hMax), ∃ z ∈ Zhz.zOps cc true, ∃ c, Contraction p k h z c ∧ ¬ IsDerivative p k h z ∧
    t = termOf p.n h (lenOf k) (rankOf k) z (distOf c)

theorem covers_zero {mode : Mode} {hMax cc : Nat} {p : Op} (hp : p.m = 0) : Covers mode hMax cc p (fun k => k = 0) (zeroTerms mode hMax cc p) := by
  refine ⟨fun t => ?_⟩
  rw [mem_zeroTerms hp]
  constructor
  · intro h; exact ⟨0, rfl, h⟩
  · rintro ⟨k, rfl, h⟩; exact h

theorem covers_t {mode : Mode} {hMax cc K : Nat} {p : Op} (hp : p.m = 0) :
    Covers mode hMax cc p (fun k => 1 ≤ k ∧ k ≤ K) (tTerms mode hMax cc K p) := by
  refine ⟨fun t => ?_⟩
  rw [mem_tTerms hp]
  constructor
  · rintro ⟨k, h1, h2, h, hh, z, hz, c, hc, rfl⟩
    exact ⟨k, ⟨h1, h2⟩, h, hh, z, hz, c, hc, fun hd => by have := hd.1; omega, rfl⟩
  · rintro ⟨k, ⟨h1, h2⟩, h, hh, z, hz, c, hc, _, rfl⟩
    exact ⟨k, h1, h2, h, hh, z, hz, c, hc, rfl⟩

/-- the strings of a term, when there is no error -/
def entriesOr (mode : Mode) (t : Term) : List Entry := match entriesOf mode t with | .ok l => l | .error _ => []

section
variable {mode : Mode} {hMax cc : Nat} {p : Op} {S : Nat → Prop} {ts : List Term}

theorem Covers.entries (cv : Covers mode hMax cc p S ts) (hp : p.m = 0) (hN : p.n ≤ 6) (hcc : cc ≤ 6) :
    (∀ t ∈ ts, entriesOf mode t = .ok (entriesOr mode t)) ∧
    ∀ e, e ∈ ts.flatMap (entriesOr mode) ↔ ∃ k, S k ∧ EntryAt mode hMax cc p k e := by
  constructor
  · intro t ht
    obtain ⟨k, _, h, hh, z, hz, c, hc, _, rfl⟩ := (cv.mem t).1 ht
    obtain ⟨n, hn⟩ := entries_termOf hp hN hcc hh hz hc
    unfold entriesOr
    rw [hn]
  · intro e
    rw [List.mem_flatMap]
    constructor
    · rintro ⟨t, ht, he⟩
      obtain ⟨k, hk, h, hh, z, hz, c, hc, hd, rfl⟩ := (cv.mem t).1 ht
      obtain ⟨n, hn⟩ := entries_termOf hp hN hcc hh hz hc
      unfold entriesOr at he
      rw [hn] at he
      exact ⟨k, hk, h, hh, z, hz, c, hc, hd, List.eq_of_mem_replicate he⟩
    · rintro ⟨k, hk, h, hh, z, hz, c, hc, hd, rfl⟩
      obtain ⟨n, hn⟩ := entries_termOf hp hN hcc hh hz hc
      refine ⟨_, (cv.mem _).2 ⟨k, hk, h, hh, z, hz, c, hc, hd, rfl⟩, ?_⟩
      unfold entriesOr
      rw [hn]
      simp

theorem entryAt_facts {k : Nat} {e : Entry} (h : EntryAt mode hMax cc p k e) :
    e.hRank ≤ hMax ∧ e.tRank ≤ 1 ∧ e.zRank ≤ cc ∧ e.tRank = rankOf k := by
  obtain ⟨h, hh, z, hz, c, hc, _, rfl⟩ := h
  have h1 := Zhz.mem_prunedH.1 (mem_taking.1 hh).1
  have h2 := Zhz.mem_zOps hz
  have h3 := rank_le k
  refine ⟨?_, h3, ?_, rfl⟩
  · show max h.m h.n ≤ hMax
    omega
  · show z.m ≤ cc
    omega

theorem textInj_of {es : List Entry} (hp : p.m = 0) (hcc : cc ≤ 6)
    (he : ∀ e ∈ es, ∃ k, EntryAt mode hMax cc p k e) : TextInj es := by
  intro a ha b hb hh hz hr
  obtain ⟨k, h, hh1, z, hz1, c, hc, _, rfl⟩ := he a ha
  obtain ⟨k', h', hh2, z', hz2, c', hc', _, rfl⟩ := he b hb
  have n := nums_of_facts (contraction_facts hp ((groundZ cc).n z hz1) hc)
  have n' := nums_of_facts (contraction_facts hp ((groundZ cc).n z' hz2) hc')
  obtain ⟨t1, t2⟩ := mem_taking.1 hh1
  obtain ⟨t1', t2'⟩ := mem_taking.1 hh2
  obtain ⟨e1, e2, e3, e4, e5⟩ := render_inj (mode := mode) n n' (capacity hcc t1 hz1 n) (capacity hcc t1' hz2 n') t2 t2' hh hz hr
  have hheq : h = h' := TF.ET.HOp_key (Zhz.prunedH_keys_nodup hMax) t1 t1' (by simp [e2, e3])
  have hzeq : z = z' := List.inj_on_of_nodup_map (groundZ cc).nodup hz1 hz2 hz
  subst e1 hheq hzeq
  simp only [entryOf, e4, e5]

/-- The statements of a part. -/
theorem Covers.statements (cv : Covers mode hMax cc p S ts) (hp : p.m = 0) (hN : p.n ≤ 6) (hcc : cc ≤ 6) (hcc1 : 1 ≤ cc) {q : Part}
    (hw : write hMax cc mode ts = .ok q) :
    (TF.Spec.ETPy.statements q).Nodup ∧ ∀ e, e ∈ TF.Spec.ETPy.statements q ↔ ∃ k, S k ∧ EntryAt mode hMax cc p k e := by
  obtain ⟨hf, hm⟩ := cv.entries hp hN hcc
  by_cases hne : ts = []
  · subst hne
    simp only [write, if_true, Except.ok.injEq] at hw
    subst hw
    refine ⟨List.nodup_nil, fun e => ?_⟩
    rw [← hm e]
    rfl
  · obtain ⟨h6, hz⟩ := write_of_ok hne hf hw
    have hfe : ∀ t ∈ ts, ∀ e ∈ entriesOr mode t, ∃ k, S k ∧ EntryAt mode hMax cc p k e := fun t ht e he =>
      (hm e).1 (List.mem_flatMap.2 ⟨t, ht, he⟩)
    have heq := write_eq (cc := cc) hne hf h6 (by
      intro t ht e he
      obtain ⟨k, _, hk⟩ := hfe t ht e he
      have := entryAt_facts hk
      exact hz t ht e he this.1 (by omega)) (by
      intro t ht e he
      obtain ⟨k, _, hk⟩ := hfe t ht e he
      have := entryAt_facts hk
      omega)
    rw [heq] at hw
    injection hw with hw
    subst hw
    obtain ⟨s1, s2⟩ := statements_code (hMax := hMax) (cc := cc) (textInj_of (es := ts.flatMap (entriesOr mode)) hp hcc (fun e he => by
      obtain ⟨k, _, hk⟩ := (hm e).1 he
      exact ⟨k, hk⟩))
    refine ⟨s1, fun e => ?_⟩
    rw [s2 e, hm e]
    constructor
    · exact fun h => h.1
    · intro h
      obtain ⟨k, _, hk⟩ := id h
      have := entryAt_facts hk
      exact ⟨h, this.1, by omega⟩

/-- When a part can be written. -/
theorem Covers.ok_iff (cv : Covers mode hMax cc p S ts) (hp : p.m = 0) (hN : p.n ≤ 6) (hcc : cc ≤ 6) (hcc1 : 1 ≤ cc) :
    (∃ q, write hMax cc mode ts = .ok q) ↔ ts = [] ∨ (hMax < 6 ∧ ∀ k, S k → ∀ e, EntryAt mode hMax cc p k e → e.zRank < 6) := by
  obtain ⟨hf, hm⟩ := cv.entries hp hN hcc
  by_cases hne : ts = []
  · simp [hne, write]
  · simp only [hne, false_or]
    constructor
    · rintro ⟨q, hw⟩
      obtain ⟨h6, hz⟩ := write_of_ok hne hf hw
      refine ⟨h6, fun k hk e he => ?_⟩
      obtain ⟨t, ht, het⟩ := List.mem_flatMap.1 ((hm e).2 ⟨k, hk, he⟩)
      have := entryAt_facts he
      exact hz t ht e het this.1 (by omega)
    · rintro ⟨h6, hz⟩
      refine ⟨_, write_eq (cc := cc) hne hf h6 ?_ ?_⟩
      · intro t ht e he
        obtain ⟨k, hS, hk⟩ := (hm e).1 (List.mem_flatMap.2 ⟨t, ht, he⟩)
        exact hz k hS e hk
      · intro t ht e he
        obtain ⟨k, hS, hk⟩ := (hm e).1 (List.mem_flatMap.2 ⟨t, ht, he⟩)
        have := entryAt_facts hk
        omega

end

/-- The statements of both parts of a projection operator. -/
theorem statements_parts {mode : Mode} {hMax cc K : Nat} {p : Op} (hp : p.m = 0) (hN : p.n ≤ 6) (hcc : cc ≤ 6) (hcc1 : 1 ≤ cc)
    {g : Part × Part} (hg : partsOf mode hMax cc K p = .ok g) :
    (statements g.1).Nodup ∧ (statements g.2).Nodup ∧
    (∀ e, e ∈ statements g.1 ↔ EntryAt mode hMax cc p 0 e) ∧
    (∀ e, e ∈ statements g.2 ↔ ∃ k, (1 ≤ k ∧ k ≤ K) ∧ EntryAt mode hMax cc p k e) := by
  have c0 := covers_zero (mode := mode) (hMax := hMax) (cc := cc) hp
  have c1 := covers_t (mode := mode) (hMax := hMax) (cc := cc) (K := K) hp
  rw [partsOf_eq hp] at hg
  split at hg
  · rename_i h
    injection hg with hg
    subst hg
    have m0 := (c0.entries hp hN hcc).2
    have m1 := (c1.entries hp hN hcc).2
    rw [h.1] at m0
    rw [h.2] at m1
    refine ⟨List.nodup_nil, List.nodup_nil, fun e => ?_, fun e => ?_⟩
    · have := m0 e
      simp only [List.flatMap_nil, exists_eq_left] at this
      exact this
    · exact m1 e
  · cases hw : write hMax cc mode (zeroTerms mode hMax cc p) with
    | error e => rw [hw] at hg; simp at hg
    | ok a =>
      rw [hw] at hg
      simp only at hg
      cases hw' : write hMax cc mode (tTerms mode hMax cc K p) with
      | error e => rw [hw'] at hg; simp at hg
      | ok b =>
        rw [hw'] at hg
        injection hg with hg
        subst hg
        obtain ⟨n0, m0⟩ := c0.statements hp hN hcc hcc1 hw
        obtain ⟨n1, m1⟩ := c1.statements hp hN hcc hcc1 hw'
        refine ⟨n0, n1, fun e => ?_, m1⟩
        have := m0 e
        simp only [exists_eq_left] at this
        exact this

theorem parts_ok_iff {mode : Mode} {hMax cc K : Nat} {p : Op} (hp : p.m = 0) (hN : p.n ≤ 6) (hcc : cc ≤ 6) (hcc1 : 1 ≤ cc) :
    (∃ g, partsOf mode hMax cc K p = .ok g) ↔
      (zeroTerms mode hMax cc p = [] ∨ (hMax < 6 ∧ ∀ e, EntryAt mode hMax cc p 0 e → e.zRank < 6)) ∧
      (tTerms mode hMax cc K p = [] ∨ (hMax < 6 ∧ ∀ k, (1 ≤ k ∧ k ≤ K) → ∀ e, EntryAt mode hMax cc p k e → e.zRank < 6)) := by
  have c0 := (covers_zero (mode := mode) (hMax := hMax) (cc := cc) hp).ok_iff hp hN hcc hcc1
  have c1 := (covers_t (mode := mode) (hMax := hMax) (cc := cc) (K := K) hp).ok_iff hp hN hcc hcc1
  simp only [forall_eq] at c0
  rw [← c0, ← c1, partsOf_eq hp]
  split
  · rename_i h
    rw [h.1, h.2]
    simp [write]
  · cases hw : write hMax cc mode (zeroTerms mode hMax cc p) with
    | error e => simp
    | ok a =>
      simp only
      cases hw' : write hMax cc mode (tTerms mode hMax cc K p) with
      | error e => simp
      | ok b => simp

end TF.ETPy
