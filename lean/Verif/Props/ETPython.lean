import Verif.Lemmas.ETStatements

/-!
# Properties of the Python code of the e^T z_t equations

C36 well-formed einsum strings; C37 (Python half) prefactors; C39 the shared operator lists; C61 every
contraction is added exactly once; C62 when generation succeeds; C63 the axes of h.

Supported truncations (truncations.py 15-34 with the checks of code_eT_zhz.py 1967-1981): `1 ≤ H`,
`1 ≤ CC ≤ 6`, `T = 1` and a Taylor order `K ≥ 1`.
-/

namespace TF.ETPy

open TF.Py
open TF.CC (Op HOp Series summationIdx unlinkedIdx collect collect_ok_of collect_ok_iff omegaOps omegaOps_exact omegaOps_nodup omegaOps_sorted)
open TF.ET (Mode Term lenOf rankOf taking mem_taking groundZ)
open TF.Spec.ET TF.Spec.ETPy

/-! ## The functions -/

theorem mem_projections {cc pMax : Nat} {p : Op} (h : p ∈ projections cc pMax) : p.m = 0 ∧ p.rank = p.n ∧ p.n ≤ cc ∧ p.n ≤ pMax := by
  unfold projections at h
  rw [List.mem_filter, decide_eq_true_eq] at h
  obtain ⟨h1, h2⟩ := h
  obtain ⟨_, h3, h4, h5⟩ := (omegaOps_exact cc pMax p).1 h1
  omega

theorem exists_projection {cc pMax n : Nat} (h1 : n ≤ cc) (h2 : n ≤ pMax) : ∃ p ∈ projections cc pMax, p.m = 0 ∧ p.n = n := by
  refine ⟨⟨TF.CC.rep 'd' 0 ++ TF.CC.rep 'b' n, 0 + n, 0, n⟩, ?_, rfl, rfl⟩
  unfold projections
  rw [List.mem_filter]
  exact ⟨(omegaOps_exact cc pMax _).2 ⟨rfl, rfl, by simpa using h1, by simpa using h2⟩, rfl⟩

theorem projections_n (cc pMax : Nat) : (projections cc pMax).map Op.n = List.range (min cc pMax + 1) := by
  have hs : ((projections cc pMax).map Op.n).Pairwise (· ≤ ·) := by
    rw [List.pairwise_map]
    have h1 : (projections cc pMax).Pairwise fun a b => a.rank ≤ b.rank := (omegaOps_sorted cc pMax).sublist List.filter_sublist
    refine h1.imp_of_mem ?_
    intro a b ha hb hab
    have := mem_projections ha
    have := mem_projections hb
    omega
  have hn : ((projections cc pMax).map Op.n).Nodup := by
    have h1 : ((projections cc pMax)).Nodup := (omegaOps_nodup cc pMax).of_map.filter _
    refine List.Nodup.map_on ?_ h1
    intro a ha b hb hab
    have ha' := mem_projections ha
    have hb' := mem_projections hb
    obtain ⟨a1, _⟩ := (omegaOps_exact cc pMax a).1 (List.mem_filter.1 ha).1
    obtain ⟨b1, _⟩ := (omegaOps_exact cc pMax b).1 (List.mem_filter.1 hb).1
    cases a
    cases b
    simp only at *
    obtain ⟨rfl, rfl, _⟩ := ha'
    obtain ⟨rfl, rfl, _⟩ := hb'
    subst hab
    rw [a1, b1]
  refine List.Perm.eq_of_pairwise (le := (· ≤ ·)) (fun a b _ _ h1 h2 => Nat.le_antisymm h1 h2) hs
    (List.pairwise_lt_range.imp (fun h => Nat.le_of_lt h)) ?_
  rw [List.perm_ext_iff_of_nodup hn List.nodup_range]
  intro n
  simp only [List.mem_map, List.mem_range]
  constructor
  · rintro ⟨p, hp, rfl⟩
    have := mem_projections hp
    omega
  · intro h
    obtain ⟨p, hp, _, e⟩ := exists_projection (cc := cc) (pMax := pMax) (n := n) (by omega) (by omega)
    exact ⟨p, hp, e⟩

/-- **C39.** The operator lists are pruned in place and shared by all calls.  Nevertheless the second
round of functions (the "optimized" ones) equals the first, and the result for one projection operator
does not depend on what was generated before: there are functions `g` of the projection operator alone
that give all parts.  But the branch for hot bands is generated from lists that have already been pruned
to the ground state, so it is the same as the ground state branch. -/
theorem eT_python_state {gs : Bool} {mode : Mode} {hMax cc K pMax : Nat} (hK : 1 ≤ K) {m : Module}
    (hm : module gs mode hMax cc 1 K pMax = .ok m) :
    m.optimised = m.default ∧
    (∀ f ∈ m.default, f.excited = if gs then none else some f.ground) ∧
    m.default.map (fun f => (f.omega.m, f.omega.n)) = (List.range (min cc pMax + 1)).map fun n => (0, n) := by
  obtain ⟨g, hg, rfl⟩ := (module_iff hK).1 hm
  refine ⟨rfl, ?_, ?_⟩
  · intro f hf
    obtain ⟨p, _, rfl⟩ := List.mem_map.1 hf
    rfl
  · rw [← projections_n, List.map_map, List.map_map]
    refine List.map_congr_left fun p hp => ?_
    simp [fnOf, (mem_projections hp).1]

/-- **C39.** The code of a projection operator is the same whether hot bands are asked for or not and
whatever the other projection operators are. -/
theorem eT_python_history {gs gs' : Bool} {mode : Mode} {hMax cc K pMax pMax' : Nat} (hK : 1 ≤ K) {m m' : Module}
    (hm : module gs mode hMax cc 1 K pMax = .ok m) (hm' : module gs' mode hMax cc 1 K pMax' = .ok m')
    {f f' : Fns} (hf : f ∈ m.default) (hf' : f' ∈ m'.default) (ho : f.omega = f'.omega) : f.ground = f'.ground := by
  obtain ⟨g, hg, rfl⟩ := (module_iff hK).1 hm
  obtain ⟨g', hg', rfl⟩ := (module_iff hK).1 hm'
  obtain ⟨p, hp, rfl⟩ := List.mem_map.1 hf
  obtain ⟨p', hp', rfl⟩ := List.mem_map.1 hf'
  have : p = p' := ho
  subst this
  have := (hg p hp).symm.trans (hg' p hp')
  injection this

/-- **C39.** One call on arbitrary operator lists whose t operators create nothing: with the ground state
selected the lists passed in lose the z operators (and on the left-hand side the h operators) with
annihilation operators; any later call, for the same or another projection operator, gives what it would
have given on the original lists and leaves the lists as they are.  Without the selection nothing is
changed. -/
theorem eT_python_in_place {hMax cc : Nat} {mode : Mode} {lhs : Op} {o o' : Ops} (ho : ∀ s ∈ o.ss, Annihilating s) {g : Part × Part}
    (h : generate hMax cc mode true lhs o = .ok (g, o')) :
    o'.zs = (o.zs.filter fun z => decide (z.n = 0)) ∧
    o'.H = (if mode = .rhs then o.H else o.H.filter fun h => decide (h.n = 0)) ∧ o'.ss = o.ss ∧
    (∀ lhs' : Op, generate hMax cc mode true lhs' o' = generate hMax cc mode true lhs' o) ∧
    (∀ (lhs' : Op) (x : Part × Part) (o'' : Ops), generate hMax cc mode false lhs' o = .ok (x, o'') → o'' = o) := by
  have hss : pruned o.ss = o.ss := by
    unfold pruned
    rw [pruneLoop_eq _ _ ho]
    rfl
  have ho' : o' = prune true mode o := by
    unfold generate at h
    simp only at h
    split at h
    · exact absurd h (by simp)
    · injection h with h
      injection h with _ h
      exact h.symm
  have hpp : prune true mode o' = o' := by
    rw [ho']
    unfold prune
    simp only [if_true, Ops.mk.injEq, hss, List.filter_filter, Bool.and_self, and_true]
    cases mode <;> simp
  refine ⟨by rw [ho']; rfl, by rw [ho']; cases mode <;> rfl, by rw [ho']; exact hss, ?_, ?_⟩
  · intro lhs'
    unfold generate
    rw [hpp, ho']
  · intro lhs' x o'' h'
    unfold generate at h'
    simp only at h'
    split at h'
    · exact absurd h' (by simp)
    · injection h' with h'
      injection h' with _ h'
      exact h'.symm

/-! ## When generation succeeds -/

theorem exists_contraction {lhs : Op} (hl : lhs.m = 0) {k : Nat} {h : HOp} {z : Op} (hz : z.n = 0) {j hl' zl : Nat}
    (n : Nums lhs.n k h.m h.n z.m j hl' zl) : ∃ c, Contraction lhs k h z c ∧ classOf c = j ∧ c .h .lhs = hl' := by
  obtain ⟨s, _, hs⟩ := Finset.exists_subset_card_eq (s := (Finset.univ : Finset (Fin (tFactors k).length))) (n := j) (by
    rw [Finset.card_univ, Fintype.card_fin, length_t]
    have := n.le
    unfold lenOf
    split <;> omega)
  refine ⟨_, contraction_tableS hl hz n hs, ?_, rfl⟩
  simp only [classOf, tableS, sum_indicator, hs]

/-- An entry with the given numbers. -/
theorem exists_entry {mode : Mode} {hMax cc : Nat} {p : Op} (hp : p.m = 0) {k hm hn zm j hl zl : Nat}
    (hH : hm + hn ≤ hMax ∧ (hm + hn < 3 ∨ hm = 0)) (htk : mode = .lhs → hn = 0) (hz : zm ≤ cc) (n : Nums p.n k hm hn zm j hl zl)
    (hd : ¬ (k = 0 ∧ hm = 0 ∧ hn = 0 ∧ zm = p.n)) : ∃ h ∈ taking mode (Zhz.prunedH hMax), ∃ z ∈ Zhz.zOps cc true, h.m = hm ∧ h.n = hn ∧ z.m = zm ∧
      ∃ c, Contraction p k h z c ∧ classOf c = j ∧ c .h .lhs = hl ∧ EntryAt mode hMax cc p k (entryOf mode p.n k h z j hl) := by
  obtain ⟨z, hzm, z1, z2, z3⟩ := Zhz.exists_zOps (cc := cc) (gs := true) (m := zm) (n := 0) (by omega) (fun _ => rfl)
  have hh : (⟨hm + hn, hm, hn⟩ : HOp) ∈ taking mode (Zhz.prunedH hMax) := by
    rw [mem_taking]
    exact ⟨Zhz.mem_prunedH.2 ⟨rfl, hH.1, hH.2⟩, htk⟩
  subst z2
  obtain ⟨c, hc, c1, c2⟩ := exists_contraction (h := ⟨hm + hn, hm, hn⟩) hp z3 n
  refine ⟨_, hh, z, hzm, rfl, rfl, rfl, c, hc, c1, c2, _, hh, z, hzm, c, hc, ?_, ?_⟩
  · rintro ⟨d1, d2, d3, d4⟩
    exact hd ⟨d1, d2, d3, d4⟩
  · rw [c1, c2]

theorem ne_nil_of_entry {mode : Mode} {hMax cc : Nat} {p : Op} {k : Nat} {S : Nat → Prop} (hS : S k) {ts : List Term}
    (cv : Covers mode hMax cc p S ts) {e : Entry} (he : EntryAt mode hMax cc p k e) : ts ≠ [] := by
  obtain ⟨h, hh, z, hz, c, hc, hd, rfl⟩ := he
  intro h0
  have := (cv.mem _).2 ⟨k, hS, h, hh, z, hz, c, hc, hd, rfl⟩
  rw [h0] at this
  simp at this

/-- **C62.** Generation of the module succeeds exactly when h has rank at most five and no z operator of
rank six occurs.  The truncation checks accept rank six for both, but the lists of names of the orders
used for the gates stop at five; z operators of rank six occur when the projection order, the Taylor
order and, on the right-hand side, the order of h together reach six. -/
theorem eT_python_ok_iff {gs : Bool} {mode : Mode} {hMax cc K pMax : Nat} (hH : 1 ≤ hMax) (hcc1 : 1 ≤ cc) (hcc : cc ≤ 6) (hK : 1 ≤ K) :
    (∃ m, module gs mode hMax cc 1 K pMax = .ok m) ↔
      hMax ≤ 5 ∧ ¬ (cc = 6 ∧ 6 ≤ pMax + K + (match mode with | .rhs => hMax | .lhs => 0)) := by
  have hall : (∃ m, module gs mode hMax cc 1 K pMax = .ok m) ↔ ∀ p ∈ projections cc pMax, ∃ g, partsOf mode hMax cc K p = .ok g := by
    constructor
    · rintro ⟨m, hm⟩ p hp
      obtain ⟨g, hg, _⟩ := (module_iff hK).1 hm
      exact ⟨_, hg p hp⟩
    · intro h
      refine ⟨_, (module_iff hK).2 ⟨fun p => match partsOf mode hMax cc K p with | .ok g => g | .error _ => (.noTerms, .noTerms), ?_, rfl⟩⟩
      intro p hp
      obtain ⟨g, hg⟩ := h p hp
      simp only [hg]
  rw [hall]
  constructor
  · intro h
    constructor
    · obtain ⟨p, hp, p1, p2⟩ := exists_projection (cc := cc) (pMax := pMax) (n := 0) (by omega) (by omega)
      obtain ⟨h0, h1⟩ := (parts_ok_iff p1 (by omega) hcc hcc1).1 (h p hp)
      obtain ⟨hh, _, z, _, _, _, _, c, _, _, _, he⟩ := exists_entry (mode := mode) (hMax := hMax) (cc := cc) (p := p) p1 (k := 1) (hm := 1) (hn := 0) (zm := 0) (j := 0)
        (hl := 0) (zl := 0) (by omega) (fun _ => rfl) (by omega) ⟨by omega, by omega, by omega, by omega⟩ (by omega)
      have := ne_nil_of_entry (S := fun k => 1 ≤ k ∧ k ≤ K) ⟨le_refl 1, hK⟩ (covers_t p1) he
      rcases h1 with h1 | h1
      · exact absurd h1 this
      · omega
    · rintro ⟨rfl, h6⟩
      obtain ⟨p, hp, p1, p2⟩ := exists_projection (cc := 6) (pMax := pMax) (n := min pMax 5) (by omega) (by omega)
      obtain ⟨h0, h1⟩ := (parts_ok_iff p1 (by omega) hcc hcc1).1 (h p hp)
      obtain ⟨n, k, hn, hk, hsum, htk, hpos⟩ : ∃ n k, n ≤ hMax ∧ k ≤ K ∧ p.n + n + k = 6 ∧ (mode = .lhs → n = 0) ∧ (k = 0 → 1 ≤ n) := by
        cases mode with
        | rhs =>
          simp only at h6
          exact ⟨min hMax (6 - p.n), 6 - p.n - min hMax (6 - p.n), by omega, by omega, by omega, by simp, by omega⟩
        | lhs =>
          simp only at h6
          exact ⟨0, 6 - p.n, by omega, by omega, by omega, by simp, by omega⟩
      obtain ⟨hh, _, z, _, _, _, z1, c, _, _, _, he⟩ := exists_entry (mode := mode) (hMax := hMax) (cc := 6) (p := p) p1 (k := k) (hm := 0) (hn := n) (zm := 6) (j := k)
        (hl := 0) (zl := p.n) (by omega) htk (by omega) ⟨by omega, by omega, by omega, by omega⟩ (by omega)
      have hz6 : ¬ (entryOf mode p.n k hh z k 0).zRank < 6 := by
        show ¬ z.m < 6
        omega
      by_cases hk0 : k = 0
      · subst hk0
        rcases h0 with h0 | ⟨_, h0⟩
        · exact ne_nil_of_entry (S := fun k => k = 0) rfl (covers_zero p1) he h0
        · exact hz6 (h0 _ he)
      · rcases h1 with h1 | ⟨_, h1⟩
        · exact ne_nil_of_entry (S := fun k => 1 ≤ k ∧ k ≤ K) ⟨by omega, hk⟩ (covers_t p1) he h1
        · exact hz6 (h1 k ⟨by omega, hk⟩ _ he)
  · rintro ⟨h5, h6⟩ p hp
    have hpm := mem_projections hp
    have key : ∀ k, k ≤ K → ∀ e, EntryAt mode hMax cc p k e → e.zRank < 6 := by
      rintro k hk e ⟨h, hh, z, hz, c, hc, _, rfl⟩
      show z.m < 6
      have h2 := Zhz.mem_zOps hz
      obtain ⟨t1, t2⟩ := mem_taking.1 hh
      have h1 := Zhz.mem_prunedH.1 t1
      have n := nums_of_facts (contraction_facts hpm.1 ((groundZ cc).n z hz) hc)
      have n1 := n.onH
      have n2 := n.onZ
      have n3 := n.onN
      have n4 := n.le
      by_contra hcon
      apply h6
      refine ⟨by omega, ?_⟩
      cases mode with
      | rhs => simp only; omega
      | lhs =>
        have := t2 rfl
        simp only
        omega
    exact (parts_ok_iff hpm.1 (by omega) hcc hcc1).2 ⟨Or.inr ⟨by omega, key 0 (by omega)⟩, Or.inr ⟨by omega, fun k hk => key k hk.2⟩⟩

/-! ## The statements -/

/-- **C36, C37.** Every statement of a generated function stands under the gates of one h operator, one
Taylor order and one z operator.  Its einsum call is well formed for these factors (`Computes` through
`ReadsAs`: as many letters as operators, each letter on exactly two places, one of which may be the
result).  Its prefactor is the sum of the weights of all contractions it computes, and there is at least
one. -/
theorem eT_python_statements {gs : Bool} {mode : Mode} {hMax cc K pMax : Nat} (hcc1 : 1 ≤ cc) (hcc : cc ≤ 6) (hK : 1 ≤ K) {m : Module}
    (hm : module gs mode hMax cc 1 K pMax = .ok m) {f : Fns} (hf : f ∈ m.default) {e : Entry} (he : e ∈ allStatements f.ground) :
    ∃ k ≤ K, ∃ h ∈ Zhz.prunedH hMax, Takes mode h ∧ ∃ z ∈ Zhz.zOps cc true, ¬ IsDerivative f.omega k h z ∧
      e.hRank = max h.m h.n ∧ e.tRank = (if k = 0 then 0 else 1) ∧ e.zRank = z.m ∧
      ∃ cs, cs ≠ [] ∧ cs.Nodup ∧ (∀ c, c ∈ cs ↔ Contraction f.omega k h z c ∧ Computes e.code mode f.omega k h z c) ∧
        e.pref = (cs.map weight).sum := by
  obtain ⟨g, hg, rfl⟩ := (module_iff hK).1 hm
  obtain ⟨p, hp, rfl⟩ := List.mem_map.1 hf
  have hpm := mem_projections hp
  obtain ⟨_, _, m0, m1⟩ := statements_parts hpm.1 (by omega) hcc hcc1 (hg p hp)
  have : ∃ k ≤ K, EntryAt mode hMax cc p k e := by
    simp only [allStatements, fnOf, List.mem_append] at he
    rcases he with he | he
    · exact ⟨0, by omega, (m0 e).1 he⟩
    · obtain ⟨k, h1, h2⟩ := (m1 e).1 he
      exact ⟨k, h1.2, h2⟩
  obtain ⟨k, hk, h, hh, z, hz, c, hc, hd, rfl⟩ := this
  obtain ⟨t1, t2⟩ := mem_taking.1 hh
  have hzn := (groundZ cc).n z hz
  have n := nums_of_facts (contraction_facts hpm.1 hzn hc)
  have cap := capacity hcc t1 hz n
  refine ⟨k, hk, h, t1, t2, z, hz, hd, rfl, rfl, rfl, classList p.n k h.n (classOf c) (c .h .lhs), ?_, classList_nodup _ _ _ _ _, ?_, ?_⟩
  · have := (mem_classList hpm.1 hzn n c).2 ⟨hc, rfl⟩
    intro h0
    rw [h0] at this
    simp at this
  · intro c'
    rw [mem_classList hpm.1 hzn n]
    constructor
    · rintro ⟨h1, h2⟩
      refine ⟨h1, ?_⟩
      have n' := nums_of_facts (contraction_facts hpm.1 hzn h1)
      have e1 : c' .h .lhs = c .h .lhs := by
        have := n.onZ; have := n'.onZ; have := n.onN; have := n'.onN
        omega
      have := computes_codeOf (mode := mode) hpm.1 hzn h1 cap (by omega)
      rw [h2, e1] at this
      exact this
    · rintro ⟨h1, h2⟩
      exact ⟨h1, (of_computes hpm.1 hzn h1 n cap (by omega) hzn h2).2.2.2.2.1.symm⟩
  · exact (sum_weights n.le).symm

/-- **C61.** Every contraction of the projection operator with a Taylor order, an h operator and a z
operator, except the derivative of z itself, is computed by exactly one statement. -/
theorem eT_python_exactly_once {gs : Bool} {mode : Mode} {hMax cc K pMax : Nat} (hcc1 : 1 ≤ cc) (hcc : cc ≤ 6) (hK : 1 ≤ K) {m : Module}
    (hm : module gs mode hMax cc 1 K pMax = .ok m) {f : Fns} (hf : f ∈ m.default) {k : Nat} (hk : k ≤ K) {h : HOp} (hh : h ∈ Zhz.prunedH hMax)
    (htk : Takes mode h) {z : Op} (hz : z ∈ Zhz.zOps cc true) {c : Pl k → Pl k → Nat} (hc : Contraction f.omega k h z c)
    (hd : ¬ IsDerivative f.omega k h z) :
    ∃! i : Fin (allStatements f.ground).length, Computes (allStatements f.ground)[i].code mode f.omega k h z c := by
  obtain ⟨g, hg, rfl⟩ := (module_iff hK).1 hm
  obtain ⟨p, hp, rfl⟩ := List.mem_map.1 hf
  have hpm := mem_projections hp
  obtain ⟨n0, n1, m0, m1⟩ := statements_parts hpm.1 (by omega) hcc hcc1 (hg p hp)
  have hzn := (groundZ cc).n z hz
  have hc' : Contraction p k h z c := hc
  have hd' : ¬ IsDerivative p k h z := hd
  have n := nums_of_facts (contraction_facts hpm.1 hzn hc')
  have cap := capacity hcc hh hz n
  show ∃! i : Fin (allStatements (g p)).length, Computes (allStatements (g p))[i].code mode p k h z c
  have hnd : (allStatements (g p)).Nodup := by
    unfold allStatements
    rw [List.nodup_append]
    refine ⟨n0, n1, ?_⟩
    intro a ha b hb e
    subst e
    have h1 := entryAt_facts ((m0 a).1 ha)
    obtain ⟨k', hk', hb'⟩ := (m1 a).1 hb
    have h2 := entryAt_facts hb'
    have h3 : rankOf 0 = 0 := rfl
    have h4 : rankOf k' = 1 := by unfold rankOf; rw [if_neg (by omega)]
    omega
  have hmem : entryOf mode p.n k h z (classOf c) (c .h .lhs) ∈ allStatements (g p) := by
    unfold allStatements
    rw [List.mem_append]
    have : EntryAt mode hMax cc p k (entryOf mode p.n k h z (classOf c) (c .h .lhs)) :=
      ⟨h, mem_taking.2 ⟨hh, htk⟩, z, hz, c, hc', hd', rfl⟩
    by_cases hk0 : k = 0
    · subst hk0
      exact Or.inl ((m0 _).2 this)
    · exact Or.inr ((m1 _).2 ⟨k, ⟨by omega, hk⟩, this⟩)
  obtain ⟨i, hi, hie⟩ := List.getElem_of_mem hmem
  refine ⟨⟨i, hi⟩, ?_, ?_⟩
  · show Computes (allStatements (g p))[i].code mode p k h z c
    rw [hie]
    exact computes_codeOf hpm.1 hzn hc' cap (by omega)
  · intro i' hi'
    have hx := List.getElem_mem i'.2
    have : ∃ k', EntryAt mode hMax cc p k' (allStatements (g p))[i'.val] := by
      unfold allStatements at hx ⊢
      rw [List.mem_append] at hx
      rcases hx with hx | hx
      · exact ⟨0, (m0 _).1 hx⟩
      · obtain ⟨k', _, h'⟩ := (m1 _).1 hx
        exact ⟨k', h'⟩
    obtain ⟨k', h', hh', z', hz', c', hc'', hd'', e⟩ := this
    have hi'' : Computes (allStatements (g p))[i'.val].code mode p k h z c := hi'
    have hzn' := (groundZ cc).n z' hz'
    have n' := nums_of_facts (contraction_facts hpm.1 hzn' hc'')
    have t1 := (mem_taking.1 hh').1
    rw [e] at hi''
    obtain ⟨e1, e2, e3, e4, e5, e6⟩ := of_computes hpm.1 hzn hc' n' (capacity hcc t1 hz' n') (by omega) hzn' hi''
    subst e1
    have hheq : h = h' := TF.ET.HOp_key (Zhz.prunedH_keys_nodup hMax) hh t1 (by simp [e2, e3])
    have hzeq : z = z' := List.inj_on_of_nodup_map (groundZ cc).nodup hz hz' e4
    subst hheq hzeq
    rw [e5, e6, ← hie] at e
    exact Fin.ext ((List.Nodup.getElem_inj_iff hnd).1 e)

/-- **C61, what is left out.** No statement computes the contraction of z alone with the projection
operator (Taylor order 0, h of order 0, all operators of z paired with the projection operator).  On the
left-hand side this is the derivative to be solved for; on the right-hand side it is the term
`h_0 z^n`, which belongs to the equation and is missing. -/
theorem eT_python_derivative_left_out {gs : Bool} {mode : Mode} {hMax cc K pMax : Nat} (hcc1 : 1 ≤ cc) (hcc : cc ≤ 6) (hK : 1 ≤ K) {m : Module}
    (hm : module gs mode hMax cc 1 K pMax = .ok m) {f : Fns} (hf : f ∈ m.default) {k : Nat} {h : HOp} {z : Op} (hz : z ∈ Zhz.zOps cc true)
    (hd : IsDerivative f.omega k h z) {c : Pl k → Pl k → Nat} (hc : Contraction f.omega k h z c) :
    ∀ e ∈ allStatements f.ground, ¬ Computes e.code mode f.omega k h z c := by
  intro e he hcomp
  obtain ⟨g, hg, rfl⟩ := (module_iff hK).1 hm
  obtain ⟨p, hp, rfl⟩ := List.mem_map.1 hf
  have hpm := mem_projections hp
  obtain ⟨_, _, m0, m1⟩ := statements_parts hpm.1 (by omega) hcc hcc1 (hg p hp)
  have : ∃ k', EntryAt mode hMax cc p k' e := by
    simp only [allStatements, fnOf, List.mem_append] at he
    rcases he with he | he
    · exact ⟨0, (m0 e).1 he⟩
    · obtain ⟨k', _, h2⟩ := (m1 e).1 he
      exact ⟨k', h2⟩
  obtain ⟨k', h', hh', z', hz', c', hc', hd', rfl⟩ := this
  have n' := nums_of_facts (contraction_facts hpm.1 ((groundZ cc).n z' hz') hc')
  have t1 := (mem_taking.1 hh').1
  obtain ⟨e1, e2, e3, e4, _⟩ := of_computes hpm.1 ((groundZ cc).n z hz) (show Contraction p k h z c from hc) n' (capacity hcc t1 hz' n') (by omega)
    ((groundZ cc).n z' hz') hcomp
  obtain ⟨d1, d2, d3, d4⟩ := hd
  exact hd' ⟨by omega, by omega, by omega, e4 ▸ d4⟩

/-- Such a contraction exists for every function that is generated: the term is really missing. -/
theorem eT_python_derivative_exists {cc pMax : Nat} {p : Op} (hp : p ∈ projections cc pMax) {hMax : Nat} :
    ∃ h ∈ Zhz.prunedH hMax, ∃ z ∈ Zhz.zOps cc true, IsDerivative p 0 h z ∧ ∃ c, Contraction p 0 h z c := by
  have hpm := mem_projections hp
  obtain ⟨z, hzm, z1, z2, z3⟩ := Zhz.exists_zOps (cc := cc) (gs := true) (m := p.n) (n := 0) (by omega) (fun _ => rfl)
  obtain ⟨c, hc, _⟩ := exists_contraction (k := 0) (h := ⟨0, 0, 0⟩) (z := z) (j := 0) (hl' := 0) (zl := p.n) hpm.1 z3
    ⟨by omega, by simp, by simp only; omega, by omega⟩
  exact ⟨⟨0, 0, 0⟩, Zhz.mem_prunedH.2 ⟨rfl, by simp, by simp⟩, z, hzm, ⟨rfl, rfl, rfl, z2⟩, c, hc⟩

/-! ## The axes of h -/

/-- **C63, what holds.** When h has only creation or only annihilation operators its axes are all of one
kind, so that their order does not matter for a symmetric tensor. -/
theorem eT_python_h_axes_partial {mode : Mode} {lhs : Op} (hl : lhs.m = 0) {k : Nat} {h : HOp} {z : Op} (hz : z.n = 0) {c : Pl k → Pl k → Nat}
    (hc : Contraction lhs k h z c) {e : Einsum} {lab : Pl k → List Char} (hr : ReadsAs e mode lhs k h z c lab) :
    (h.n = 0 → creationAxes lab = List.replicate h.m true) ∧ (h.m = 0 → creationAxes lab = List.replicate h.n false) := by
  have f := contraction_facts hl hz hc
  have hsh := hr.shared .h .z (by simp)
  have hlen := hr.length .h
  have hlen' : (lab .h).length = h.m + h.n := hlen
  have h1 := f.h_col
  have h0 : c .h .z = 0 := f.z .h
  rw [h1, h0, zero_add] at hsh
  constructor
  · intro hn
    rw [List.eq_replicate_iff]
    refine ⟨by simp [creationAxes, hlen', hn], ?_⟩
    intro b hb
    obtain ⟨x, hx, rfl⟩ := List.mem_map.1 hb
    rw [hn, List.length_eq_zero_iff, List.filter_eq_nil_iff] at hsh
    simpa using hsh x hx
  · intro hm
    rw [List.eq_replicate_iff]
    refine ⟨by simp [creationAxes, hlen', hm], ?_⟩
    intro b hb
    obtain ⟨x, hx, rfl⟩ := List.mem_map.1 hb
    have : (lab .h).filter (fun x => decide (x ∈ lab .z)) = lab .h := List.filter_sublist.eq_of_length (by omega)
    rw [List.filter_eq_self] at this
    simpa using this x hx

/-- **C63 is false of the program.** As soon as h operators with one creation and one annihilation
operator are present (`2 ≤ H`) the function of the single projection operator contains two statements
with the same tensor `h_args[(1, 1)]`: in one its first axis is the annihilation operator, in the other
the creation operator. -/
theorem eT_python_h_axes_inconsistent {gs : Bool} {hMax cc K pMax : Nat} (hH : 2 ≤ hMax) (hcc2 : 2 ≤ cc) (hcc : cc ≤ 6) (hK : 1 ≤ K) (hP : 1 ≤ pMax)
    {m : Module} (hm : module gs .rhs hMax cc 1 K pMax = .ok m) :
    ∃ f ∈ m.default, ∃ e₁ ∈ allStatements f.ground, ∃ e₂ ∈ allStatements f.ground, ∃ h : HOp, h.m = 1 ∧ h.n = 1 ∧ ∃ z₁ z₂ : Op,
      (∃ c lab, ReadsAs e₁.code .rhs f.omega 0 h z₁ c lab ∧ creationAxes lab = [false, true]) ∧
      (∃ c lab, ReadsAs e₂.code .rhs f.omega 1 h z₂ c lab ∧ creationAxes lab = [true, false]) := by
  obtain ⟨g, hg, rfl⟩ := (module_iff hK).1 hm
  obtain ⟨p, hp, p1, p2⟩ := exists_projection (cc := cc) (pMax := pMax) (n := 1) (by omega) (by omega)
  obtain ⟨_, _, m0, m1⟩ := statements_parts p1 (by omega) hcc (by omega) (hg p hp)
  have na : Nums p.n 0 1 1 1 0 1 0 := ⟨by omega, by omega, by omega, by omega⟩
  have nb : Nums p.n 1 1 1 2 0 0 1 := ⟨by omega, by omega, by omega, by omega⟩
  obtain ⟨h, hh, z, hz, a1, a2, a3, _, _, _, _, hea⟩ := exists_entry (mode := .rhs) (hMax := hMax) (cc := cc) p1 ⟨by omega, by omega⟩ (by simp) (by omega) na (by omega)
  obtain ⟨h', hh', z', hz', b1, b2, b3, _, _, _, _, heb⟩ := exists_entry (mode := .rhs) (hMax := hMax) (cc := cc) p1 ⟨by omega, by omega⟩ (by simp) (by omega) nb (by omega)
  have hheq : h = h' := TF.ET.HOp_key (Zhz.prunedH_keys_nodup hMax) (mem_taking.1 hh).1 (mem_taking.1 hh').1 (by simp [a1, a2, b1, b2])
  subst hheq
  refine ⟨fnOf gs g p, List.mem_map.2 ⟨p, hp, rfl⟩, _, List.mem_append.2 (Or.inl ((m0 _).2 hea)), _,
    List.mem_append.2 (Or.inr ((m1 _).2 ⟨1, ⟨le_refl 1, hK⟩, heb⟩)), h, a1, a2, z, z', ⟨tableJ p.n 0 h.n 0 1, labOf p.n 0 h.n 0 1, ?_, ?_⟩,
    ⟨tableJ p.n 1 h.n 0 0, labOf p.n 1 h.n 0 0, ?_, ?_⟩⟩
  · exact readsAs_codeOf p1 ((groundZ cc).n z hz) (by rw [a1, a2, a3]; exact na) (by omega) (by omega)
  · rw [a2, p2]
    decide
  · exact readsAs_codeOf p1 ((groundZ cc).n z' hz') (by rw [b1, b2, b3]; exact nb) (by omega) (by omega)
  · rw [a2, p2]
    decide

/-! ## Non-trivial cases -/

/-- Generation for H, CC, the projection order and the Taylor order all 2 succeeds on both sides. -/
theorem ok_two (gs : Bool) (mode : Mode) : ∃ m, module gs mode 2 2 1 2 2 = .ok m :=
  (eT_python_ok_iff (by decide) (by decide) (by decide) (by decide)).2 ⟨by decide, fun h => absurd h.1 (by decide)⟩

example : ∃ m, module false .rhs 2 2 1 2 2 = .ok m ∧ m.default.map (fun f => (f.omega.m, f.omega.n)) = [(0, 0), (0, 1), (0, 2)] := by
  obtain ⟨m, hm⟩ := ok_two false .rhs
  exact ⟨m, hm, (eT_python_state (by decide) hm).2.2⟩

/-- The hot band lists of the program are really changed by a call for the ground state. -/
example : ∃ g o', generate 2 2 .lhs true ⟨"b", 1, 0, 1⟩ (operators false 2 2 (ssOf 2)) = .ok (g, o') ∧ (∀ s ∈ (operators false 2 2 (ssOf 2)).ss, Annihilating s) ∧
    o' ≠ operators false 2 2 (ssOf 2) := by
  obtain ⟨g, hg⟩ := (parts_ok_iff (mode := .lhs) (hMax := 2) (cc := 2) (K := 2) (p := ⟨"b", 1, 0, 1⟩) rfl (by decide) (by decide) (by decide)).2
    ⟨Or.inr ⟨by decide, fun e he => by have := entryAt_facts he; omega⟩, Or.inr ⟨by decide, fun k _ e he => by have := entryAt_facts he; omega⟩⟩
  refine ⟨g, opsOf .lhs 2 2 2, ?_, ?_, ?_⟩
  · rw [generate_true (prune_operators false .lhs 2 2 2), hg]
  · intro s hs
    obtain ⟨k, _, rfl⟩ := List.mem_map.1 hs
    exact annihilating_seriesOf k
  · intro h
    have := congrArg Ops.zs h
    exact absurd this (by decide)

example : (∃ m, module false .lhs 5 6 1 1 4 = .ok m) ∧ ¬ ∃ m, module false .lhs 5 6 1 2 4 = .ok m :=
  ⟨(eT_python_ok_iff (by decide) (by decide) (by decide) (by decide)).2 ⟨by decide, by decide⟩,
    fun h => absurd ((eT_python_ok_iff (by decide) (by decide) (by decide) (by decide)).1 h).2 (by decide)⟩

/-- The hypotheses of `eT_python_exactly_once` are met by the contraction of `b_2` with two t, h with two
creation operators and z with two, one t on h and one on z. -/
example : ∃ m, module true .rhs 2 2 1 2 2 = .ok m ∧ ∃ f ∈ m.default, ∃ h ∈ Zhz.prunedH 2, Takes .rhs h ∧ ∃ z ∈ Zhz.zOps 2 true,
    ∃ c, Contraction f.omega 2 h z c ∧ ¬ IsDerivative f.omega 2 h z ∧ c .h .lhs = 1 := by
  obtain ⟨m, hm⟩ := ok_two true .rhs
  obtain ⟨g, hg, rfl⟩ := (module_iff (by decide)).1 hm
  obtain ⟨p, hp, p1, p2⟩ := exists_projection (cc := 2) (pMax := 2) (n := 2) (by omega) (by omega)
  have n : Nums p.n 2 2 0 2 1 1 1 := ⟨by omega, by omega, by omega, by omega⟩
  obtain ⟨h, hh, z, hz, _, _, _, c, hc, _, hcl, _⟩ := exists_entry (mode := .rhs) (hMax := 2) (cc := 2) p1 ⟨by omega, by omega⟩ (by simp) (by omega) n (by omega)
  obtain ⟨t1, t2⟩ := mem_taking.1 hh
  exact ⟨_, hm, _, List.mem_map.2 ⟨p, hp, rfl⟩, h, t1, t2, z, hz, c, hc, fun d => absurd d.1 (by decide), hcl⟩

/-- There are statements, so that `eT_python_statements` is not void: the two statements of
`eT_python_h_axes_inconsistent`. -/
example : ∃ m, module true .rhs 2 2 1 2 2 = .ok m ∧ ∃ f ∈ m.default, allStatements f.ground ≠ [] := by
  obtain ⟨m, hm⟩ := ok_two true .rhs
  obtain ⟨f, hf, e, he, _⟩ := eT_python_h_axes_inconsistent (by decide) (by decide) (by decide) (by decide) (by decide) hm
  exact ⟨m, hm, f, hf, List.ne_nil_of_mem he⟩

end TF.ETPy
