import Verif.Lemmas.ETLatexDoc

/-!
# Properties of the LaTeX of the e^T z_t equations

C37 (LaTeX half) prefactors; C38 each distinct text once; C64 when the document is generated and its
sections; C65 every contraction is shown exactly once; C66 the letters of both sides of an equation;
C67 the other parts of an equation.

Supported truncations (truncations.py 15-34, latex_eT_zhz.py 2114-2140): `T = 1`; the Taylor order `K`
may be 0, which fails.
-/

namespace TF.ETLatex

open TF.Py
open TF.CC (Op HOp Series collect collect_ok_of collect_ok_iff omegaOps omegaOps_exact summationIdx rep)
open TF.Zhz (zSummation zUnlinked at')
open TF.ET (Mode Term PTerm Equation Section taking mem_taking groundZ printOne printed firstsBy renderSum document sectionFor)
open TF.ETPy (Nums classOf classList mem_classList classList_nodup contraction_facts nums_of_facts projections mem_projections exists_projection
  projections_n exists_contraction weight_tableS)
open TF.Spec.ET TF.Spec.ETPy TF.Spec.ETLatex
open TF.Spec.Zhz (letters prefValue)

/-! ## Texts (C38) -/

/-- **C38.** The printed terms of any list of terms: their texts are pairwise different, they are
exactly the texts of all the terms, and they are in the order of first appearance. -/
theorem eT_latex_texts_once (rf : Bool) (mode : Mode) (l : List Term) {ps : List PTerm} (h : printed rf mode l = .ok ps) :
    ∃ all, collect (printOne rf) l = .ok all ∧ ps.Sublist all ∧ (ps.map (PTerm.render mode)).Nodup ∧
      (∀ s, s ∈ ps.map (PTerm.render mode) ↔ s ∈ all.map (PTerm.render mode)) ∧
      (ps.map (PTerm.render mode)).Pairwise fun s s' => (all.map (PTerm.render mode)).idxOf s < (all.map (PTerm.render mode)).idxOf s' := by
  unfold printed at h
  split at h
  · exact absurd h (by simp)
  · rename_i all hall
    injection h with h
    subst h
    exact ⟨all, hall, firstsBy_sublist _ _ _, firstsBy_nodup _ _ _, fun s => by simp [mem_firstsBy], firstsBy_order _ _ _⟩

/-- **C38.** Whatever their number, the texts are all printed, once each and in order, with a plus sign
between neighbours: on one line in brackets, or on lines of at most four. -/
theorem eT_latex_sum_complete (l : List String) :
    ∃ ls : List (List String), ls.flatten = l ∧ (∀ x ∈ ls, x ≠ [] ∧ (l.length ≤ 6 ∨ x.length ≤ 4)) ∧
      renderSum l = (if l.length ≤ 6 then "(" else "\n") ++
        ("\n" ++ "    " ++ "\\\\  &+  % split long equation\n").intercalate (ls.map fun x => " + ".intercalate x) ++ (if l.length ≤ 6 then ")" else "\n") := by
  unfold renderSum
  by_cases h : l.length ≤ 6
  · by_cases h0 : l = []
    · subst h0
      exact ⟨[], rfl, by simp, rfl⟩
    · refine ⟨[l], by simp, by simpa using ⟨h0, Or.inl h⟩, ?_⟩
      rw [if_pos h, if_pos h, if_pos h]
      simp
  · refine ⟨TF.ET.lines l, lines_flatten l, fun x hx => ⟨(mem_lines hx).1, Or.inr (mem_lines hx).2⟩, ?_⟩
    rw [if_neg h, if_neg h, if_neg h]

/-! ## The document (C64) -/

/-- **C64.** The document is generated exactly when only the ground state is asked for, the Taylor order
is at least 1 and the smaller of the coupled-cluster rank and the projection order is at most 8. -/
theorem eT_latex_ok_iff (gs rf : Bool) (mode : Mode) (hMax cc K pMax : Nat) :
    (∃ d, document gs rf mode hMax cc 1 K pMax = .ok d) ↔ gs = true ∧ 1 ≤ K ∧ min cc pMax ≤ 8 := by
  constructor
  · rintro ⟨d, hd⟩
    have hK : 1 ≤ K := by
      by_contra h
      have : K = 0 := by omega
      subst this
      simp [document, TF.ET.eTaylor] at hd
    unfold document at hd
    rw [TF.ET.eTaylor_one hK] at hd
    simp only at hd
    rw [collect_ok_iff] at hd
    obtain ⟨g, hg, -⟩ := hd
    have hpair : ∀ o ∈ omegaOps cc pMax, ∃ q, (o, q) ∈ (omegaOps cc pMax).zip (Zhz.previous (omegaOps cc pMax)) := by
      intro o ho
      obtain ⟨k, hk, rfl⟩ := List.getElem_of_mem ho
      have hk' : k < (Zhz.previous (omegaOps cc pMax)).length := by rw [Zhz.previous_length]; exact hk
      refine ⟨(Zhz.previous (omegaOps cc pMax))[k], ?_⟩
      rw [List.mem_iff_getElem]
      exact ⟨k, by simp [hk, hk'], by simp⟩
    have hcase : ∀ n, n ≤ min cc pMax → (⟨rep 'd' 0 ++ rep 'b' n, 0 + n, 0, n⟩ : Op) ∈ omegaOps cc pMax := by
      intro n hn
      exact (omegaOps_exact cc pMax _).2 ⟨rfl, rfl, by simp only; omega, by simp only; omega⟩
    refine ⟨?_, hK, ?_⟩
    · cases gs with
      | true => rfl
      | false =>
        obtain ⟨q, hq⟩ := hpair _ (hcase 0 (Nat.zero_le _))
        have h1 := hg _ hq
        simp only [sectionFor, TF.ET.equation, Bool.not_false, if_true] at h1
        rw [Zhz.omegaLetters_eq rfl (by simp)] at h1
        simp [Zhz.rankNames] at h1
    · by_contra h9
      obtain ⟨q, hq⟩ := hpair _ (hcase 9 (by omega))
      have h1 := hg _ hq
      simp only [sectionFor] at h1
      have : Zhz.rankNames[(0 + 9 : Nat)]? = none := rfl
      rw [this] at h1
      simp at h1
  · rintro ⟨rfl, hK, h⟩
    exact ⟨_, document_eq rf hK h⟩

theorem mem_document {rf : Bool} {mode : Mode} {hMax cc K pMax : Nat} {d : List Section}
    (hd : document true rf mode hMax cc 1 K pMax = .ok d) : 1 ≤ K ∧ min cc pMax ≤ 8 ∧ d = (projections cc pMax).map (sectionOf mode hMax cc K) := by
  obtain ⟨_, hK, hr⟩ := (eT_latex_ok_iff _ _ _ _ _ _ _).1 ⟨d, hd⟩
  rw [document_eq rf hK hr] at hd
  injection hd with hd
  exact ⟨hK, hr, hd.symm⟩

/-- **C64.** There is one section for each projection operator without creation operators, in order of
rank; from rank 1 on it has the heading of its rank; removing terms with f has no effect; the
operators of the projection are named by the letters of the derivative. -/
theorem eT_latex_sections {rf : Bool} {mode : Mode} {hMax cc K pMax : Nat} {d : List Section}
    (hd : document true rf mode hMax cc 1 K pMax = .ok d) :
    d.map (fun s => (s.omega.m, s.omega.n)) = (List.range (min cc pMax + 1)).map (fun n => (0, n)) ∧
    (∀ rf', document true rf' mode hMax cc 1 K pMax = .ok d) ∧
    ∀ s ∈ d, s.heading = (if s.omega.n = 0 then none else Zhz.rankNames[s.omega.n]?) ∧ (s.omega.n ≠ 0 → s.heading ≠ none) ∧
      s.letters = s.zUpper.map (fun c => (false, c)) ∧ s.zUpper = summationIdx.take s.omega.n ∧ s.zUpper.length = s.omega.n := by
  obtain ⟨hK, hr, rfl⟩ := mem_document hd
  refine ⟨?_, fun rf' => document_eq rf' hK hr, ?_⟩
  · rw [← projections_n, List.map_map, List.map_map]
    refine List.map_congr_left fun p hp => ?_
    simp [sectionOf, (mem_projections hp).1]
  · intro s hs
    obtain ⟨p, hp, rfl⟩ := List.mem_map.1 hs
    have hpm := mem_projections hp
    have hlen : Zhz.rankNames.length = 9 := rfl
    have hlen' : summationIdx.length = 10 := rfl
    refine ⟨rfl, ?_, rfl, ?_, ?_⟩
    · intro h0
      simp only [sectionOf] at h0 ⊢
      rw [if_neg h0, List.getElem?_eq_getElem (by omega)]
      simp
    · exact TF.CC.slice_zero _ _
    · show (slice summationIdx 0 p.n).length = p.n
      rw [length_slice]
      omega

/-! ## The terms (C65, C37) -/

theorem nodup_ptermsOf (mode : Mode) (hMax cc K : Nat) (p : Op) : (ptermsOf mode hMax cc K p).Nodup :=
  (firstsBy_nodup (PTerm.render mode) _ []).of_map

theorem mem_ptermsOf {mode : Mode} {hMax cc K : Nat} {p : Op} (hp : p.m = 0) {x : PTerm} (hx : x ∈ ptermsOf mode hMax cc K p) :
    ∃ k ≤ K, ∃ h ∈ taking mode (Zhz.prunedH hMax), ∃ z ∈ Zhz.zOps cc true, ∃ c, Contraction p k h z c ∧
      x = ptermOf p.n k h z (classOf c) (c .h .lhs) :=
  (mem_all hp).1 ((firstsBy_sublist _ _ _).mem hx)

/-- A contraction within the capacity of the alphabets is shown. -/
theorem exists_shows {mode : Mode} {hMax cc K : Nat} {p : Op} (hp : p.m = 0) {k : Nat} (hk : k ≤ K) {h : HOp} (hh : h ∈ taking mode (Zhz.prunedH hMax))
    {z : Op} (hz : z ∈ Zhz.zOps cc true) {c : Pl k → Pl k → Nat} (hc : Contraction p k h z c) (cap : k + h.n ≤ 5) (capN : p.n ≤ 7) :
    ∃ x ∈ ptermsOf mode hMax cc K p, Shows x p k h z c := by
  have h1 := (mem_all (K := K) hp).2 ⟨k, hk, h, hh, z, hz, c, hc, rfl⟩
  have h2 : (ptermOf p.n k h z (classOf c) (c .h .lhs)).render mode ∈ (ptermsOf mode hMax cc K p).map (PTerm.render mode) := by
    unfold ptermsOf
    rw [mem_firstsBy]
    exact ⟨List.mem_map_of_mem h1, by simp⟩
  obtain ⟨x, hx, e⟩ := List.mem_map.1 h2
  refine ⟨x, hx, ?_⟩
  obtain ⟨k', _, h', _, z', _, c', _, rfl⟩ := mem_ptermsOf hp hx
  obtain ⟨e1, e2, e3, e4⟩ := render_inj (readable_ptermOf _ _ _ _ _ _) (readable_ptermOf _ _ _ _ _ _) e.symm
  have e0 : (ptermOf p.n k h z (classOf c) (c .h .lhs)).f = (ptermOf p.n k' h' z' (classOf c') (c' .h .lhs)).f := rfl
  exact Shows.congr ⟨e0, e1, e2, e3, e4⟩ (shows_ptermOf hp ((groundZ cc).n z hz) hc cap capN)

/-- What shows a contraction is the term of its class. -/
theorem eq_of_shows {mode : Mode} {hMax cc K : Nat} {p : Op} (hp : p.m = 0) {k : Nat} {h : HOp} (hh : h ∈ Zhz.prunedH hMax)
    {z : Op} (hz : z ∈ Zhz.zOps cc true) {c : Pl k → Pl k → Nat} (hc : Contraction p k h z c) {x : PTerm} (hx : x ∈ ptermsOf mode hMax cc K p)
    (hs : Shows x p k h z c) : x = ptermOf p.n k h z (classOf c) (c .h .lhs) ∧ k ≤ K ∧ h ∈ taking mode (Zhz.prunedH hMax) ∧ k + h.n ≤ 5 ∧ p.n ≤ 7 := by
  obtain ⟨k', hk', h', hh', z', hz', c', hc', rfl⟩ := mem_ptermsOf hp hx
  have hzn := (groundZ cc).n z hz
  have hzn' := (groundZ cc).n z' hz'
  obtain ⟨rfl, e1, e2, e3, e4, e5, e6, e7⟩ := of_shows hp hzn (nums_of_facts (contraction_facts hp hzn' hc')) hc hs
  obtain rfl : h = h' := TF.ET.HOp_key (Zhz.prunedH_keys_nodup hMax) hh (mem_taking.1 hh').1 (by simp [e1, e2])
  obtain rfl : z = z' := List.inj_on_of_nodup_map (groundZ cc).nodup hz hz' e3
  rw [e4, e5]
  exact ⟨rfl, hk', hh', e6, e7⟩

/-- **C65.** In every section: each printed term comes from a contraction, and a contraction is shown by
a printed term exactly when there are letters enough (at most five summation letters, one for each t and
for each annihilation operator of h, and at most seven external letters); then it is shown by one term
only. -/
theorem eT_latex_exactly_once_partial {rf : Bool} {mode : Mode} {hMax cc K pMax : Nat} {d : List Section}
    (hd : document true rf mode hMax cc 1 K pMax = .ok d) {s : Section} (hs : s ∈ d) :
    ∃ ps, s.eqn.third = some ps ∧
      (∀ k ≤ K, ∀ h ∈ Zhz.prunedH hMax, Takes mode h → ∀ z ∈ Zhz.zOps cc true, ∀ c, Contraction s.omega k h z c →
        ((∃ x ∈ ps, Shows x s.omega k h z c) ↔ k + h.n ≤ 5 ∧ s.omega.n ≤ 7) ∧
        (k + h.n ≤ 5 ∧ s.omega.n ≤ 7 → ∃! i : Fin ps.length, Shows ps[i] s.omega k h z c)) ∧
      ∀ x ∈ ps, ∃ k ≤ K, ∃ h ∈ Zhz.prunedH hMax, Takes mode h ∧ ∃ z ∈ Zhz.zOps cc true, ∃ c, Contraction s.omega k h z c ∧
        (k + h.n ≤ 5 ∧ s.omega.n ≤ 7 → Shows x s.omega k h z c) := by
  obtain ⟨hK, hr, rfl⟩ := mem_document hd
  obtain ⟨p, hp, rfl⟩ := List.mem_map.1 hs
  have hpm := mem_projections hp
  refine ⟨_, rfl, ?_, ?_⟩
  swap
  · intro x hx
    obtain ⟨k, hk, h, hh, z, hz, c, hc, rfl⟩ := mem_ptermsOf hpm.1 hx
    exact ⟨k, hk, h, (mem_taking.1 hh).1, (mem_taking.1 hh).2, z, hz, c, hc, fun ⟨a, b⟩ => shows_ptermOf hpm.1 ((groundZ cc).n z hz) hc a b⟩
  intro k hk h hh htk z hz c hc
  have hc' : Contraction p k h z c := hc
  show ((∃ x ∈ ptermsOf mode hMax cc K p, Shows x p k h z c) ↔ k + h.n ≤ 5 ∧ p.n ≤ 7) ∧
    (k + h.n ≤ 5 ∧ p.n ≤ 7 → ∃! i : Fin (ptermsOf mode hMax cc K p).length, Shows (ptermsOf mode hMax cc K p)[i] p k h z c)
  have hex := fun a b => exists_shows (mode := mode) (hMax := hMax) (K := K) hpm.1 hk (mem_taking.2 ⟨hh, htk⟩) hz hc' a b
  refine ⟨⟨?_, fun ⟨a, b⟩ => hex a b⟩, ?_⟩
  · rintro ⟨x, hx, hs⟩
    exact (eq_of_shows hpm.1 hh hz hc' hx hs).2.2.2
  · rintro ⟨a, b⟩
    obtain ⟨x, hx, hs⟩ := hex a b
    obtain ⟨i, hi, rfl⟩ := List.getElem_of_mem hx
    refine ⟨⟨i, hi⟩, hs, ?_⟩
    intro j hj
    have e1 := (eq_of_shows hpm.1 hh hz hc' hx hs).1
    have e2 := (eq_of_shows hpm.1 hh hz hc' (List.getElem_mem j.2) hj).1
    exact Fin.ext ((nodup_ptermsOf mode hMax cc K p).getElem_inj_iff.1 (e2.trans e1.symm))

/-- **C65.** The truncations for which the document shows every contraction exactly once.  (Bounds: `H`
and the Taylor order up to 8, ranks up to 6, are accepted.) -/
theorem eT_latex_complete_iff {rf : Bool} {mode : Mode} {hMax cc K pMax : Nat} (hcc : cc ≤ 6) {d : List Section}
    (hd : document true rf mode hMax cc 1 K pMax = .ok d) :
    (∀ s ∈ d, ∃ ps, s.eqn.third = some ps ∧
      ∀ k ≤ K, ∀ h ∈ Zhz.prunedH hMax, Takes mode h → ∀ z ∈ Zhz.zOps cc true, ∀ c, Contraction s.omega k h z c →
        ∃! i : Fin ps.length, Shows ps[i] s.omega k h z c) ↔
    ¬ ((cc = 6 ∧ 6 ≤ K + (if mode = .rhs then hMax else 0)) ∨ (5 ≤ cc ∧ 6 ≤ K ∧ 1 ≤ hMax) ∨ (5 ≤ cc ∧ 5 ≤ K ∧ 2 ≤ hMax ∧ mode = .rhs) ∨
      (4 ≤ cc ∧ 6 ≤ K ∧ 2 ≤ hMax)) := by
  obtain ⟨hK, hr, rfl⟩ := mem_document hd
  constructor
  · intro hall
    -- a contraction with more than five summation letters for the first projection operator
    have key : ∀ k hm hn, k ≤ K → hm ≤ k → hm + hn ≤ hMax → (hm + hn < 3 ∨ hm = 0) → (mode = .lhs → hn = 0) → hn + (k - hm) ≤ cc → 6 ≤ k + hn → False := by
      intro k hm hn h1 h2 h3 h4 h5 h6 h7
      obtain ⟨p, hp, p1, p2⟩ := exists_projection (cc := cc) (pMax := pMax) (n := 0) (by omega) (by omega)
      obtain ⟨z, hz, z1, z2, z3⟩ := Zhz.exists_zOps (cc := cc) (gs := true) (m := hn + (k - hm)) (n := 0) (by omega) (fun _ => rfl)
      obtain ⟨c, hc, _⟩ := exists_contraction (lhs := p) (k := k) (h := ⟨hm + hn, hm, hn⟩) (z := z) (j := k - hm) (hl' := 0) (zl := 0) p1 z3
        ⟨by omega, by simp only; omega, by simp only; omega, by omega⟩
      obtain ⟨ps, e, hps⟩ := hall _ (List.mem_map.2 ⟨p, hp, rfl⟩)
      have hh : (⟨hm + hn, hm, hn⟩ : HOp) ∈ Zhz.prunedH hMax := Zhz.mem_prunedH.2 ⟨rfl, h3, h4⟩
      obtain ⟨i, hi, _⟩ := hps k h1 _ hh h5 z hz c hc
      injection e with e
      have hx : ps[i] ∈ ptermsOf mode hMax cc K p := e ▸ List.getElem_mem i.2
      have := (eq_of_shows p1 hh hz hc hx hi).2.2.2.1
      simp only at this
      omega
    rintro (⟨rfl, h⟩ | ⟨h1, h2, h3⟩ | ⟨h1, h2, h3, h4⟩ | ⟨h1, h2, h3⟩)
    · cases mode with
      | lhs => exact key 6 0 0 (by simpa using h) (by omega) (by omega) (by omega) (by simp) (by omega) (by omega)
      | rhs =>
        simp only [if_true] at h
        exact key (6 - min hMax 6) 0 (min hMax 6) (by omega) (by omega) (by omega) (by omega) (by simp) (by omega) (by omega)
    · exact key 6 1 0 h2 (by omega) (by omega) (by omega) (by simp) (by omega) (by omega)
    · subst h4
      exact key 5 1 1 h2 (by omega) (by omega) (by omega) (by simp) (by omega) (by omega)
    · exact key 6 2 0 h2 (by omega) (by omega) (by omega) (by simp) (by omega) (by omega)
  · intro hb s hs
    obtain ⟨ps, e, hps, _⟩ := eT_latex_exactly_once_partial hd hs
    refine ⟨ps, e, fun k hk h hh htk z hz c hc => (hps k hk h hh htk z hz c hc).2 ?_⟩
    obtain ⟨p, hp, rfl⟩ := List.mem_map.1 hs
    have hpm := mem_projections hp
    have hc' : Contraction p k h z c := hc
    have n := nums_of_facts (contraction_facts hpm.1 ((groundZ cc).n z hz) hc')
    have n1 := n.le
    have n2 := n.onH
    have n3 := n.onZ
    have n4 := n.onN
    have h1 := Zhz.mem_prunedH.1 hh
    have h2 := Zhz.mem_zOps hz
    refine ⟨?_, by show p.n ≤ 7; omega⟩
    by_contra hcap
    apply hb
    cases mode with
    | lhs =>
      have := htk rfl
      simp only [reduceCtorEq, if_false, and_false]
      omega
    | rhs =>
      simp only [if_true, and_true]
      have h3 : h.m = 0 ∨ h.m = 1 ∨ h.m = 2 := by omega
      clear hb hps hs hd
      rcases h3 with h3 | h3 | h3
      · left; omega
      · by_cases h6 : 6 ≤ k
        · right; left; omega
        · right; right; left; omega
      · right; right; right; omega

/-- **C37, LaTeX half, what holds.** The printed fraction of a term is the weight of each contraction it
shows. -/
theorem eT_latex_prefactor_partial {rf : Bool} {mode : Mode} {hMax cc K pMax : Nat} {d : List Section}
    (hd : document true rf mode hMax cc 1 K pMax = .ok d) {s : Section} (hs : s ∈ d) {ps : List PTerm} (hps : s.eqn.third = some ps)
    {x : PTerm} (hx : x ∈ ps) {k : Nat} {h : HOp} (hh : h ∈ Zhz.prunedH hMax) {z : Op} (hz : z ∈ Zhz.zOps cc true) {c : Pl k → Pl k → Nat}
    (hc : Contraction s.omega k h z c) (hsh : Shows x s.omega k h z c) : prefValue x.pref = weight c := by
  obtain ⟨hK, hr, rfl⟩ := mem_document hd
  obtain ⟨p, hp, rfl⟩ := List.mem_map.1 hs
  injection hps with hps
  subst hps
  have hpm := mem_projections hp
  rw [(eq_of_shows hpm.1 hh hz hc hx hsh).1]
  exact (prefValue_ptermOf hpm.1 ((groundZ cc).n z hz) hc).1

/-- **C37, LaTeX half.** A printed term shows as many contractions as there are ways to choose the t
factors paired with z, so that its fraction, the weight of one of them, is the coefficient (the sum of
their weights) if and only if h is paired with none or with all of the t factors. -/
theorem eT_latex_prefactor_iff {rf : Bool} {mode : Mode} {hMax cc K pMax : Nat} {d : List Section}
    (hd : document true rf mode hMax cc 1 K pMax = .ok d) {s : Section} (hs : s ∈ d) {ps : List PTerm} (hps : s.eqn.third = some ps)
    {x : PTerm} (hx : x ∈ ps) {k : Nat} {h : HOp} (hh : h ∈ Zhz.prunedH hMax) {z : Op} (hz : z ∈ Zhz.zOps cc true) {c : Pl k → Pl k → Nat}
    (hc : Contraction s.omega k h z c) (hsh : Shows x s.omega k h z c) {j : Nat}
    (hj : j = ((List.finRange (tFactors k).length).map fun i => c .z (.t i)).sum) :
    ∃ cs : List (Pl k → Pl k → Nat), cs.Nodup ∧ (∀ c', c' ∈ cs ↔ Contraction s.omega k h z c' ∧ Shows x s.omega k h z c') ∧
      cs.length = Nat.choose k j ∧ (cs.map weight).sum = Nat.choose k j * prefValue x.pref ∧
      (prefValue x.pref = (cs.map weight).sum ↔ j = 0 ∨ j = k) := by
  have hpart := fun c' (a : Contraction s.omega k h z c') b => eT_latex_prefactor_partial hd hs hps hx hh hz a b
  obtain ⟨hK, hr, rfl⟩ := mem_document hd
  obtain ⟨p, hp, rfl⟩ := List.mem_map.1 hs
  injection hps with hps
  subst hps
  have hpm := mem_projections hp
  have hzn := (groundZ cc).n z hz
  have hc' : Contraction p k h z c := hc
  have hsh' : Shows x p k h z c := hsh
  have n := nums_of_facts (contraction_facts hpm.1 hzn hc')
  obtain ⟨ex, _, _, cap, capN⟩ := eq_of_shows hpm.1 hh hz hc' hx hsh'
  have hjc : classOf c = j := hj.symm
  have hmem : ∀ c', c' ∈ classList p.n k h.n (classOf c) (c .h .lhs) ↔ Contraction p k h z c' ∧ Shows x p k h z c' := by
    intro c'
    rw [mem_classList hpm.1 hzn n]
    constructor
    · rintro ⟨h1, h2⟩
      refine ⟨h1, ?_⟩
      have n' := nums_of_facts (contraction_facts hpm.1 hzn h1)
      have e1 : c' .h .lhs = c .h .lhs := by
        have := n.onZ; have := n'.onZ; have := n.onN; have := n'.onN
        omega
      have := shows_ptermOf hpm.1 hzn h1 cap capN
      rw [h2, e1, ← ex] at this
      exact this
    · rintro ⟨h1, h2⟩
      rw [ex] at h2
      exact ⟨h1, (of_shows hpm.1 hzn n h1 h2).2.2.2.2.1⟩
  have hlen : (classList p.n k h.n (classOf c) (c .h .lhs)).length = Nat.choose k j := by
    unfold classList
    rw [List.length_map, Finset.length_toList, Finset.card_powersetCard, Finset.card_univ, Fintype.card_fin, TF.ETPy.length_t, hjc]
    unfold TF.ET.lenOf
    split
    · rename_i hk
      have h1 := n.le
      rw [hjc] at h1
      have : j = 0 := by omega
      subst this hk
      rfl
    · rfl
  have hsum : ((classList p.n k h.n (classOf c) (c .h .lhs)).map weight).sum = Nat.choose k j * prefValue x.pref := by
    have : (classList p.n k h.n (classOf c) (c .h .lhs)).map weight = List.replicate (Nat.choose k j) (prefValue x.pref) := by
      rw [List.eq_replicate_iff]
      refine ⟨by rw [List.length_map, hlen], ?_⟩
      intro w hw
      obtain ⟨c', hc', rfl⟩ := List.mem_map.1 hw
      exact (hpart c' ((hmem c').1 hc').1 ((hmem c').1 hc').2).symm
    rw [this, List.sum_replicate, nsmul_eq_mul]
  refine ⟨_, classList_nodup _ _ _ _ _, hmem, hlen, hsum, ?_⟩
  have hpos : prefValue x.pref ≠ 0 := by
    rw [hpart c hc hsh]
    have hm := (hmem c).2 ⟨hc', hsh'⟩
    unfold classList at hm
    obtain ⟨t, _, e⟩ := List.mem_map.1 hm
    rw [← e, weight_tableS]
    have ne : ∀ a : Nat, (a.factorial : Rat) ≠ 0 := fun a => by exact_mod_cast Nat.factorial_ne_zero a
    exact one_div_ne_zero (mul_ne_zero (ne _) (mul_ne_zero (mul_ne_zero (ne _) (ne _)) (ne _)))
  rw [hsum]
  have hjk : j ≤ k := by have := n.le; omega
  constructor
  · intro h
    have h1 : (Nat.choose k j : Rat) = 1 := by
      have : (Nat.choose k j : Rat) * prefValue x.pref = 1 * prefValue x.pref := by rw [one_mul]; exact h.symm
      exact mul_right_cancel₀ hpos this
    have h2 : Nat.choose k j = 1 := by exact_mod_cast h1
    rcases Nat.choose_eq_one_iff.1 h2 with h3 | h3
    · exact Or.inl h3
    · exact Or.inr h3.symm
  · rintro (rfl | rfl) <;> simp

/-- **C37, LaTeX half, the finding.** In every document with Taylor order 2 or more the term in which h
with one creation operator is paired with one of two t factors is printed with half its coefficient. -/
theorem eT_latex_prefactor_wrong {rf : Bool} {mode : Mode} {hMax cc K pMax : Nat} (hH : 1 ≤ hMax) (hcc : 1 ≤ cc) (hK : 2 ≤ K) {d : List Section}
    (hd : document true rf mode hMax cc 1 K pMax = .ok d) :
    ∃ s ∈ d, ∃ ps, s.eqn.third = some ps ∧ ∃ x ∈ ps, ∃ h ∈ Zhz.prunedH hMax, ∃ z ∈ Zhz.zOps cc true, ∃ cs : List (Pl 2 → Pl 2 → Nat),
      cs.Nodup ∧ (∀ c, c ∈ cs ↔ Contraction s.omega 2 h z c ∧ Shows x s.omega 2 h z c) ∧ cs.length = 2 ∧
      (cs.map weight).sum = 2 * prefValue x.pref ∧ prefValue x.pref ≠ (cs.map weight).sum := by
  have hd' := hd
  obtain ⟨_, hr, rfl⟩ := mem_document hd
  obtain ⟨p, hp, p1, p2⟩ := exists_projection (cc := cc) (pMax := pMax) (n := 0) (by omega) (by omega)
  obtain ⟨z, hz, z1, z2, z3⟩ := Zhz.exists_zOps (cc := cc) (gs := true) (m := 1) (n := 0) (by omega) (fun _ => rfl)
  have hh : (⟨1, 1, 0⟩ : HOp) ∈ Zhz.prunedH hMax := Zhz.mem_prunedH.2 ⟨rfl, hH, by simp⟩
  obtain ⟨c, hc, hcj, _⟩ := exists_contraction (lhs := p) (k := 2) (h := ⟨1, 1, 0⟩) (z := z) (j := 1) (hl' := 0) (zl := 0) p1 z3
    ⟨by omega, by simp, by simp only; omega, by omega⟩
  obtain ⟨x, hx, hsh⟩ := exists_shows (mode := mode) (hMax := hMax) (K := K) p1 hK (mem_taking.2 ⟨hh, fun _ => rfl⟩) hz hc (by simp) (by omega)
  have hmem : sectionOf mode hMax cc K p ∈ (projections cc pMax).map (sectionOf mode hMax cc K) := List.mem_map.2 ⟨p, hp, rfl⟩
  obtain ⟨cs, e1, e2, e3, e4, e5⟩ := eT_latex_prefactor_iff hd' hmem rfl hx hh hz hc hsh (j := 1) hcj.symm
  refine ⟨_, hmem, _, rfl, x, hx, _, hh, z, hz, cs, e1, e2, e3, ?_, ?_⟩
  · rw [e4]
    norm_num
  · rw [Ne, e5]
    omega

/-- **C66.** The external letters of a printed term are never those of the derivative the equation is
for: they come from different alphabets, so that the equation does not say which index is which (its
external letters are in the order of the alphabet, one for each operator of the projection). -/
theorem eT_latex_external_letters {rf : Bool} {mode : Mode} {hMax cc K pMax : Nat} (hcc : cc ≤ 7) {d : List Section}
    (hd : document true rf mode hMax cc 1 K pMax = .ok d) {s : Section} (hs : s ∈ d) {ps : List PTerm} (hps : s.eqn.third = some ps)
    {x : PTerm} (hx : x ∈ ps) : reds x = zUnlinked.take s.omega.n ∧ (reds x).length = s.zUpper.length ∧ ∀ y ∈ s.zUpper, y ∉ reds x := by
  obtain ⟨hK, hr, rfl⟩ := mem_document hd
  obtain ⟨p, hp, rfl⟩ := List.mem_map.1 hs
  injection hps with hps
  subst hps
  have hpm := mem_projections hp
  obtain ⟨k, _, h, _, z, hz, c, hc, rfl⟩ := mem_ptermsOf hpm.1 hx
  have e := reds_ptermOf (nums_of_facts (contraction_facts hpm.1 ((groundZ cc).n z hz) hc))
  rw [e]
  have hU : zUnlinked.length = 7 := rfl
  have hS : summationIdx.length = 10 := rfl
  refine ⟨?_, ?_, ?_⟩
  · show slice zUnlinked 0 (0 + p.n) = _
    rw [Nat.zero_add, TF.CC.slice_zero]
    rfl
  · rw [length_at' (by omega)]
    show p.n = (slice summationIdx 0 p.n).length
    rw [length_slice]
    omega
  · intro y hy hy'
    have h1 : y ∈ summationIdx := by
      have : y ∈ slice summationIdx 0 p.n := hy
      rw [TF.CC.slice_zero] at this
      exact List.take_subset _ _ this
    have h2 := mem_of_at' hy'
    revert h2
    clear hy hy'
    revert y
    decide

/-- **C67.** The other parts of an equation.  The left-hand side has none.  On the right-hand side a bare
h with as many upper letters as the projection operator has annihilation operators is printed in
every equation, while the truncated Hamiltonian has this operator if and only if that number is at most
2 and at most `H`; and the last sum gives for each `k` the last `k` of the letters of the derivative to
z and the others to the differentiated amplitude. -/
theorem eT_latex_other_terms {rf : Bool} {mode : Mode} {hMax cc K pMax : Nat} {d : List Section}
    (hd : document true rf mode hMax cc 1 K pMax = .ok d) {s : Section} (hs : s ∈ d) :
    (mode = .lhs → s.eqn.first = none ∧ s.eqn.fifth = none) ∧
    (mode = .rhs →
      s.eqn.first = some (if s.omega.n = 0 then none else some (s.zUpper, [])) ∧
      ((∃ h ∈ Zhz.prunedH hMax, h.m = s.omega.n ∧ h.n = 0) ↔ s.omega.n ≤ hMax ∧ s.omega.n < 3) ∧
      ∃ f, s.eqn.fifth = some f ∧ f.length = s.omega.n + 1 ∧ ∀ k (hk : k < f.length),
        f[k].tLower = [] ∧ f[k].zUpper.length = k ∧ f[k].tUpper ++ f[k].zUpper = s.zUpper) := by
  obtain ⟨hK, hr, rfl⟩ := mem_document hd
  obtain ⟨p, hp, rfl⟩ := List.mem_map.1 hs
  have hpm := mem_projections hp
  have hS : summationIdx.length = 10 := rfl
  refine ⟨fun h => by subst h; exact ⟨rfl, rfl⟩, fun h => ?_⟩
  subst h
  refine ⟨?_, ?_, Zhz.fifthZ p, rfl, by simp [Zhz.fifthZ, sectionOf], ?_⟩
  · show some (Zhz.firstZ p) = some (if p.n = 0 then none else some (slice summationIdx 0 p.n, []))
    unfold Zhz.firstZ
    have : p.rank = p.n := by omega
    rw [this, hpm.1, Nat.add_zero, slice_self']
  · show (∃ h ∈ Zhz.prunedH hMax, h.m = p.n ∧ h.n = 0) ↔ p.n ≤ hMax ∧ p.n < 3
    constructor
    · rintro ⟨h, hh, h1, h2⟩
      have := Zhz.mem_prunedH.1 hh
      omega
    · rintro ⟨h1, h2⟩
      exact ⟨⟨p.n + 0, p.n, 0⟩, Zhz.mem_prunedH.2 ⟨rfl, by simpa using h1, Or.inl (by simpa using h2)⟩, rfl, rfl⟩
  · intro k hk
    have hk' : k ≤ p.n := by simp [Zhz.fifthZ] at hk; omega
    have hrk : p.rank = p.n := by omega
    simp only [Zhz.fifthZ, List.getElem_map, List.getElem_range]
    refine ⟨by rw [hpm.1, Nat.add_zero, slice_self'], by rw [length_slice]; omega, ?_⟩
    show slice summationIdx 0 (p.n - k) ++ slice summationIdx (p.rank - k) p.rank = slice summationIdx 0 p.n
    rw [hrk]
    simp only [slice, List.drop_zero]
    have : List.take (p.n - k) summationIdx = List.take (p.n - k) (List.take p.n summationIdx) := by
      rw [List.take_take, Nat.min_eq_left (Nat.sub_le _ _)]
    rw [this, List.take_append_drop]

/-! ## Examples -/

example : ∃ d, document true true .rhs 2 2 1 2 2 = .ok d := (eT_latex_ok_iff _ _ _ _ _ _ _).2 ⟨rfl, by decide, by decide⟩

example : ¬ (∃ d, document true true .rhs 2 2 1 0 2 = .ok d) ∧ ¬ ∃ d, document false true .rhs 2 2 1 2 2 = .ok d :=
  ⟨fun h => absurd ((eT_latex_ok_iff _ _ _ _ _ _ _).1 h).2.1 (by decide), fun h => absurd ((eT_latex_ok_iff _ _ _ _ _ _ _).1 h).1 (by decide)⟩

/-- Nine texts are printed on three lines. -/
example : TF.ET.lines ["a", "b", "c", "d", "e", "f", "g", "h", "i"] = [["a", "b", "c", "d"], ["e", "f", "g", "h"], ["i"]] := by decide

/-- Two of these terms have the same text: the second is left out. -/
example : firstsBy (fun n : Nat => if n % 2 = 0 then "even" else "odd") [] [3, 4, 5, 6] = [3, 4] := by decide

/-- The hypotheses of the prefactor theorems are met by the section of the wrong term. -/
example : ∃ d, document true true .lhs 2 2 1 2 2 = .ok d ∧ ∃ s ∈ d, ∃ ps, s.eqn.third = some ps ∧ ps ≠ [] := by
  obtain ⟨d, hd⟩ := (eT_latex_ok_iff true true .lhs 2 2 2 2).2 ⟨rfl, by decide, by decide⟩
  obtain ⟨s, hs, ps, hps, x, hx, _⟩ := eT_latex_prefactor_wrong (by decide) (by decide) (by decide) hd
  exact ⟨d, hd, s, hs, ps, hps, List.ne_nil_of_mem hx⟩

end TF.ETLatex
