import Verif.Props.Zhz
import Verif.Lemmas.ZhzPref
import Verif.Lemmas.ZhzDoc

/-!
# The z_t (ZHZ) document

C32 prefactors; C33 lines; C55-C59 contents of the document.
-/

namespace TF.Zhz

open TF.Py
open TF.CC (Op HOp hamiltonian omegaOps omegaOps_exact omegaOps_nodup summationIdx collect_ok_iff one)
open TF.Spec.Zhz

/-! ## Prefactors -/

/-- **C32.** The prefactor printed with a generated h z term has the value one over the product of the
factorials of all contraction numbers; so has the pair of numbers kept for the simplified text. -/
theorem zhz_prefactor {lhs : Op} {H : List HOp} {zs : List Op} {ts : List Term}
    (hts : filterTerms lhs H none (some zs) = .ok ts) (hz : ∀ z ∈ zs, z.rank = z.m + z.n) {t : Term} (ht : t ∈ ts)
    (rf : Bool) {ps : List PTerm} (hps : thirdTerm rf true t = .ok ps) {p : PTerm} (hp : p ∈ ps) :
    ∃ q, p.pref = some q ∧ prefValue q = 1 / (weight (created t) : Rat) ∧
      (q.numVal : Rat) / (q.denVal : Rat) = 1 / (weight (created t) : Rat) := by
  have hf := fits_of_generated hts (by simp) (by rintro l ⟨⟩; exact hz) ht
  obtain ⟨s1, -, -, s4⟩ := sides_of_generated hts ht
  obtain ⟨r, hr⟩ := s4 _ rfl
  have hl := s1 rfl
  rw [thirdTerm_eq hr hf] at hps
  injection hps with hps
  subst hps
  split at hp
  · simp at hp
  rw [List.mem_singleton] at hp
  subst hp
  obtain ⟨r1, r2, r3⟩ := hf.right r hr
  have a1 := hf.agree .left .h; have a2 := hf.agree .left .right; have a3 := hf.agree .h .left
  have a4 := hf.agree .right .left; have a5 := hf.agree .right .h; have a6 := hf.agree .h .right
  have e1 := hf.agree .left .lhs; have e2 := hf.agree .lhs .left; have e3 := hf.agree .h .lhs
  have e4 := hf.agree .lhs .h; have e5 := hf.agree .lhs .right
  simp only [created, annihilated, hl, hr, get] at a1 a2 a3 a4 a5 a6 e1 e2 e3 e4 e5
  have hm := hf.hm
  have hn := hf.hn
  have w : (weight (created t) : Nat) = t.h.m_r.factorial * t.h.m_lhs.factorial * t.h.n_r.factorial *
      t.h.n_lhs.factorial * r.m_lhs.factorial * r.n_lhs.factorial := by
    simp only [weight, places, List.map_cons, List.map_nil, List.prod_cons, List.prod_nil, created, hl, hr, get,
      Nat.factorial_zero, Nat.one_mul, Nat.mul_one]
    rw [show t.lhs.m_l = 0 by omega, show t.lhs.m_h = t.h.n_lhs by omega, show t.lhs.m_r = r.n_lhs by omega,
      show t.h.m_l = 0 by omega, show r.m_h = t.h.n_r by omega, show r.m_z = 0 by omega]
    simp only [Nat.factorial_zero, Nat.one_mul, Nat.mul_one]
    ring
  refine ⟨_, rfl, ?_, ?_⟩
  · rw [(zBlock_value _ (show r.n_lhs + r.n_h = r.n by omega)).1, (zBlock_value _ (show r.m_lhs + r.m_h = r.m by omega)).1,
      (hBlock_value _ (show t.h.n_r + t.h.n_lhs = t.h.n by omega)).1,
      (hBlock_value _ (show t.h.m_r + t.h.m_lhs = t.h.m by omega)).1, w]
    simp only [prefValue, List.map_nil, List.prod_nil]
    push_cast
    simp only [one_div, mul_inv, inv_one]
    ring
  · change numericValue _ = _
    rw [(zBlock_value _ (show r.n_lhs + r.n_h = r.n by omega)).2, (zBlock_value _ (show r.m_lhs + r.m_h = r.m by omega)).2,
      (hBlock_value _ (show t.h.n_r + t.h.n_lhs = t.h.n by omega)).2,
      (hBlock_value _ (show t.h.m_r + t.h.m_lhs = t.h.m by omega)).2, w]
    simp only [numericValue]
    push_cast
    simp only [one_div, mul_inv, inv_one]
    ring

/-- With a z operator on the left no prefactor is available: the program stops. -/
theorem zhz_prefactor_left (h : TF.Zhz.HC) (l r : Z) : hzPrefactor h (some l) r = .error .notImplemented := rfl

/-! ## Lines -/

/-- **C33, what holds.** The lines printed for a sum contain every term exactly once if and only if
there are fewer than 14 terms or their number leaves the remainder 3 when divided by 7. -/
theorem zhz_lines_iff {α : Type} (l : List α) :
    ((lines 7 l).flatten.Perm l ↔ l.length < 14 ∨ l.length % 7 = 3) ∧
    ((lines 7 l).flatten = l ↔ l.length < 14 ∨ l.length % 7 = 3) := by
  have h1 : (lines 7 l).flatten.length = l.length → l.length < 14 ∨ l.length % 7 = 3 := by
    intro h
    by_cases h' : l.length < 14
    · exact Or.inl h'
    · have := lines_length 7 (by omega) l (by omega) h
      omega
  have h2 : l.length < 14 ∨ l.length % 7 = 3 → (lines 7 l).flatten = l := by
    intro h
    exact lines_complete 7 (by omega) l (by omega) (by omega)
  exact ⟨⟨fun h => h1 h.length_eq, fun h => by rw [h2 h]⟩, ⟨fun h => h1 (by rw [h]), h2⟩⟩

/-! ## The document -/

/-- A contribution of `h` to a ground-state equation exists exactly when the numbers fit, and then
there is only one. -/
theorem contributes_iff (lhs : Op) (cc : Nat) (h : HOp) :
    (contributes lhs cc h = true ↔ ∃ z ∈ zOps cc true, ∃ c, IsPairing (creators lhs h none (some z))
      (annihilators lhs h none (some z)) c) ∧
    ∀ z ∈ zOps cc true, ∀ c, IsPairing (creators lhs h none (some z)) (annihilators lhs h none (some z)) c →
      c = gsTable lhs h := by
  have key : ∀ z ∈ zOps cc true, ∀ c, IsPairing (creators lhs h none (some z))
      (annihilators lhs h none (some z)) c → contributes lhs cc h = true ∧ c = gsTable lhs h := by
    intro z hz c hc
    have hl := pairing_lin (p := (none, some z)) hc
    simp only [slot] at hl
    have h1 := (mem_zOps hz).2.2 rfl
    have h2 := (mem_zOps hz).2.1
    refine ⟨?_, ?_⟩
    · simp only [contributes, Bool.and_eq_true, decide_eq_true_eq]; omega
    · funext i j
      cases i <;> cases j <;> simp only [gsTable] <;> omega
  refine ⟨⟨?_, ?_⟩, fun z hz c hc => (key z hz c hc).2⟩
  · intro hg
    have hb := hg
    simp only [contributes, Bool.and_eq_true, decide_eq_true_eq] at hb
    obtain ⟨z, hz, z1, z2, z3⟩ := exists_zOps (cc := cc) (gs := true) (m := (lhs.n - h.m) + (h.n - lhs.m)) (n := 0)
      (by omega) (fun _ => rfl)
    exact ⟨z, hz, _, gsTable_pairing hg z2 z3⟩
  · rintro ⟨z, hz, c, hc⟩
    exact (key z hz c hc).1

/-- **C56.** The document is generated if and only if only the ground state is requested and the
smaller of the coupled-cluster rank and the projection order is at most 8. -/
theorem zhz_document_ok_iff (gs rf : Bool) (hMax cc pMax : Nat) :
    (∃ d, document gs rf hMax cc pMax = .ok d) ↔ gs = true ∧ min cc pMax ≤ 8 := by
  constructor
  · rintro ⟨d, hd⟩
    unfold document at hd
    rw [collect_ok_iff] at hd
    obtain ⟨g, hg, -⟩ := hd
    -- every projection operator has a pair in the list
    have hpair : ∀ o ∈ omegaOps cc pMax, ∃ q, (o, q) ∈ (omegaOps cc pMax).zip (previous (omegaOps cc pMax)) := by
      intro o ho
      obtain ⟨k, hk, rfl⟩ := List.getElem_of_mem ho
      have hk' : k < (previous (omegaOps cc pMax)).length := by rw [previous_length]; exact hk
      refine ⟨(previous (omegaOps cc pMax))[k], ?_⟩
      rw [List.mem_iff_getElem]
      exact ⟨k, by simp [hk, hk'], by simp⟩
    have hcase : ∀ m, m ≤ min cc pMax → ∃ o ∈ omegaOps cc pMax, o.rank = m := by
      intro m hm
      exact ⟨⟨TF.CC.rep 'd' m ++ TF.CC.rep 'b' 0, m + 0, m, 0⟩,
        (omegaOps_exact cc pMax _).2 ⟨rfl, rfl, by simp only; omega, by simp only; omega⟩, rfl⟩
    refine ⟨?_, ?_⟩
    · cases gs with
      | true => rfl
      | false =>
        obtain ⟨o, ho, -⟩ := hcase 0 (Nat.zero_le _)
        obtain ⟨q, hq⟩ := hpair o ho
        have h1 := hg _ hq
        simp only [sectionFor, equation, Bool.not_false, if_true] at h1
        cases ha : rankNames[o.rank]? with
        | none => rw [ha] at h1; simp [one] at h1
        | some x =>
          rw [ha] at h1
          simp only [] at h1
          cases hb : omegaLetters o with
          | error e => rw [hb] at h1; simp [one] at h1
          | ok y => rw [hb] at h1; simp [one] at h1
    · by_contra h9
      obtain ⟨o, ho, hr⟩ := hcase 9 (by omega)
      obtain ⟨q, hq⟩ := hpair o ho
      have h1 := hg _ hq
      simp only [] at h1
      rw [sectionFor_high _ _ _ _ _ (by omega)] at h1
      simp [one] at h1
  · rintro ⟨rfl, h⟩
    exact ⟨_, document_gs rf hMax cc pMax h⟩

theorem previous_cons {l : List Op} (h : l ≠ []) : previous l = l.getLast h :: l.dropLast := by
  unfold previous
  rw [List.getLast?_eq_some_getLast h]

theorem zip_map_fst_prev (l : List Op) : ((l.zip (previous l)).map Prod.fst) = l :=
  List.map_fst_zip (by rw [previous_length])

theorem mem_document {rf : Bool} {hMax cc pMax : Nat} {d : List Section}
    (hd : document true rf hMax cc pMax = .ok d) {s : Section} (hs : s ∈ d) :
    s.omega ∈ omegaOps cc pMax ∧ ∃ prev, s = gsSection (prunedH hMax) cc s.omega prev := by
  have h := ((zhz_document_ok_iff _ _ _ _ _).1 ⟨d, hd⟩).2
  rw [document_gs rf hMax cc pMax h] at hd
  injection hd with hd
  subst hd
  obtain ⟨⟨a, b⟩, hp, rfl⟩ := List.mem_map.1 hs
  exact ⟨mem_zip_left hp, b, rfl⟩

/-- **C56.** The document has one section per projection operator, in order, and does not depend on the
request to remove f terms; a section starts with a heading exactly when its rank is above the one
before it. -/
theorem zhz_document_sections (rf : Bool) (hMax cc pMax : Nat) {d : List Section}
    (hd : document true rf hMax cc pMax = .ok d) :
    d.map Section.omega = omegaOps cc pMax ∧ document true (!rf) hMax cc pMax = .ok d ∧
    ∀ k (hk : k + 1 < d.length), (d[k + 1].heading ≠ none ↔ d[k].omega.rank < d[k + 1].omega.rank) := by
  have h := ((zhz_document_ok_iff _ _ _ _ _).1 ⟨d, hd⟩).2
  have hd' := hd
  rw [document_gs rf hMax cc pMax h] at hd
  refine ⟨?_, ?_, ?_⟩
  · injection hd with hd
    rw [← hd, List.map_map]
    exact zip_map_fst_prev _
  · rw [document_gs _ hMax cc pMax h, hd]
  · injection hd with hd
    subst hd
    intro k hk
    simp only [List.length_map, List.length_zip, previous_length, Nat.min_self] at hk
    have hne : omegaOps cc pMax ≠ [] := by rintro h; rw [h] at hk; simp at hk
    have hmem : (omegaOps cc pMax)[k + 1] ∈ omegaOps cc pMax := List.getElem_mem hk
    obtain ⟨-, m2, m3, m4⟩ := (omegaOps_exact cc pMax _).1 hmem
    have hp : (previous (omegaOps cc pMax))[k + 1]'(by rw [previous_length]; exact hk) = (omegaOps cc pMax)[k] := by
      simp [previous_cons hne]
    simp only [List.getElem_map, List.getElem_zip, gsSection, hp]
    have hlen : rankNames.length = 9 := rfl
    rw [List.getElem?_eq_getElem (by omega)]
    by_cases hr : (omegaOps cc pMax)[k + 1].rank > (omegaOps cc pMax)[k].rank
    · simp [hr]
    · simp [hr]

theorem created_gsTerm (lhs : Op) (h : HOp) : created (gsTerm lhs h) = gsTable lhs h := by
  funext i j
  cases i <;> cases j <;> rfl

theorem gs_printed {omega : Op} {cc : Nat} {h : HOp} {H : List HOp} (hH : h ∈ H) (hg : contributes omega cc h = true) :
    let p := thirdP true (gsTerm omega h) (gsZ omega h)
    p.f = leftToRight (gsTable omega h) ∧ p.fbar = rightToLeft (gsTable omega h) ∧
    (∃ q, p.pref = some q ∧ prefValue q = 1 / (weight (gsTable omega h) : Rat)) ∧
    (Describes (gsTable omega h) (occurrences p) ↔ summed (gsTable omega h) ≤ 5 ∧ omega.m + omega.n ≤ 7) := by
  have ht : gsTerm omega h ∈ (H.filter (contributes omega cc)).map (gsTerm omega) :=
    List.mem_map.2 ⟨h, List.mem_filter.2 ⟨hH, hg⟩, rfl⟩
  have hz : ∀ z ∈ zOps cc true, z.rank = z.m + z.n := fun z hz => (mem_zOps hz).1
  have heq := thirdTerm_eq (gsTerm_right omega h) (gsTerm_fits hg) false true
  have hmem : thirdP true (gsTerm omega h) (gsZ omega h) ∈
      (if false && decide ((gsTerm omega h).h.m_r > 0) then [] else [thirdP true (gsTerm omega h) (gsZ omega h)]) := by
    simp
  obtain ⟨ps, h1, -, h3⟩ := zhz_labels_hz (gs_terms omega H cc) hz ht false true
  rw [heq] at h1
  injection h1 with h1
  subst h1
  obtain ⟨h4, h5, h6⟩ := h3 _ hmem
  obtain ⟨q, h7, h8, -⟩ := zhz_prefactor (gs_terms omega H cc) hz ht false heq hmem
  rw [created_gsTerm] at h4 h5 h6 h8
  exact ⟨h5, h6, ⟨q, h7, h8⟩, h4⟩

/-- **C56.** In every equation there is exactly one term of the h z sum for every operator of the pruned
Hamiltonian that contributes, in the order of the Hamiltonian.  It shows the powers of f, the prefactor
and (if the letters suffice) the labels of the contraction. -/
theorem zhz_equation_terms {rf : Bool} {hMax cc pMax : Nat} {d : List Section}
    (hd : document true rf hMax cc pMax = .ok d) {s : Section} (hs : s ∈ d) :
    (s.eqn.third = none ↔ (prunedH hMax).filter (contributes s.omega cc) = []) ∧
    List.Forall₂ (fun h p => ∀ z ∈ zOps cc true, ∀ c, IsPairing (creators s.omega h none (some z))
        (annihilators s.omega h none (some z)) c →
      p.f = leftToRight c ∧ p.fbar = rightToLeft c ∧ (∃ q, p.pref = some q ∧ prefValue q = 1 / (weight c : Rat)) ∧
      (Describes c (occurrences p) ↔ summed c ≤ 5 ∧ s.omega.m + s.omega.n ≤ 7))
      ((prunedH hMax).filter (contributes s.omega cc)) (s.eqn.third.getD []) := by
  obtain ⟨-, prev, hp⟩ := mem_document hd hs
  have h3 : s.eqn.third = if (prunedH hMax).filter (contributes s.omega cc) = [] then none
      else some (((prunedH hMax).filter (contributes s.omega cc)).map fun h =>
        thirdP true (gsTerm s.omega h) (gsZ s.omega h)) := by rw [hp]; rfl
  rw [h3]
  refine ⟨by simp, ?_⟩
  have h4 : (if (prunedH hMax).filter (contributes s.omega cc) = [] then none
      else some (((prunedH hMax).filter (contributes s.omega cc)).map fun h =>
        thirdP true (gsTerm s.omega h) (gsZ s.omega h))).getD [] =
      ((prunedH hMax).filter (contributes s.omega cc)).map fun h => thirdP true (gsTerm s.omega h) (gsZ s.omega h) := by
    split
    · rename_i he; rw [he]; rfl
    · rfl
  rw [h4, List.forall₂_map_right_iff, List.forall₂_same]
  intro h hh z hz c hc
  rw [List.mem_filter] at hh
  rw [(contributes_iff s.omega cc h).2 z hz c hc]
  exact gs_printed hh.1 hh.2

theorem third_getD {rf : Bool} {hMax cc pMax : Nat} {d : List Section}
    (hd : document true rf hMax cc pMax = .ok d) {s : Section} (hs : s ∈ d) :
    s.eqn.third.getD [] = ((prunedH hMax).filter (contributes s.omega cc)).map fun h =>
      thirdP true (gsTerm s.omega h) (gsZ s.omega h) := by
  obtain ⟨-, prev, hp⟩ := mem_document hd hs
  rw [hp]
  simp only [gsSection]
  split
  · rename_i he; rw [he]; rfl
  · rfl

/-- **C31, whole document.** All labels printed in the document describe their contractions if and only
if the smaller of Hamiltonian and coupled-cluster rank is at most 5 and the smaller of coupled-cluster
rank and projection order is at most 7. -/
theorem zhz_document_labels_iff {rf : Bool} {hMax cc pMax : Nat} {d : List Section}
    (hd : document true rf hMax cc pMax = .ok d) :
    (∀ s ∈ d, List.Forall₂ (fun h p => ∀ z ∈ zOps cc true, ∀ c, IsPairing (creators s.omega h none (some z))
        (annihilators s.omega h none (some z)) c → Describes c (occurrences p))
      ((prunedH hMax).filter (contributes s.omega cc)) (s.eqn.third.getD [])) ↔
    min hMax cc ≤ 5 ∧ min cc pMax ≤ 7 := by
  have hsum : ∀ omega h, summed (gsTable omega h) = h.n - omega.m := by
    intro omega h; simp [summed, gsTable]
  have hsec : ∀ o ∈ omegaOps cc pMax, ∃ s ∈ d, s.omega = o := by
    intro o ho
    rw [← (zhz_document_sections rf hMax cc pMax hd).1, List.mem_map] at ho
    obtain ⟨s, hs, rfl⟩ := ho
    exact ⟨s, hs, rfl⟩
  have hred : ∀ s ∈ d, (List.Forall₂ (fun h p => ∀ z ∈ zOps cc true, ∀ c, IsPairing (creators s.omega h none (some z))
        (annihilators s.omega h none (some z)) c → Describes c (occurrences p))
      ((prunedH hMax).filter (contributes s.omega cc)) (s.eqn.third.getD [])) ↔
      ∀ h ∈ prunedH hMax, contributes s.omega cc h = true → h.n - s.omega.m ≤ 5 ∧ s.omega.m + s.omega.n ≤ 7 := by
    intro s hs
    rw [third_getD hd hs, List.forall₂_map_right_iff, List.forall₂_same]
    constructor
    · intro hA h hh hg
      obtain ⟨z, hz, c, hc⟩ := (contributes_iff s.omega cc h).1.1 hg
      have := hA h (List.mem_filter.2 ⟨hh, hg⟩) z hz c hc
      rw [(contributes_iff s.omega cc h).2 z hz c hc] at this
      have := (gs_printed hh hg).2.2.2.1 this
      rwa [hsum] at this
    · intro hA h hh z hz c hc
      rw [List.mem_filter] at hh
      rw [(contributes_iff s.omega cc h).2 z hz c hc]
      refine (gs_printed hh.1 hh.2).2.2.2.2 ?_
      rw [hsum]
      exact hA h hh.1 hh.2
  constructor
  · intro hA
    constructor
    · -- the operator of the highest rank in the equation of rank 0
      obtain ⟨s, hs, ho⟩ := hsec ⟨TF.CC.rep 'd' 0 ++ TF.CC.rep 'b' 0, 0, 0, 0⟩
        ((omegaOps_exact cc pMax _).2 ⟨rfl, rfl, Nat.zero_le _, Nat.zero_le _⟩)
      have := (hred s hs).1 (hA s hs) ⟨min hMax cc, 0, min hMax cc⟩ (mem_prunedH.2 ⟨by simp, by simp, by simp⟩)
        (by rw [ho]; simp only [contributes, Bool.and_eq_true, decide_eq_true_eq]; omega)
      rw [ho] at this
      simpa using this.1
    · obtain ⟨s, hs, ho⟩ := hsec ⟨TF.CC.rep 'd' 0 ++ TF.CC.rep 'b' (min cc pMax), 0 + min cc pMax, 0, min cc pMax⟩
        ((omegaOps_exact cc pMax _).2 ⟨rfl, rfl, by simp only; omega, by simp only; omega⟩)
      have := (hred s hs).1 (hA s hs) ⟨0, 0, 0⟩ (mem_prunedH.2 ⟨by simp, by simp, by simp⟩)
        (by rw [ho]; simp only [contributes, Bool.and_eq_true, decide_eq_true_eq]; omega)
      rw [ho] at this
      simpa using this.2
  · rintro ⟨h5, h7⟩ s hs
    refine (hred s hs).2 ?_
    intro h hh hg
    obtain ⟨-, o2, o3, o4⟩ := (omegaOps_exact cc pMax _).1 (mem_document hd hs).1
    rw [mem_prunedH] at hh
    simp only [contributes, Bool.and_eq_true, decide_eq_true_eq] at hg
    omega

/-- **C33, whole document (partial).** With Hamiltonian rank at most 9 or coupled-cluster rank at most
11 (in particular for all verified truncations, which are at most 6) every sum is printed completely.
Missing: larger truncations, for which the claim is false (`zhz_document_lines_false`). -/
theorem zhz_document_lines_partial {rf : Bool} {hMax cc pMax : Nat} {d : List Section}
    (hd : document true rf hMax cc pMax = .ok d) (hr : hMax ≤ 9 ∨ cc ≤ 11) {s : Section} (hs : s ∈ d) :
    (lines 7 (s.eqn.third.getD [])).flatten = s.eqn.third.getD [] := by
  rw [(zhz_lines_iff _).2]
  left
  rw [third_getD hd hs, List.length_map]
  obtain ⟨-, o2, o3, o4⟩ := (omegaOps_exact cc pMax _).1 (mem_document hd hs).1
  generalize s.omega = o at *
  have hnd : (((prunedH hMax).filter (contributes o cc)).map fun h => (h.m, h.n)).Nodup :=
    (prunedH_keys_nodup hMax).sublist ((List.filter_sublist).map _)
  have hmem : ∀ x ∈ ((prunedH hMax).filter (contributes o cc)).map fun h => (h.m, h.n),
      x.1 ≤ o.n ∧ o.m ≤ x.2 ∧ (o.n - x.1) + (x.2 - o.m) ≤ cc ∧ x.1 + x.2 ≤ hMax ∧ (x.1 + x.2 < 3 ∨ x.1 = 0) := by
    intro x hx
    obtain ⟨h, hh, rfl⟩ := List.mem_map.1 hx
    rw [List.mem_filter, mem_prunedH] at hh
    obtain ⟨⟨h1, h2, h3⟩, h4⟩ := hh
    simp only [contributes, Bool.and_eq_true, decide_eq_true_eq] at h4
    simp only
    omega
  have hsub : ∀ B : Nat, ∀ L : List (Nat × Nat), (∀ x ∈ ((prunedH hMax).filter (contributes o cc)).map fun h => (h.m, h.n),
      x ∈ ((List.range B).map fun k => (0, o.m + k)) ++ L) →
      ((prunedH hMax).filter (contributes o cc)).length ≤ B + L.length := by
    intro B L h
    have := (List.Nodup.subperm hnd h).length_le
    simpa using this
  by_cases h0 : o.n = 0
  · have := hsub 12 [] (by
      intro x hx
      have := hmem x hx
      obtain ⟨a, b⟩ := x
      simp only at this
      rw [List.append_nil, List.mem_map]
      exact ⟨b - o.m, List.mem_range.2 (by omega), by simp only [Prod.mk.injEq]; omega⟩)
    simpa using Nat.lt_of_le_of_lt this (by decide)
  · by_cases h1 : o.n = 1
    · have := hsub 11 [(1, 0), (1, 1)] (by
        intro x hx
        have := hmem x hx
        obtain ⟨a, b⟩ := x
        simp only at this
        rw [List.mem_append, List.mem_map]
        by_cases ha : a = 0
        · left; exact ⟨b - o.m, List.mem_range.2 (by omega), by simp only [Prod.mk.injEq]; omega⟩
        · right
          have : (a = 1 ∧ b = 0) ∨ (a = 1 ∧ b = 1) := by omega
          rcases this with ⟨rfl, rfl⟩ | ⟨rfl, rfl⟩ <;> simp)
      simpa using Nat.lt_of_le_of_lt this (by decide)
    · have := hsub 10 [(1, 0), (1, 1), (2, 0)] (by
        intro x hx
        have := hmem x hx
        obtain ⟨a, b⟩ := x
        simp only at this
        rw [List.mem_append, List.mem_map]
        by_cases ha : a = 0
        · left; exact ⟨b - o.m, List.mem_range.2 (by omega), by simp only [Prod.mk.injEq]; omega⟩
        · right
          have : (a = 1 ∧ b = 0) ∨ (a = 1 ∧ b = 1) ∨ (a = 2 ∧ b = 0) := by omega
          rcases this with ⟨rfl, rfl⟩ | ⟨rfl, rfl⟩ | ⟨rfl, rfl⟩ <;> simp)
      simpa using Nat.lt_of_le_of_lt this (by decide)

/-- **C33 is false in general**: with Hamiltonian rank 10, coupled-cluster rank 12 and projection order
2 the equation of the projection on two annihilation operators has 14 terms, and what is printed is
not these terms. -/
theorem zhz_document_lines_false (rf : Bool) : ∃ d, document true rf 10 12 2 = .ok d ∧
    ∃ s ∈ d, (s.eqn.third.getD []).length = 14 ∧
      ¬ (lines 7 (s.eqn.third.getD [])).flatten.Perm (s.eqn.third.getD []) := by
  obtain ⟨d, hd⟩ := (zhz_document_ok_iff true rf 10 12 2).2 (by decide)
  refine ⟨d, hd, ?_⟩
  have ho : (⟨TF.CC.rep 'd' 0 ++ TF.CC.rep 'b' 2, 0 + 2, 0, 2⟩ : Op) ∈ omegaOps 12 2 :=
    (omegaOps_exact 12 2 _).2 ⟨rfl, rfl, by decide, by decide⟩
  rw [← (zhz_document_sections rf 10 12 2 hd).1, List.mem_map] at ho
  obtain ⟨s, hs, ho⟩ := ho
  have hlen : (s.eqn.third.getD []).length = 14 := by
    rw [third_getD hd hs, List.length_map, ho]; rfl
  refine ⟨s, hs, hlen, ?_⟩
  rw [(zhz_lines_iff _).1, hlen]
  decide

/-! ## The other terms of an equation -/

/-- **C55, what is printed.** The last sum of an equation has one product of a differentiated amplitude
and a z operator for every number of annihilation operators given to z.  The letters of the
projection operator are used exactly once each if and only if the projection operator has no creation
operators or z has no letters; otherwise a letter is printed twice. -/
theorem zhz_fifth_letters {rf : Bool} {hMax cc pMax : Nat} {d : List Section}
    (hd : document true rf hMax cc pMax = .ok d) {s : Section} (hs : s ∈ d) :
    s.eqn.fifth.length = s.omega.n + 1 ∧ ∀ k (hk : k < s.eqn.fifth.length),
      s.eqn.fifth[k].tUpper.length = s.omega.n - k ∧ s.eqn.fifth[k].tLower.length = s.omega.m ∧
      s.eqn.fifth[k].zUpper.length = k ∧
      ((s.eqn.fifth[k].tUpper ++ s.eqn.fifth[k].tLower ++ s.eqn.fifth[k].zUpper).Perm
        (summationIdx.take s.omega.rank) ↔ s.omega.m = 0 ∨ k = 0) ∧
      ((s.eqn.fifth[k].tUpper ++ s.eqn.fifth[k].tLower ++ s.eqn.fifth[k].zUpper).Nodup ↔ s.omega.m = 0 ∨ k = 0) := by
  obtain ⟨h0, prev, hp⟩ := mem_document hd hs
  obtain ⟨-, o2, o3, o4⟩ := (omegaOps_exact cc pMax _).1 h0
  have h8 := ((zhz_document_ok_iff _ _ _ _ _).1 ⟨d, hd⟩).2
  have hr : s.omega.rank ≤ 8 := by omega
  have hfi : s.eqn.fifth = fifthZ s.omega := by rw [hp]; rfl
  rw [hfi]
  have hlen : summationIdx.length = 10 := rfl
  have hnd : summationIdx.Nodup := by decide
  refine ⟨by simp [fifthZ], ?_⟩
  intro k hk
  have hk' : k ≤ s.omega.n := by simp [fifthZ] at hk; omega
  simp only [fifthZ, List.getElem_map, List.getElem_range]
  generalize s.omega.m = m at *
  generalize s.omega.n = n at *
  generalize s.omega.rank = r at *
  have l3 : (slice summationIdx (r - k) r).length = k := by rw [length_slice]; omega
  refine ⟨by rw [length_slice]; omega, by rw [length_slice]; omega, l3, ?_⟩
  have hgood : m = 0 ∨ k = 0 → slice summationIdx 0 (n - k) ++ slice summationIdx n (n + m) ++ slice summationIdx (r - k) r =
      summationIdx.take r := by
    rintro (rfl | rfl)
    · rw [Nat.add_zero, TF.CC.slice_self, List.append_nil, show r - k = n - k by omega, show r = n by omega,
        TF.CC.slice_append _ (by omega) (by omega), TF.CC.slice_zero]
    · rw [Nat.sub_zero, Nat.sub_zero, TF.CC.slice_self, List.append_nil, TF.CC.slice_append _ (by omega) (by omega),
        TF.CC.slice_zero, o2, Nat.add_comm]
  have hbad : ¬ (m = 0 ∨ k = 0) →
      ¬ (slice summationIdx 0 (n - k) ++ slice summationIdx n (n + m) ++ slice summationIdx (r - k) r).Nodup := by
    intro hb hn
    rw [List.nodup_append] at hn
    have hx : r - 1 < summationIdx.length := by omega
    have m1 : summationIdx[r - 1] ∈ slice summationIdx n (n + m) := by
      rw [List.mem_iff_getElem]
      refine ⟨r - 1 - n, by rw [length_slice]; omega, ?_⟩
      simp only [slice, List.getElem_drop, List.getElem_take]
      congr 1; omega
    have m2 : summationIdx[r - 1] ∈ slice summationIdx (r - k) r := by
      rw [List.mem_iff_getElem]
      refine ⟨k - 1, by rw [length_slice]; omega, ?_⟩
      simp only [slice, List.getElem_drop, List.getElem_take]
      congr 1; omega
    exact hn.2.2 _ (List.mem_append_right _ m1) _ m2 rfl
  have hnt : (summationIdx.take r).Nodup := hnd.sublist (List.take_sublist _ _)
  constructor
  · constructor
    · intro h; by_contra hb; exact hbad hb (h.nodup_iff.2 hnt)
    · intro h; rw [hgood h]
  · constructor
    · intro h; by_contra hb; exact hbad hb h
    · intro h; rw [hgood h]; exact hnt

/-- **C57.** The letters printed on the annihilation operators of the projection operator are those of
the superscript of the amplitude it projects out, and the letters on its creation operators those of
the subscript, if and only if the projection operator has only creation or only annihilation
operators. -/
theorem zhz_omega_letters {rf : Bool} {hMax cc pMax : Nat} {d : List Section}
    (hd : document true rf hMax cc pMax = .ok d) {s : Section} (hs : s ∈ d) :
    ((s.letters.filter fun x => !x.1).map Prod.snd = s.tUpper ∧ (s.letters.filter fun x => x.1).map Prod.snd = s.tLower ↔
      s.omega.m = 0 ∨ s.omega.n = 0) ∧
    s.letters.map Prod.snd = summationIdx.take s.omega.rank := by
  obtain ⟨h0, prev, hp⟩ := mem_document hd hs
  obtain ⟨-, o2, o3, o4⟩ := (omegaOps_exact cc pMax _).1 h0
  have h8 := ((zhz_document_ok_iff _ _ _ _ _).1 ⟨d, hd⟩).2
  have hr : s.omega.rank ≤ 8 := by omega
  have e1 : s.letters = (slice summationIdx 0 s.omega.m).map (fun c => (true, c)) ++
      (slice summationIdx s.omega.m (s.omega.m + s.omega.n)).map (fun c => (false, c)) := by rw [hp]; rfl
  have e2 : s.tUpper = slice summationIdx 0 s.omega.n := by rw [hp]; rfl
  have e3 : s.tLower = slice summationIdx s.omega.n s.omega.rank := by rw [hp]; rfl
  rw [e1, e2, e3, o2]
  have f1 : ∀ a b : List Char, (((a.map fun c => (true, c)) ++ b.map fun c => (false, c)).filter fun x => !x.1).map Prod.snd = b := by
    intro a b
    rw [List.filter_append, List.filter_map, List.filter_map]
    simp [Function.comp_def]
  have f2 : ∀ a b : List Char, (((a.map fun c => (true, c)) ++ b.map fun c => (false, c)).filter fun x => x.1).map Prod.snd = a := by
    intro a b
    rw [List.filter_append, List.filter_map, List.filter_map]
    simp [Function.comp_def]
  rw [f1, f2]
  have hlen : summationIdx.length = 10 := rfl
  have hnd : summationIdx.Nodup := by decide
  generalize s.omega.m = m at *
  generalize s.omega.n = n at *
  refine ⟨⟨?_, ?_⟩, ?_⟩
  · rintro ⟨h1, -⟩
    by_contra hb
    have g1 : (slice summationIdx m (m + n))[0]? = some (summationIdx[m]'(by omega)) := by
      rw [List.getElem?_eq_getElem (by rw [length_slice]; omega)]
      simp [slice]
    have g2 : (slice summationIdx 0 n)[0]? = some (summationIdx[0]'(by omega)) := by
      rw [List.getElem?_eq_getElem (by rw [length_slice]; omega)]
      simp [slice]
    rw [h1, g2] at g1
    injection g1 with g1
    have := (hnd.getElem_inj_iff).1 g1
    omega
  · rintro (rfl | rfl)
    · refine ⟨by rw [Nat.zero_add], ?_⟩
      rw [Nat.zero_add, TF.CC.slice_self, TF.CC.slice_self]
    · rw [Nat.add_zero, TF.CC.slice_self, TF.CC.slice_self]; exact ⟨rfl, rfl⟩
  · rw [List.map_append, List.map_map, List.map_map]
    have : ∀ (b : Bool) (l : List Char), l.map (Prod.snd ∘ fun c => (b, c)) = l := by
      intro b l; rw [show (Prod.snd ∘ fun c : Char => (b, c)) = id from rfl, List.map_id]
    rw [this, this, TF.CC.slice_append _ (by omega) (by omega), TF.CC.slice_zero]

/-- **C58.** The letters of the left-hand side of an equation and the external letters printed in its
h z sum are never the same; a letter of the left-hand side is at the same time a summation letter of the
sum only if the rank is at least 3. -/
theorem zhz_external_letters {rf : Bool} {hMax cc pMax : Nat} {d : List Section}
    (hd : document true rf hMax cc pMax = .ok d) {s : Section} (hs : s ∈ d) :
    (∀ x ∈ s.zUpper, x ∉ zUnlinked) ∧ (s.omega.rank ≤ 2 → ∀ x ∈ s.zUpper, x ∉ zSummation) ∧
    (3 ≤ s.omega.rank → 'k' ∈ s.zUpper ∧ 'k' ∈ zSummation) := by
  obtain ⟨h0, prev, hp⟩ := mem_document hd hs
  have e : s.zUpper = summationIdx.take s.omega.rank := by
    rw [hp]; simp only [gsSection]; rw [TF.CC.slice_zero]
  rw [e]
  refine ⟨?_, ?_, ?_⟩
  · intro x hx
    have := List.take_subset _ _ hx
    clear hx
    revert x
    decide
  · intro h2 x hx
    have h2' : x ∈ summationIdx.take 2 := by
      have : summationIdx.take s.omega.rank = (summationIdx.take 2).take s.omega.rank := by
        rw [List.take_take, Nat.min_eq_left h2]
      rw [this] at hx
      exact List.take_subset _ _ hx
    clear hx
    revert x
    decide
  · intro h3
    refine ⟨?_, by decide⟩
    have : (summationIdx.take s.omega.rank).take 3 = summationIdx.take 3 := by
      rw [List.take_take, Nat.min_eq_left h3]
    have h4 : 'k' ∈ (summationIdx.take s.omega.rank).take 3 := by rw [this]; decide
    exact List.take_subset _ _ h4

/-- **C59.** The bare h term is printed in every equation (superscript: as many letters as the projection
operator has annihilation operators; subscript: creation operators), while the Hamiltonian used has this
operator if and only if its rank is in range and it was not pruned. -/
theorem zhz_bare_h {rf : Bool} {hMax cc pMax : Nat} {d : List Section}
    (hd : document true rf hMax cc pMax = .ok d) {s : Section} (hs : s ∈ d) :
    (s.eqn.first = none ↔ s.omega.rank = 0) ∧
    (∀ u l, s.eqn.first = some (u, l) → u.length = s.omega.n ∧ l.length = s.omega.m ∧
      u ++ l = summationIdx.take s.omega.rank) ∧
    ((∃ h ∈ prunedH hMax, h.m = s.omega.n ∧ h.n = s.omega.m) ↔
      s.omega.rank ≤ hMax ∧ (s.omega.rank < 3 ∨ s.omega.n = 0)) := by
  obtain ⟨h0, prev, hp⟩ := mem_document hd hs
  obtain ⟨-, o2, o3, o4⟩ := (omegaOps_exact cc pMax _).1 h0
  have h8 := ((zhz_document_ok_iff _ _ _ _ _).1 ⟨d, hd⟩).2
  have hlen : summationIdx.length = 10 := rfl
  have e : s.eqn.first = firstZ s.omega := by rw [hp]; rfl
  rw [e]
  refine ⟨by simp [firstZ], ?_, ?_⟩
  · intro u l hul
    unfold firstZ at hul
    split at hul
    · cases hul
    · injection hul with hul
      injection hul with h1 h2
      subst h1
      subst h2
      refine ⟨by rw [length_slice]; omega, by rw [length_slice]; omega, ?_⟩
      rw [TF.CC.slice_append _ (by omega) (by omega), TF.CC.slice_zero, o2, Nat.add_comm]
  · constructor
    · rintro ⟨h, hh, h1, h2⟩
      rw [mem_prunedH] at hh
      omega
    · rintro ⟨h1, h2⟩
      exact ⟨⟨s.omega.n + s.omega.m, s.omega.n, s.omega.m⟩, mem_prunedH.2 ⟨rfl, by simp only; omega, by simp only; omega⟩,
        rfl, rfl⟩

/-! ## Examples -/

/- `zhz_prefactor`: a generated h z term whose prefactor is not 1. -/
example : ∃ ts, filterTerms omega11 (hamiltonian 3) none (some (zOps 3 true)) = .ok ts ∧
    ∃ t ∈ ts, weight (created t) = 2 ∧ ∃ p, thirdTerm false true t = .ok [p] :=
  ⟨_, rfl, by
    refine List.exists_mem_iff_exists_getElem.2 ⟨2, by decide +kernel, by decide +kernel, _, rfl⟩⟩

/- The theorems about `document`: the document of the default truncations exists, has equations of rank
0 to 2, and there are contributing operators in the mixed equation of rank 2. -/
example : (∃ d, document true false 2 2 2 = .ok d) ∧
    (omegaOps 2 2).map (fun o => (o.m, o.n)) = [(0, 0), (0, 1), (1, 0), (0, 2), (1, 1), (2, 0)] ∧
    ((prunedH 2).filter (contributes omega11 2)).map (fun h => (h.m, h.n)) = [(0, 1), (0, 2), (1, 1)] :=
  ⟨(zhz_document_ok_iff _ _ _ _ _).2 (by decide), by decide +kernel, by decide +kernel⟩

/- `zhz_document_labels_iff`: both sides occur; H = CC = 6 is accepted by the truncation check. -/
example : (∃ d, document true false 6 6 6 = .ok d) ∧ ¬ (min 6 6 ≤ 5 ∧ min 6 6 ≤ 7) ∧ (min 2 6 ≤ 5 ∧ min 6 6 ≤ 7) :=
  ⟨(zhz_document_ok_iff _ _ _ _ _).2 (by decide), by decide, by decide⟩

/- `zhz_lines_iff`: with 15 terms four are printed twice, with 18 terms two are lost. -/
example : lines 7 (List.range 15) = [[0, 1, 2, 3, 4, 5, 6], [7, 8, 9, 10, 11, 12, 13], [10, 11, 12, 13, 14]] := by decide

example : 14 ∉ (lines 7 (List.range 18)).flatten ∧ 15 ∉ (lines 7 (List.range 18)).flatten := by decide

end TF.Zhz
