import Verif.Lemmas.ZhzPrint

/-!
# The z_t (ZHZ) equations

C29 every generated term is a full contraction; C30 every contraction is generated exactly once.
-/

namespace TF.Zhz

open TF.Py
open TF.CC (Op HOp hamiltonian)
open TF.Spec.Zhz

/-- Generation fails only when there is no z on either side or an operator list is empty. -/
theorem zhz_terms_ok_iff (lhs : Op) (H : List HOp) (zl zr : Option (List Op)) :
    (∃ ts, filterTerms lhs H zl zr = .ok ts) ↔ ¬ (zl = none ∧ zr = none) ∧ zl ≠ some [] ∧ zr ≠ some [] := by
  constructor
  · rintro ⟨ts, h⟩
    unfold filterTerms at h
    cases zl with
    | none =>
      cases zr with
      | none => simp [slots] at h
      | some r =>
        by_cases hr : r = []
        · simp [slots, hr] at h
        · simp [hr]
    | some l =>
      cases zr with
      | none =>
        by_cases hl : l = []
        · simp [slots, hl] at h
        · simp [hl]
      | some r =>
        by_cases hl : l = []
        · simp [slots, hl] at h
        · by_cases hr : r = []
          · simp [slots, hr] at h
          · simp [hl, hr]
  · intro h
    exact ⟨_, filterTerms_eq lhs H (slots_ok_iff.2 h)⟩

theorem terms_ok {lhs : Op} {H : List HOp} {zl zr : Option (List Op)} {ts : List Term}
    (h : filterTerms lhs H zl zr = .ok ts) :
    ts = ((choices lhs H (slotPairs zl zr)).filter (Good lhs)).map (termOf lhs) := by
  have h1 := (zhz_terms_ok_iff lhs H zl zr).1 ⟨ts, h⟩
  rw [filterTerms_eq lhs H (slots_ok_iff.2 h1)] at h
  injection h with h
  exact h.symm

/-- **C29.** Every generated term is about one h operator and the z operators of its sides; the numbers
it records form a full contraction, and what every factor records about its annihilation operators is
what the other factors record about their creation operators. -/
theorem zhz_terms_paired {lhs : Op} {H : List HOp} {zl zr : Option (List Op)} {ts : List Term}
    (hts : filterTerms lhs H zl zr = .ok ts) {t : Term} (ht : t ∈ ts) :
    ∃ h ∈ H, ∃ l r, Choices zl l ∧ Choices zr r ∧ About lhs h l r t ∧
      IsPairing (creators lhs h l r) (annihilators lhs h l r) (created t) ∧
      ∀ i j, annihilated t j i = created t i j := by
  rw [terms_ok hts, List.mem_map] at ht
  obtain ⟨x, hx, rfl⟩ := ht
  rw [List.mem_filter, mem_choices] at hx
  obtain ⟨⟨h1, h2, h3⟩, h4⟩ := hx
  have h5 := mem_slotPairs.1 (List.mem_of_mem_filter h2)
  exact ⟨x.1, h1, x.2.1.1, x.2.1.2, h5.1, h5.2, about_termOf lhs x, isPairing_termOf h3 h4,
    annihilated_termOf h3 h4⟩

theorem key_inj {α β : Type} {l : List α} {f : α → β} (h : (l.map f).Nodup) {a b : α} (ha : a ∈ l) (hb : b ∈ l)
    (hab : f a = f b) : a = b :=
  List.inj_on_of_nodup_map h ha hb hab

/-- **C30.** For every h operator, every choice of z operators and every full contraction of these
factors there is exactly one position in the generated list that holds this contraction. -/
theorem zhz_terms_exactly_once {lhs : Op} {H : List HOp} {zl zr : Option (List Op)} {ts : List Term}
    (hts : filterTerms lhs H zl zr = .ok ts)
    (hH : (H.map fun h => (h.m, h.n)).Nodup)
    (hl : ∀ l, zl = some l → (l.map fun z => (z.m, z.n)).Nodup)
    (hr : ∀ l, zr = some l → (l.map fun z => (z.m, z.n)).Nodup)
    {h : HOp} (hh : h ∈ H) {l r : Option Op} (hcl : Choices zl l) (hcr : Choices zr r)
    {c : Place → Place → Nat} (hc : IsPairing (creators lhs h l r) (annihilators lhs h l r) c) :
    ∃! k : Fin ts.length, About lhs h l r ts[k] ∧ created ts[k] = c := by
  have hts := terms_ok hts
  subst hts
  have hp : (l, r) ∈ slotPairs zl zr := mem_slotPairs.2 ⟨hcl, hcr⟩
  have hin := inRange_choiceOf (p := (l, r)) hc
  have hmem : choiceOf h (l, r) c ∈ (choices lhs H (slotPairs zl zr)).filter (Good lhs) :=
    List.mem_filter.2 ⟨mem_choices.2 ⟨hh, valid_choiceOf hp hc, hin.1⟩, hin.2⟩
  have hnd : ((choices lhs H (slotPairs zl zr)).filter (Good lhs)).Nodup :=
    (nodup_choices (List.Nodup.of_map _ hH) (nodup_pairs (nodup_opts fun l hl' => List.Nodup.of_map _ (hl l hl'))
      (nodup_opts fun l hl' => List.Nodup.of_map _ (hr l hl')))).filter _
  have huniq : ∀ x ∈ (choices lhs H (slotPairs zl zr)).filter (Good lhs),
      About lhs h l r (termOf lhs x) → created (termOf lhs x) = c → x = choiceOf h (l, r) c := by
    intro x hx ha hcx
    rw [List.mem_filter, mem_choices] at hx
    obtain ⟨⟨x1, x2, x3⟩, x4⟩ := hx
    have x5 := mem_slotPairs.1 (List.mem_of_mem_filter x2)
    have e1 : x.1 = h := by
      refine key_inj hH x1 hh ?_
      have := ha.h
      simp only [termOf, Prod.mk.injEq] at this
      simp [this]
    have e2 : x.2.1.1 = l := by
      have := ha.left
      have e : (termOf lhs x).left.map (fun z => (z.rank, z.m, z.n)) = x.2.1.1.map fun z => (z.rank, z.m, z.n) :=
        (about_termOf lhs x).left
      rw [e] at this
      cases zl with
      | none =>
        rw [show x.2.1.1 = none from x5.1, show l = none from hcl]
      | some zs =>
        obtain ⟨a, ha1, ha2⟩ := x5.1
        obtain ⟨b, hb1, hb2⟩ := hcl
        rw [ha2, hb2] at this ⊢
        simp only [Option.map_some, Option.some.injEq, Prod.mk.injEq] at this
        rw [key_inj (hl zs rfl) ha1 hb1 (by simp [this])]
    have e3 : x.2.1.2 = r := by
      have := ha.right
      have e : (termOf lhs x).right.map (fun z => (z.rank, z.m, z.n)) = x.2.1.2.map fun z => (z.rank, z.m, z.n) :=
        (about_termOf lhs x).right
      rw [e] at this
      cases zr with
      | none =>
        rw [show x.2.1.2 = none from x5.2, show r = none from hcr]
      | some zs =>
        obtain ⟨a, ha1, ha2⟩ := x5.2
        obtain ⟨b, hb1, hb2⟩ := hcr
        rw [ha2, hb2] at this ⊢
        simp only [Option.map_some, Option.some.injEq, Prod.mk.injEq] at this
        rw [key_inj (hr zs rfl) ha1 hb1 (by simp [this])]
    refine choice_unique x3 hin.1 x4 hin.2 e1 (Prod.ext e2 e3) ?_
    rw [hcx, created_choiceOf hc]
  generalize (choices lhs H (slotPairs zl zr)).filter (Good lhs) = L at *
  obtain ⟨k, hk, hk'⟩ := List.getElem_of_mem hmem
  refine ⟨⟨k, by simpa using hk⟩, ?_, ?_⟩
  · simp only [Fin.getElem_fin, List.getElem_map, hk']
    exact ⟨about_termOf lhs (choiceOf h (l, r) c), created_choiceOf hc⟩
  · rintro ⟨k', hk''⟩ ⟨h1, h2⟩
    simp only [Fin.getElem_fin, List.getElem_map] at h1 h2
    have hk3 : k' < L.length := by simpa using hk''
    have := huniq L[k'] (List.getElem_mem hk3) h1 h2
    rw [← hk'] at this
    have := (hnd.getElem_inj_iff).1 this
    exact Fin.ext this

/-! ## Labels -/

theorem fits_of_generated {lhs : Op} {H : List HOp} {zl zr : Option (List Op)} {ts : List Term}
    (hts : filterTerms lhs H zl zr = .ok ts)
    (hl : ∀ l, zl = some l → ∀ z ∈ l, z.rank = z.m + z.n) (hr : ∀ l, zr = some l → ∀ z ∈ l, z.rank = z.m + z.n)
    {t : Term} (ht : t ∈ ts) : Fits t := by
  obtain ⟨h, -, l, r, hcl, hcr, ha, hp, hag⟩ := zhz_terms_paired hts ht
  have hh := ha.h
  simp only [Prod.mk.injEq] at hh
  refine ⟨hp.self, hag, by omega, ?_, ?_, ?_, ?_⟩
  · have := hp.rows .h
    simp only [places, List.map_cons, List.map_nil, List.sum_cons, List.sum_nil, created, creators] at this
    omega
  · have := hp.cols .h
    simp only [places, List.map_cons, List.map_nil, List.sum_cons, List.sum_nil, ← hag, annihilated, annihilators] at this
    omega
  · intro z hz
    have h1 := ha.left
    rw [hz] at h1
    cases l with
    | none => simp at h1
    | some x =>
      simp only [Option.map_some, Option.some.injEq, Prod.mk.injEq] at h1
      have hx : x.rank = x.m + x.n := by
        cases zl with
        | none => simp [Choices] at hcl
        | some zs =>
          obtain ⟨y, hy, hy'⟩ := hcl
          injection hy' with hy'
          subst hy'
          exact hl zs rfl _ hy
      have h2 := hp.rows .left
      have h3 := hp.cols .left
      simp only [places, List.map_cons, List.map_nil, List.sum_cons, List.sum_nil, created, creators, hz, get] at h2
      simp only [places, List.map_cons, List.map_nil, List.sum_cons, List.sum_nil, ← hag, annihilated, annihilators,
        hz, get] at h3
      omega
  · intro z hz
    have h1 := ha.right
    rw [hz] at h1
    cases r with
    | none => simp at h1
    | some x =>
      simp only [Option.map_some, Option.some.injEq, Prod.mk.injEq] at h1
      have hx : x.rank = x.m + x.n := by
        cases zr with
        | none => simp [Choices] at hcr
        | some zs =>
          obtain ⟨y, hy, hy'⟩ := hcr
          injection hy' with hy'
          subst hy'
          exact hr zs rfl _ hy
      have h2 := hp.rows .right
      have h3 := hp.cols .right
      simp only [places, List.map_cons, List.map_nil, List.sum_cons, List.sum_nil, created, creators, hz, get] at h2
      simp only [places, List.map_cons, List.map_nil, List.sum_cons, List.sum_nil, ← hag, annihilated, annihilators,
        hz, get] at h3
      omega

/-- Whether each side of a generated term holds a z is decided by the call. -/
theorem sides_of_generated {lhs : Op} {H : List HOp} {zl zr : Option (List Op)} {ts : List Term}
    (hts : filterTerms lhs H zl zr = .ok ts) {t : Term} (ht : t ∈ ts) :
    (zl = none → t.left = none) ∧ (∀ l, zl = some l → ∃ z, t.left = some z) ∧
    (zr = none → t.right = none) ∧ (∀ l, zr = some l → ∃ z, t.right = some z) := by
  obtain ⟨h, -, l, r, hcl, hcr, ha, -, -⟩ := zhz_terms_paired hts ht
  have h1 := ha.left
  have h2 := ha.right
  refine ⟨?_, ?_, ?_, ?_⟩
  · rintro rfl
    rw [show l = none from hcl] at h1
    cases hx : t.left with
    | none => rfl
    | some _ => rw [hx] at h1; simp at h1
  · rintro zs rfl
    obtain ⟨y, -, rfl⟩ := hcl
    cases hx : t.left with
    | none => rw [hx] at h1; simp at h1
    | some z => exact ⟨z, rfl⟩
  · rintro rfl
    rw [show r = none from hcr] at h2
    cases hx : t.right with
    | none => rfl
    | some _ => rw [hx] at h2; simp at h2
  · rintro zs rfl
    obtain ⟨y, -, rfl⟩ := hcr
    cases hx : t.right with
    | none => rw [hx] at h2; simp at h2
    | some z => exact ⟨z, rfl⟩

/-- the external letters of a generated term are as many as the projection operator has operators -/
theorem external_sum {lhs : Op} {H : List HOp} {zl zr : Option (List Op)} {ts : List Term}
    (hts : filterTerms lhs H zl zr = .ok ts) {t : Term} (ht : t ∈ ts) :
    created t .left .lhs + created t .lhs .left + created t .h .lhs + created t .lhs .h + created t .right .lhs +
      created t .lhs .right = lhs.m + lhs.n := by
  obtain ⟨h, -, l, r, -, -, -, hp, -⟩ := zhz_terms_paired hts ht
  have h1 := hp.rows .lhs
  have h2 := hp.cols .lhs
  have h3 := hp.self .lhs
  simp only [places, List.map_cons, List.map_nil, List.sum_cons, List.sum_nil, creators, annihilators] at h1 h2
  omega

theorem describes_generated {lhs : Op} {H : List HOp} {zl zr : Option (List Op)} {ts : List Term}
    (hts : filterTerms lhs H zl zr = .ok ts) {t : Term} (ht : t ∈ ts) {o : List Occ}
    (ho : o.Perm (canon zSummation prSum 0 (sumBlocks (created t)) ++
      canon zUnlinked prExt 0 (extBlocks (created t)))) :
    Describes (created t) o ↔ summed (created t) ≤ 5 ∧ lhs.m + lhs.n ≤ 7 := by
  obtain ⟨h, -, l, r, -, -, -, hp, -⟩ := zhz_terms_paired hts ht
  rw [describes_blocks hp.self ho, external_sum hts ht]
  have : (innerPairs.map fun p => created t p.1 p.2).sum = summed (created t) := by
    have h1 := hp.self .left
    have h2 := hp.self .h
    have h3 := hp.self .right
    simp only [innerPairs, summed, List.map_cons, List.map_nil, List.sum_cons, List.sum_nil, h1, h2, h3]
    omega
  rw [this]

/-- **C31** (h z).  Printing a generated term never fails; the letters printed describe its contraction
exactly when it has at most five summation indices and the projection operator has at most seven
operators. -/
theorem zhz_labels_hz {lhs : Op} {H : List HOp} {zs : List Op} {ts : List Term}
    (hts : filterTerms lhs H none (some zs) = .ok ts) (hz : ∀ z ∈ zs, z.rank = z.m + z.n) {t : Term} (ht : t ∈ ts)
    (rf pp : Bool) :
    ∃ ps, thirdTerm rf pp t = .ok ps ∧ ps.length = (if rf && decide (leftToRight (created t) > 0) then 0 else 1) ∧
      ∀ p ∈ ps, (Describes (created t) (occurrences p) ↔ summed (created t) ≤ 5 ∧ lhs.m + lhs.n ≤ 7) ∧
        p.f = leftToRight (created t) ∧ p.fbar = rightToLeft (created t) := by
  have hf := fits_of_generated hts (by simp) (by rintro l ⟨⟩; exact hz) ht
  obtain ⟨s1, -, -, s4⟩ := sides_of_generated hts ht
  obtain ⟨r, hr⟩ := s4 _ rfl
  have hl := s1 rfl
  have e1 : leftToRight (created t) = t.h.m_r := by simp [leftToRight, created, hl, get]
  have e2 : rightToLeft (created t) = t.h.n_r := by
    have := hf.agree .right .h
    have h4 := hf.agree .h .left
    have h5 := hf.agree .right .left
    simp only [annihilated, hl, get] at this h4 h5
    simp only [rightToLeft]; omega
  refine ⟨_, thirdTerm_eq hr hf rf pp, ?_, ?_⟩
  · rw [e1]; split <;> rfl
  · intro p hp
    refine ⟨describes_generated hts ht (third_perm hl hr hf (thirdTerm_eq hr hf rf pp) hp), ?_⟩
    rw [e1, e2]
    split at hp
    · simp at hp
    · rw [List.mem_singleton] at hp; subst hp; exact ⟨rfl, rfl⟩

/-- **C31** (z h). -/
theorem zhz_labels_zh {lhs : Op} {H : List HOp} {zs : List Op} {ts : List Term}
    (hts : filterTerms lhs H (some zs) none = .ok ts) (hz : ∀ z ∈ zs, z.rank = z.m + z.n) {t : Term} (ht : t ∈ ts)
    (rf : Bool) :
    ∃ ps, secondTerm rf false t = .ok ps ∧ ps.length = (if rf && decide (leftToRight (created t) > 0) then 0 else 1) ∧
      ∀ p ∈ ps, (Describes (created t) (occurrences p) ↔ summed (created t) ≤ 5 ∧ lhs.m + lhs.n ≤ 7) ∧
        p.f = leftToRight (created t) ∧ p.fbar = rightToLeft (created t) := by
  have hf := fits_of_generated hts (by rintro l ⟨⟩; exact hz) (by simp) ht
  obtain ⟨-, s2, s3, -⟩ := sides_of_generated hts ht
  obtain ⟨l, hl⟩ := s2 _ rfl
  have hr := s3 rfl
  have e1 : leftToRight (created t) = t.h.n_l := by
    have := hf.agree .left .h
    have h4 := hf.agree .left .right
    have h5 := hf.agree .h .right
    simp only [annihilated, hr, get] at this h4 h5
    simp only [leftToRight]; omega
  have e2 : rightToLeft (created t) = t.h.m_l := by simp [rightToLeft, created, hr, get]
  refine ⟨_, secondTerm_eq hl hf rf, ?_, ?_⟩
  · rw [e1]; split <;> rfl
  · intro p hp
    refine ⟨describes_generated hts ht (second_perm hl hr hf (secondTerm_eq hl hf rf) hp), ?_⟩
    rw [e1, e2]
    split at hp
    · simp at hp
    · rw [List.mem_singleton] at hp; subst hp; exact ⟨rfl, rfl⟩

/-- **C31** (z h z); the term is marked as disconnected exactly when one of its z operators is not
paired with h. -/
theorem zhz_labels_zhz {lhs : Op} {H : List HOp} {zl zr : List Op} {ts : List Term}
    (hts : filterTerms lhs H (some zl) (some zr) = .ok ts) (hzl : ∀ z ∈ zl, z.rank = z.m + z.n)
    (hzr : ∀ z ∈ zr, z.rank = z.m + z.n) {t : Term} (ht : t ∈ ts) (rf : Bool) :
    ∃ ps, fourthTerm rf false t = .ok ps ∧ ps.length = (if rf && decide (leftToRight (created t) > 0) then 0 else 1) ∧
      ∀ p ∈ ps, (Describes (created t) (occurrences p) ↔ summed (created t) ≤ 5 ∧ lhs.m + lhs.n ≤ 7) ∧
        p.f = leftToRight (created t) ∧ p.fbar = rightToLeft (created t) ∧
        (p.disconnected = true ↔ created t .left .h + created t .h .left = 0 ∨
          created t .right .h + created t .h .right = 0) := by
  have hf := fits_of_generated hts (by rintro l ⟨⟩; exact hzl) (by rintro l ⟨⟩; exact hzr) ht
  obtain ⟨-, s2, -, s4⟩ := sides_of_generated hts ht
  obtain ⟨l, hl⟩ := s2 _ rfl
  obtain ⟨r, hr⟩ := s4 _ rfl
  have a1 := hf.agree .left .h; have a2 := hf.agree .left .right; have a3 := hf.agree .h .left
  have a4 := hf.agree .right .left; have a5 := hf.agree .right .h; have a6 := hf.agree .h .right
  simp only [annihilated, hl, hr, get] at a1 a2 a3 a4 a5 a6
  have b2 : created t .left .right = l.m_z := by simp [created, hl, get]
  have b4 : created t .right .left = r.m_z := by simp [created, hr, get]
  have b6 : created t .h .right = t.h.m_r := rfl
  have b3 : created t .h .left = t.h.m_l := rfl
  have b1 : created t .left .h = l.m_h := by simp [created, hl, get]
  have b5 : created t .right .h = r.m_h := by simp [created, hr, get]
  have e1 : leftToRight (created t) = t.h.n_l + t.h.m_r + l.m_z := by simp only [leftToRight]; omega
  have e2 : rightToLeft (created t) = t.h.m_l + t.h.n_r + r.m_z := by simp only [rightToLeft]; omega
  refine ⟨_, fourthTerm_eq hl hr hf rf, ?_, ?_⟩
  · rw [e1]; split <;> rfl
  · intro p hp
    refine ⟨describes_generated hts ht (fourth_perm hl hr hf (fourthTerm_eq hl hr hf rf) hp), ?_⟩
    rw [e1, e2, a1.symm, a3.symm, a5.symm, a6.symm]
    split at hp
    · simp at hp
    · rw [List.mem_singleton] at hp; subst hp; refine ⟨rfl, rfl, ?_⟩
      simp only [fourthP, Z.connected, Bool.or_eq_true, Bool.not_eq_true', Bool.not_eq_false', Bool.and_eq_true,
        beq_iff_eq]
      omega

/-! ## Examples -/

/-- the projection on one creation and one annihilation operator, used in the examples below -/
def omega11 : Op := ⟨"db", 2, 1, 1⟩

/- `zhz_terms_paired`, `zhz_terms_exactly_once`, `zhz_labels_hz`: with the Hamiltonian of rank 2 and z
operators of rank up to 2 there are several terms, some with summation indices. -/
example : ∃ ts, filterTerms omega11 (hamiltonian 2) none (some (zOps 2 true)) = .ok ts ∧ ts.length = 3 ∧
    (∃ t ∈ ts, summed (created t) = 1 ∧ rightToLeft (created t) = 1) ∧ ∀ z ∈ zOps 2 true, z.rank = z.m + z.n :=
  ⟨_, rfl, rfl, by decide +kernel, by decide⟩

/- `zhz_labels_zh`. -/
example : ∃ ts, filterTerms omega11 (hamiltonian 2) (some (zOps 2 false)) none = .ok ts ∧
    (∃ t ∈ ts, summed (created t) = 1 ∧ leftToRight (created t) = 1) ∧ ∀ z ∈ zOps 2 false, z.rank = z.m + z.n :=
  ⟨_, rfl, by decide +kernel, by decide⟩

/- `zhz_labels_zhz`: connected and disconnected terms. -/
example : ∃ ts, filterTerms omega11 (hamiltonian 2) (some (zOps 2 false)) (some (zOps 2 false)) = .ok ts ∧
    (∃ t ∈ ts, created t .left .h = 1 ∧ created t .lhs .left = 1 ∧ created t .h .right = 1) ∧
    (∃ t ∈ ts, created t .left .h + created t .h .left = 0 ∧ created t .right .left = 1) :=
  ⟨_, rfl, by decide +kernel, by decide +kernel⟩

end TF.Zhz
