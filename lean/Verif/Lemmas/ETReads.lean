import Verif.Lemmas.ETPython

/-! # Lemmas about the Python code of the e^T z_t equations: the letters of a call -/

namespace TF.ETPy

open TF.Py
open TF.CC (Op HOp summationIdx unlinkedIdx)
open TF.ET (Mode tOf Dist GoodDist lenOf rankOf tableOf)
open TF.Spec.ET TF.Spec.ETPy

theorem nodup_S : summationIdx.Nodup := by decide
theorem nodup_U : unlinkedIdx.Nodup := by decide
theorem S_not_U : ∀ x ∈ summationIdx, x ∉ unlinkedIdx := by decide

theorem mem_of_at' {l : List Char} {a n : Nat} {x : Char} (h : x ∈ at' l a n) : x ∈ l := by
  obtain ⟨i, _, _, h3⟩ := mem_at'.1 h
  exact List.mem_of_getElem? h3

theorem memS_iff {i a n : Nat} {x : Char} (hx : summationIdx[i]? = some x) : x ∈ at' summationIdx a n ↔ a ≤ i ∧ i < a + n := by
  rw [mem_at']
  constructor
  · rintro ⟨i', h1, h2, h3⟩
    have := getElem?_unique nodup_S hx h3
    omega
  · rintro ⟨h1, h2⟩
    exact ⟨i, h1, h2, hx⟩

theorem memU_iff {i a n : Nat} {x : Char} (hx : unlinkedIdx[i]? = some x) : x ∈ at' unlinkedIdx a n ↔ a ≤ i ∧ i < a + n := by
  rw [mem_at']
  constructor
  · rintro ⟨i', h1, h2, h3⟩
    have := getElem?_unique nodup_U hx h3
    omega
  · rintro ⟨h1, h2⟩
    exact ⟨i, h1, h2, hx⟩

theorem notU_of_S {i a n : Nat} {x : Char} (hx : summationIdx[i]? = some x) : x ∉ at' unlinkedIdx a n :=
  fun h => S_not_U x (List.mem_of_getElem? hx) (mem_of_at' h)

theorem notS_of_U {i a n : Nat} {x : Char} (hx : unlinkedIdx[i]? = some x) : x ∉ at' summationIdx a n :=
  fun h => S_not_U x (mem_of_at' h) (List.mem_of_getElem? hx)

/-- the table in which the first `j` t factors are paired with z -/
def tableJ (N k hn j hl : Nat) : Pl k → Pl k → Nat
  | .h, .lhs => hl
  | .h, .t i => if i.val < j then 0 else rankOf k
  | .z, .lhs => N - hl
  | .z, .t i => if i.val < j then 1 else 0
  | .z, .h => hn
  | _, _ => 0

section
variable {N k hm hn zm j hl zl : Nat}

/-- On which places the i-th summation letter is. -/
theorem onS (n : Nums N k hm hn zm j hl zl) {i : Nat} {x : Char} (hx : summationIdx[i]? = some x) :
    (x ∉ labOf N k hn j hl .lhs) ∧ (∀ i', x ∈ labOf N k hn j hl (.t i') ↔ k ≠ 0 ∧ i = i'.val) ∧
    (x ∈ labOf N k hn j hl .h ↔ j ≤ i ∧ i < k + hn) ∧ (x ∈ labOf N k hn j hl .z ↔ i < j ∨ (k ≤ i ∧ i < k + hn)) := by
  have n1 := n.le
  refine ⟨notU_of_S hx, ?_, ?_, ?_⟩
  · intro i'
    simp only [labOf, tLab]
    by_cases hk : k = 0
    · simp [hk]
    · rw [if_neg hk, memS_iff hx]
      omega
  · simp only [labOf, hLab, List.mem_append, memS_iff hx]
    have := notU_of_S (a := 0) (n := hl) hx
    constructor
    · rintro ((h | h) | h)
      · omega
      · omega
      · exact absurd h this
    · intro h
      by_cases h' : i < k
      · exact Or.inl (Or.inl (by omega))
      · exact Or.inl (Or.inr (by omega))
  · simp only [labOf, zLab, List.mem_append, memS_iff hx]
    have := notU_of_S (a := hl) (n := N - hl) hx
    constructor
    · rintro ((h | h) | h)
      · omega
      · omega
      · exact absurd h this
    · rintro (h | h)
      · exact Or.inl (Or.inl (by omega))
      · exact Or.inl (Or.inr (by omega))

/-- On which places the i-th external letter is. -/
theorem onU (n : Nums N k hm hn zm j hl zl) {i : Nat} {x : Char} (hx : unlinkedIdx[i]? = some x) :
    (x ∈ labOf N k hn j hl .lhs ↔ i < N) ∧ (∀ i', x ∉ labOf N k hn j hl (.t i')) ∧
    (x ∈ labOf N k hn j hl .h ↔ i < hl) ∧ (x ∈ labOf N k hn j hl .z ↔ hl ≤ i ∧ i < N) := by
  have n1 := n.onN
  refine ⟨?_, ?_, ?_, ?_⟩
  · simp only [labOf, memU_iff hx]
    omega
  · intro i'
    simp only [labOf, tLab]
    by_cases hk : k = 0
    · simp [hk]
    · rw [if_neg hk]
      exact notS_of_U hx
  · simp only [labOf, hLab, List.mem_append, memU_iff hx]
    have h1 := notS_of_U (a := j) (n := k - j) hx
    have h2 := notS_of_U (a := k) (n := hn) hx
    constructor
    · rintro ((h | h) | h)
      · exact absurd h h1
      · exact absurd h h2
      · omega
    · exact fun h => Or.inr (by omega)
  · simp only [labOf, zLab, List.mem_append, memU_iff hx]
    have h1 := notS_of_U (a := 0) (n := j) hx
    have h2 := notS_of_U (a := k) (n := hn) hx
    constructor
    · rintro ((h | h) | h)
      · exact absurd h h1
      · exact absurd h h2
      · omega
    · exact fun h => Or.inr (by omega)

/-- Every letter of a label is one of the two alphabets. -/
theorem letter_cases {p : Pl k} {x : Char} (hx : x ∈ labOf N k hn j hl p) :
    (∃ i : Nat, summationIdx[i]? = some x) ∨ ∃ i : Nat, unlinkedIdx[i]? = some x := by
  have hS : ∀ {a n}, x ∈ at' summationIdx a n → ∃ i : Nat, summationIdx[i]? = some x := fun h => by
    obtain ⟨i, _, _, h3⟩ := mem_at'.1 h; exact ⟨i, h3⟩
  have hU : ∀ {a n}, x ∈ at' unlinkedIdx a n → ∃ i : Nat, unlinkedIdx[i]? = some x := fun h => by
    obtain ⟨i, _, _, h3⟩ := mem_at'.1 h; exact ⟨i, h3⟩
  cases p with
  | lhs => exact Or.inr (hU hx)
  | t i =>
    simp only [labOf, tLab] at hx
    split at hx
    · simp at hx
    · exact Or.inl (hS hx)
  | h =>
    simp only [labOf, hLab, List.mem_append] at hx
    rcases hx with (h | h) | h
    · exact Or.inl (hS h)
    · exact Or.inl (hS h)
    · exact Or.inr (hU h)
  | z =>
    simp only [labOf, zLab, List.mem_append] at hx
    rcases hx with (h | h) | h
    · exact Or.inl (hS h)
    · exact Or.inl (hS h)
    · exact Or.inr (hU h)

theorem lab_nodup (n : Nums N k hm hn zm j hl zl) (p : Pl k) : (labOf N k hn j hl p).Nodup := by
  have n1 := n.le
  have blocks : ∀ (A B C : List Char), A.Nodup → B.Nodup → C.Nodup → (∀ x ∈ A, x ∉ B) → (∀ x ∈ A, x ∉ C) → (∀ x ∈ B, x ∉ C) →
      (A ++ B ++ C).Nodup := by
    intro A B C a b c h1 h2 h3
    rw [List.nodup_append, List.nodup_append]
    refine ⟨⟨a, b, fun x hx y hy e => h1 x hx (e ▸ hy)⟩, c, fun x hx y hy e => ?_⟩
    rw [List.mem_append] at hx
    rcases hx with hx | hx
    · exact h2 x hx (e ▸ hy)
    · exact h3 x hx (e ▸ hy)
  cases p with
  | lhs => exact nodup_at' nodup_U _ _
  | t i =>
    simp only [labOf, tLab]
    split
    · exact List.nodup_nil
    · exact nodup_at' nodup_S _ _
  | h =>
    refine blocks _ _ _ (nodup_at' nodup_S _ _) (nodup_at' nodup_S _ _) (nodup_at' nodup_U _ _) ?_ ?_ ?_
    · intro x hx
      exact disjoint_at' nodup_S (by omega) hx
    · intro x hx h
      exact S_not_U x (mem_of_at' hx) (mem_of_at' h)
    · intro x hx h
      exact S_not_U x (mem_of_at' hx) (mem_of_at' h)
  | z =>
    refine blocks _ _ _ (nodup_at' nodup_S _ _) (nodup_at' nodup_S _ _) (nodup_at' nodup_U _ _) ?_ ?_ ?_
    · intro x hx
      exact disjoint_at' nodup_S (by omega) hx
    · intro x hx h
      exact S_not_U x (mem_of_at' hx) (mem_of_at' h)
    · intro x hx h
      exact S_not_U x (mem_of_at' hx) (mem_of_at' h)

theorem shared_symm {A B : List Char} (a : A.Nodup) (b : B.Nodup) :
    (A.filter fun x => decide (x ∈ B)).length = (B.filter fun x => decide (x ∈ A)).length := by
  refine List.Perm.length_eq ?_
  rw [List.perm_ext_iff_of_nodup (a.filter _) (b.filter _)]
  intro x
  simp only [List.mem_filter, decide_eq_true_eq]
  tauto

theorem filter_all {A : List Char} {l : List Char} (h : ∀ x ∈ A, x ∈ l) : (A.filter fun x => decide (x ∈ l)).length = A.length := by
  rw [List.filter_eq_self.2 (fun x hx => by simpa using h x hx)]

theorem filter_none {A : List Char} {l : List Char} (h : ∀ x ∈ A, x ∉ l) : (A.filter fun x => decide (x ∈ l)).length = 0 := by
  rw [List.filter_eq_nil_iff.2 (fun x hx => by simpa using h x hx)]
  rfl

/-- the letters shared by two places, for one order of the places -/
theorem shared_eq (n : Nums N k hm hn zm j hl zl) (cap : k + hn ≤ 10) (capN : N ≤ 8) :
    (∀ i q, q ≠ .t i → ((labOf N k hn j hl (.t i)).filter fun x => decide (x ∈ labOf N k hn j hl q)).length =
      tableJ N k hn j hl q (.t i) + tableJ N k hn j hl (.t i) q) ∧
    ((labOf N k hn j hl .h).filter fun x => decide (x ∈ labOf N k hn j hl .lhs)).length = hl ∧
    ((labOf N k hn j hl .z).filter fun x => decide (x ∈ labOf N k hn j hl .lhs)).length = N - hl ∧
    ((labOf N k hn j hl .h).filter fun x => decide (x ∈ labOf N k hn j hl .z)).length = hn := by
  have n1 := n.le
  have n2 := n.onN
  have hS : summationIdx.length = 10 := rfl
  have hU : unlinkedIdx.length = 8 := rfl
  have blocks : ∀ (A B C l : List Char), ((A ++ B ++ C).filter fun x => decide (x ∈ l)).length =
      (A.filter fun x => decide (x ∈ l)).length + (B.filter fun x => decide (x ∈ l)).length +
        (C.filter fun x => decide (x ∈ l)).length := by
    intro A B C l
    simp only [List.filter_append, List.length_append]
  refine ⟨?_, ?_, ?_, ?_⟩
  · intro i q hq
    by_cases hk : k = 0
    · have hi : i.val < j → False := by omega
      have e : labOf N k hn j hl (.t i) = [] := by simp [labOf, hk]
      rw [e]
      cases q <;> simp [tableJ, hk, rankOf]
      omega
    · have hi : i.val < k := i.2.trans_le (tFactors_length hk).le
      have hx : ∀ x ∈ labOf N k hn j hl (.t i), summationIdx[i.val]? = some x := by
        intro x hx
        simp only [labOf, tLab, if_neg hk] at hx
        obtain ⟨i', h1, h2, h3⟩ := mem_at'.1 hx
        obtain rfl : i' = i.val := by omega
        exact h3
      have hlen : (labOf N k hn j hl (.t i)).length = 1 := by
        simp only [labOf, tLab, if_neg hk]
        exact length_at' (by omega)
      cases q with
      | lhs =>
        rw [filter_none (fun x h => (onS n (hx x h)).1)]
        rfl
      | t i' =>
        rw [filter_none (fun x h h' => ?_)]
        · rfl
        · have := ((onS n (hx x h)).2.1 i').1 h'
          exact hq (by rw [Fin.ext this.2])
      | h =>
        by_cases hj : i.val < j
        · rw [filter_none (fun x h h' => by have := (onS n (hx x h)).2.2.1.1 h'; omega)]
          simp [tableJ, hj]
        · rw [filter_all (fun x h => (onS n (hx x h)).2.2.1.2 (by omega)), hlen]
          simp [tableJ, hj, rankOf, hk]
      | z =>
        by_cases hj : i.val < j
        · rw [filter_all (fun x h => (onS n (hx x h)).2.2.2.2 (by omega)), hlen]
          simp [tableJ, hj]
        · rw [filter_none (fun x h h' => by have := (onS n (hx x h)).2.2.2.1 h'; omega)]
          simp [tableJ, hj]
  · show ((hLab k j hn hl).filter _).length = hl
    unfold hLab
    rw [blocks, filter_none, filter_none, filter_all, length_at' (by omega)]
    · omega
    · intro x hx
      obtain ⟨i, h1, h2, h3⟩ := mem_at'.1 hx
      exact (onU n h3).1.2 (by omega)
    · intro x hx
      obtain ⟨i, h1, h2, h3⟩ := mem_at'.1 hx
      exact (onS n h3).1
    · intro x hx
      obtain ⟨i, h1, h2, h3⟩ := mem_at'.1 hx
      exact (onS n h3).1
  · show ((zLab k j hn hl (N - hl)).filter _).length = _
    unfold zLab
    rw [blocks, filter_none, filter_none, filter_all, length_at' (by omega)]
    · omega
    · intro x hx
      obtain ⟨i, h1, h2, h3⟩ := mem_at'.1 hx
      exact (onU n h3).1.2 (by omega)
    · intro x hx
      obtain ⟨i, h1, h2, h3⟩ := mem_at'.1 hx
      exact (onS n h3).1
    · intro x hx
      obtain ⟨i, h1, h2, h3⟩ := mem_at'.1 hx
      exact (onS n h3).1
  · show ((hLab k j hn hl).filter _).length = hn
    unfold hLab
    rw [blocks, filter_none, filter_all, filter_none, length_at' (by omega)]
    · omega
    · intro x hx h'
      obtain ⟨i, h1, h2, h3⟩ := mem_at'.1 hx
      have := (onU n h3).2.2.2.1 h'
      omega
    · intro x hx
      obtain ⟨i, h1, h2, h3⟩ := mem_at'.1 hx
      exact (onS n h3).2.2.2.2 (by omega)
    · intro x hx h'
      obtain ⟨i, h1, h2, h3⟩ := mem_at'.1 hx
      have := (onS n h3).2.2.2.1 h'
      omega

/-- The code of a term reads as the table in which the first t factors are paired with z. -/
theorem readsAs_codeOf {mode : Mode} {lhs : Op} (hl0 : lhs.m = 0) {h : HOp} {z : Op} (hz : z.n = 0)
    (n : Nums lhs.n k h.m h.n z.m j hl zl) (cap : k + h.n ≤ 10) (capN : lhs.n ≤ 8) :
    ReadsAs (codeOf mode lhs.n k h z j hl) mode lhs k h z (tableJ lhs.n k h.n j hl) (labOf lhs.n k h.n j hl) := by
  have n1 := n.le
  have n2 := n.onH
  have n3 := n.onZ
  have n4 := n.onN
  have hS : summationIdx.length = 10 := rfl
  have hU : unlinkedIdx.length = 8 := rfl
  have hnd := lab_nodup n
  obtain ⟨s1, s2, s3, s4⟩ := shared_eq n cap capN
  refine ⟨rfl, rfl, rfl, ?_, hnd, ?_, ?_, ?_⟩
  · intro p x hx
    have hSa : ∀ x ∈ summationIdx, x ≠ 'a' ∧ x ≠ 'c' := by decide
    have hUa : ∀ x ∈ unlinkedIdx, x ≠ 'a' ∧ x ≠ 'c' := by decide
    rcases letter_cases hx with ⟨i, hi⟩ | ⟨i, hi⟩
    · exact hSa x (List.mem_of_getElem? hi)
    · exact hUa x (List.mem_of_getElem? hi)
  · intro p
    cases p with
    | lhs =>
      simp only [labOf, creators, annihilators, hl0]
      rw [length_at' (by omega)]
      omega
    | t i =>
      have := TF.ET.getElem_uniform (TF.ET.uniform_self k) i
      simp only [labOf, creators, annihilators, this.2.1, this.2.2, tLab, rankOf]
      by_cases hk : k = 0
      · simp [hk]
      · have hi : i.val < k := i.2.trans_le (tFactors_length hk).le
        rw [if_neg hk, if_neg hk, length_at' (by omega)]
    | h =>
      simp only [labOf, creators, annihilators, hLab, List.length_append]
      rw [length_at' (by omega), length_at' (by omega), length_at' (by omega)]
      omega
    | z =>
      simp only [labOf, creators, annihilators, zLab, List.length_append, hz]
      rw [length_at' (by omega), length_at' (by omega), length_at' (by omega)]
      omega
  · intro p x hx
    rcases letter_cases hx with ⟨i, hi⟩ | ⟨i, hi⟩
    · obtain ⟨a, b, c, d⟩ := onS n hi
      cases p with
      | lhs => exact absurd hx a
      | t i' =>
        obtain ⟨hk, rfl⟩ := (b i').1 hx
        have hi' : i'.val < k := i'.2.trans_le (tFactors_length hk).le
        by_cases hj : i'.val < j
        · refine ⟨.z, ⟨by simp, d.2 (Or.inl hj)⟩, ?_⟩
          rintro q ⟨hq, hxq⟩
          cases q with
          | lhs => exact absurd hxq a
          | t i'' => exact absurd (Fin.ext ((b i'').1 hxq).2.symm) (fun e => hq (by rw [e]))
          | h => have := c.1 hxq; omega
          | z => rfl
        · refine ⟨.h, ⟨by simp, c.2 (by omega)⟩, ?_⟩
          rintro q ⟨hq, hxq⟩
          cases q with
          | lhs => exact absurd hxq a
          | t i'' => exact absurd (Fin.ext ((b i'').1 hxq).2.symm) (fun e => hq (by rw [e]))
          | h => rfl
          | z => have := d.1 hxq; omega
      | h =>
        have hx' := c.1 hx
        by_cases hik : i < k
        · have hk : k ≠ 0 := by omega
          refine ⟨.t ⟨i, by rw [tFactors_length hk]; exact hik⟩, ⟨by simp, (b _).2 ⟨hk, rfl⟩⟩, ?_⟩
          rintro q ⟨hq, hxq⟩
          cases q with
          | lhs => exact absurd hxq a
          | t i'' =>
            have := ((b i'').1 hxq).2
            subst this
            rfl
          | h => exact absurd rfl hq
          | z => have := d.1 hxq; omega
        · refine ⟨.z, ⟨by simp, d.2 (by omega)⟩, ?_⟩
          rintro q ⟨hq, hxq⟩
          cases q with
          | lhs => exact absurd hxq a
          | t i'' =>
            obtain ⟨hk, e⟩ := (b i'').1 hxq
            have hi' : i''.val < k := i''.2.trans_le (tFactors_length hk).le
            omega
          | h => exact absurd rfl hq
          | z => rfl
      | z =>
        have hx' := d.1 hx
        by_cases hik : i < k
        · have hk : k ≠ 0 := by omega
          refine ⟨.t ⟨i, by rw [tFactors_length hk]; exact hik⟩, ⟨by simp, (b _).2 ⟨hk, rfl⟩⟩, ?_⟩
          rintro q ⟨hq, hxq⟩
          cases q with
          | lhs => exact absurd hxq a
          | t i'' =>
            have := ((b i'').1 hxq).2
            subst this
            rfl
          | h => have := c.1 hxq; omega
          | z => exact absurd rfl hq
        · refine ⟨.h, ⟨by simp, c.2 (by omega)⟩, ?_⟩
          rintro q ⟨hq, hxq⟩
          cases q with
          | lhs => exact absurd hxq a
          | t i'' =>
            obtain ⟨hk, e⟩ := (b i'').1 hxq
            have hi' : i''.val < k := i''.2.trans_le (tFactors_length hk).le
            omega
          | h => rfl
          | z => exact absurd rfl hq
    · obtain ⟨a, b, c, d⟩ := onU n hi
      cases p with
      | t i' => exact absurd hx (b i')
      | lhs =>
        have hx' := a.1 hx
        by_cases hih : i < hl
        · refine ⟨.h, ⟨by simp, c.2 hih⟩, ?_⟩
          rintro q ⟨hq, hxq⟩
          cases q with
          | lhs => exact absurd rfl hq
          | t i'' => exact absurd hxq (b i'')
          | h => rfl
          | z => have := d.1 hxq; omega
        · refine ⟨.z, ⟨by simp, d.2 (by omega)⟩, ?_⟩
          rintro q ⟨hq, hxq⟩
          cases q with
          | lhs => exact absurd rfl hq
          | t i'' => exact absurd hxq (b i'')
          | h => have := c.1 hxq; omega
          | z => rfl
      | h =>
        have hx' := c.1 hx
        refine ⟨.lhs, ⟨by simp, a.2 (by omega)⟩, ?_⟩
        rintro q ⟨hq, hxq⟩
        cases q with
        | lhs => rfl
        | t i'' => exact absurd hxq (b i'')
        | h => exact absurd rfl hq
        | z => have := d.1 hxq; omega
      | z =>
        have hx' := d.1 hx
        refine ⟨.lhs, ⟨by simp, a.2 (by omega)⟩, ?_⟩
        rintro q ⟨hq, hxq⟩
        cases q with
        | lhs => rfl
        | t i'' => exact absurd hxq (b i'')
        | h => have := c.1 hxq; omega
        | z => exact absurd rfl hq
  · intro p q hpq
    cases p with
    | t i =>
      rw [s1 i q (Ne.symm hpq), Nat.add_comm]
    | lhs =>
      cases q with
      | lhs => exact absurd rfl hpq
      | t i => rw [shared_symm (hnd _) (hnd _), s1 i _ (by simp)]
      | h => rw [shared_symm (hnd _) (hnd _), s2]; simp [tableJ]
      | z => rw [shared_symm (hnd _) (hnd _), s3]; simp [tableJ]
    | h =>
      cases q with
      | lhs => rw [s2]; simp [tableJ]
      | t i => rw [shared_symm (hnd _) (hnd _), s1 i _ (by simp)]
      | h => exact absurd rfl hpq
      | z => rw [s4]; simp [tableJ]
    | z =>
      cases q with
      | lhs => rw [s3]; simp [tableJ]
      | t i => rw [shared_symm (hnd _) (hnd _), s1 i _ (by simp)]
      | h => rw [shared_symm (hnd _) (hnd _), s4]; simp [tableJ]
      | z => exact absurd rfl hpq

end

end TF.ETPy
