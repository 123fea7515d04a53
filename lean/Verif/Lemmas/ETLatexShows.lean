import Verif.Lemmas.ETLatexText

/-! # Lemmas about the LaTeX of the e^T z_t equations: what a printed term shows -/

namespace TF.ETLatex

open TF.Py
open TF.CC (Op HOp)
open TF.Zhz (Piece Lab Color zSummation zUnlinked Fac Pref at')
open TF.ET (Mode PTerm lenOf rankOf choosePar factIf downIf)
open TF.ETPy (Nums tableJ tableS classOf exists_tableJ contraction_facts nums_of_facts length_t mem_classList classList weight_tableS)
open TF.Spec.ET TF.Spec.ETPy TF.Spec.ETLatex
open TF.Spec.Zhz (letters prefValue facValue)

/-! ## The alphabets -/

theorem nodup_S : zSummation.Nodup := by decide
theorem nodup_U : zUnlinked.Nodup := by decide
theorem S_not_U : ∀ x ∈ zSummation, x ∉ zUnlinked := by decide
theorem clean_S : '}' ∉ zSummation := by decide
theorem clean_U : '}' ∉ zUnlinked := by decide

theorem length_at' {l : List Char} {a n : Nat} (h : a + n ≤ l.length) : (at' l a n).length = n := TF.ETPy.length_at' h

theorem length_at'_eq (l : List Char) (a n : Nat) : (at' l a n).length = min (a + n) l.length - a := by
  unfold at'
  rw [length_slice]

theorem mem_at' {l : List Char} {a n : Nat} {x : Char} : x ∈ at' l a n ↔ ∃ i, a ≤ i ∧ i < a + n ∧ l[i]? = some x := TF.ETPy.mem_at'

theorem mem_of_at' {l : List Char} {a n : Nat} {x : Char} (h : x ∈ at' l a n) : x ∈ l := TF.ETPy.mem_of_at' h

theorem at'_append (l : List Char) (a n m : Nat) : at' l a n ++ at' l (a + n) m = at' l a (n + m) := TF.ETPy.at'_append l a n m

theorem nodup_at' {l : List Char} (h : l.Nodup) (a n : Nat) : (at' l a n).Nodup := TF.ETPy.nodup_at' h a n

theorem mem_iff {l : List Char} (hl : l.Nodup) {i a n : Nat} {x : Char} (hx : l[i]? = some x) : x ∈ at' l a n ↔ a ≤ i ∧ i < a + n := by
  rw [mem_at']
  constructor
  · rintro ⟨i', h1, h2, h3⟩
    have := TF.ETPy.getElem?_unique hl hx h3
    omega
  · rintro ⟨h1, h2⟩
    exact ⟨i, h1, h2, hx⟩

theorem notU_of_S {i a n : Nat} {x : Char} (hx : zSummation[i]? = some x) : x ∉ at' zUnlinked a n :=
  fun h => S_not_U x (List.mem_of_getElem? hx) (mem_of_at' h)

theorem notS_of_U {i a n : Nat} {x : Char} (hx : zUnlinked[i]? = some x) : x ∉ at' zSummation a n :=
  fun h => S_not_U x (mem_of_at' h) (List.mem_of_getElem? hx)

/-! ## The letters of the printed term -/

theorem letters_blue {k j : Nat} (hj : j ≤ k) : letters ((List.range k).map (blueOf j)) = at' zSummation j (k - j) := by
  obtain ⟨n, rfl⟩ := Nat.exists_eq_add_of_le hj
  rw [Nat.add_sub_cancel_left]
  induction n with
  | zero =>
    rw [at'_zero]
    refine List.flatMap_eq_nil_iff.2 fun p hp => ?_
    obtain ⟨i, hi, rfl⟩ := List.mem_map.1 hp
    rw [List.mem_range] at hi
    simp only [blueOf]
    rw [if_pos (by omega), at'_zero]
  | succ n ih =>
    rw [← Nat.add_assoc, List.range_succ, List.map_append]
    unfold letters at ih ⊢
    rw [List.flatMap_append, ih (by omega), ← at'_append]
    simp [blueOf]

theorem letters_mag {k j : Nat} (hj : j ≤ k) : letters ((List.range k).map (magOf j)) = at' zSummation 0 j := by
  obtain ⟨n, rfl⟩ := Nat.exists_eq_add_of_le hj
  induction n with
  | zero =>
    have : ∀ m, m ≤ j → letters ((List.range m).map (magOf j)) = at' zSummation 0 m := by
      intro m
      induction m with
      | zero => intro _; rw [at'_zero]; rfl
      | succ m ih =>
        intro h
        rw [List.range_succ, List.map_append]
        unfold letters at ih ⊢
        rw [List.flatMap_append, ih (by omega), ← at'_append]
        simp only [List.map_cons, List.map_nil, List.flatMap_cons, List.flatMap_nil, magOf, List.append_nil, Nat.zero_add]
        rw [if_pos (by omega)]
    exact this j (by omega)
  | succ n ih =>
    rw [← Nat.add_assoc, List.range_succ, List.map_append]
    unfold letters at ih ⊢
    rw [List.flatMap_append, ih (by omega)]
    simp [magOf, at'_zero]

theorem letters_append (l l' : List Piece) : letters (l ++ l') = letters l ++ letters l' := List.flatMap_append

theorem coloured_map {c : Color} {f : Nat → Piece} (k : Nat) (h : ∀ i, (f i).color ≠ c) : coloured c ((List.range k).map f) = [] := by
  unfold coloured
  rw [List.filter_eq_nil_iff.2]
  · rfl
  · intro p hp
    obtain ⟨i, _, rfl⟩ := List.mem_map.1 hp
    simpa using h i

theorem coloured_append (c : Color) (l l' : List Piece) : coloured c (l ++ l') = coloured c l ++ coloured c l' := by
  unfold coloured
  rw [List.filter_append, letters_append]

/-- The letters above. -/
def upOf (N k hn j hl : Nat) : Pl k → List Char
  | .h => at' zSummation j (k - j) ++ at' zUnlinked 0 hl
  | .z => at' zSummation 0 j ++ at' zSummation k hn ++ at' zUnlinked hl (N - hl)
  | _ => []

/-- The letters below. -/
def lowOf (N k hn : Nat) : Pl k → List Char
  | .lhs => at' zUnlinked 0 N
  | .t i => if k = 0 then [] else at' zSummation i.val 1
  | .h => at' zSummation k hn
  | .z => []

section
variable {N k hm hn zm j hl zl : Nat}

theorem onS (n : Nums N k hm hn zm j hl zl) {i : Nat} {x : Char} (hx : zSummation[i]? = some x) :
    (x ∈ upOf N k hn j hl .h ↔ j ≤ i ∧ i < k) ∧ (x ∈ upOf N k hn j hl .z ↔ i < j ∨ (k ≤ i ∧ i < k + hn)) ∧
    (x ∉ lowOf N k hn .lhs) ∧ (∀ i', x ∈ lowOf N k hn (.t i') ↔ k ≠ 0 ∧ i = i'.val) ∧ (x ∈ lowOf N k hn .h ↔ k ≤ i ∧ i < k + hn) := by
  have n1 := n.le
  refine ⟨?_, ?_, notU_of_S hx, ?_, ?_⟩
  · simp only [upOf, List.mem_append, mem_iff nodup_S hx]
    have := notU_of_S (a := 0) (n := hl) hx
    constructor
    · rintro (h | h)
      · omega
      · exact absurd h this
    · exact fun h => Or.inl (by omega)
  · simp only [upOf, List.mem_append, mem_iff nodup_S hx]
    have := notU_of_S (a := hl) (n := N - hl) hx
    constructor
    · rintro ((h | h) | h)
      · omega
      · omega
      · exact absurd h this
    · rintro (h | h)
      · exact Or.inl (Or.inl (by omega))
      · exact Or.inl (Or.inr (by omega))
  · intro i'
    simp only [lowOf]
    by_cases hk : k = 0
    · simp [hk]
    · rw [if_neg hk, mem_iff nodup_S hx]
      omega
  · exact mem_iff nodup_S hx

theorem onU (n : Nums N k hm hn zm j hl zl) {i : Nat} {x : Char} (hx : zUnlinked[i]? = some x) :
    (x ∈ upOf N k hn j hl .h ↔ i < hl) ∧ (x ∈ upOf N k hn j hl .z ↔ hl ≤ i ∧ i < N) ∧
    (x ∈ lowOf N k hn .lhs ↔ i < N) ∧ (∀ i', x ∉ lowOf N k hn (.t i')) ∧ (x ∉ lowOf N k hn .h) := by
  have n1 := n.onN
  refine ⟨?_, ?_, ?_, ?_, notS_of_U hx⟩
  · simp only [upOf, List.mem_append, mem_iff nodup_U hx]
    have := notS_of_U (a := j) (n := k - j) hx
    constructor
    · rintro (h | h)
      · exact absurd h this
      · omega
    · exact fun h => Or.inr (by omega)
  · simp only [upOf, List.mem_append, mem_iff nodup_U hx]
    have h1 := notS_of_U (a := 0) (n := j) hx
    have h2 := notS_of_U (a := k) (n := hn) hx
    constructor
    · rintro ((h | h) | h)
      · exact absurd h h1
      · exact absurd h h2
      · omega
    · exact fun h => Or.inr (by omega)
  · simp only [lowOf, mem_iff nodup_U hx]
    omega
  · intro i'
    simp only [lowOf]
    by_cases hk : k = 0
    · simp [hk]
    · rw [if_neg hk]
      exact notS_of_U hx

theorem up_cases {p : Pl k} {x : Char} (hx : x ∈ upOf N k hn j hl p) :
    (∃ i : Nat, zSummation[i]? = some x) ∨ ∃ i : Nat, zUnlinked[i]? = some x := by
  have hS : ∀ {a n}, x ∈ at' zSummation a n → ∃ i : Nat, zSummation[i]? = some x := fun h => by
    obtain ⟨i, _, _, h3⟩ := mem_at'.1 h; exact ⟨i, h3⟩
  have hU : ∀ {a n}, x ∈ at' zUnlinked a n → ∃ i : Nat, zUnlinked[i]? = some x := fun h => by
    obtain ⟨i, _, _, h3⟩ := mem_at'.1 h; exact ⟨i, h3⟩
  cases p with
  | lhs => simp [upOf] at hx
  | t i => simp [upOf] at hx
  | h =>
    simp only [upOf, List.mem_append] at hx
    rcases hx with h | h
    · exact Or.inl (hS h)
    · exact Or.inr (hU h)
  | z =>
    simp only [upOf, List.mem_append] at hx
    rcases hx with (h | h) | h
    · exact Or.inl (hS h)
    · exact Or.inl (hS h)
    · exact Or.inr (hU h)

theorem low_cases {p : Pl k} {x : Char} (hx : x ∈ lowOf N k hn p) :
    (∃ i : Nat, zSummation[i]? = some x) ∨ ∃ i : Nat, zUnlinked[i]? = some x := by
  cases p with
  | lhs => obtain ⟨i, _, _, h3⟩ := mem_at'.1 hx; exact Or.inr ⟨i, h3⟩
  | t i =>
    simp only [lowOf] at hx
    split at hx
    · simp at hx
    · obtain ⟨i, _, _, h3⟩ := mem_at'.1 hx; exact Or.inl ⟨i, h3⟩
  | h => obtain ⟨i, _, _, h3⟩ := mem_at'.1 hx; exact Or.inl ⟨i, h3⟩
  | z => simp [lowOf] at hx

theorem up_nodup (n : Nums N k hm hn zm j hl zl) (p : Pl k) : (upOf N k hn j hl p).Nodup := by
  have n1 := n.le
  cases p with
  | lhs => exact List.nodup_nil
  | t i => exact List.nodup_nil
  | h =>
    refine List.nodup_append.2 ⟨nodup_at' nodup_S _ _, nodup_at' nodup_U _ _, fun x hx y hy e => ?_⟩
    subst e
    exact S_not_U x (mem_of_at' hx) (mem_of_at' hy)
  | z =>
    refine List.nodup_append.2 ⟨List.nodup_append.2 ⟨nodup_at' nodup_S _ _, nodup_at' nodup_S _ _, fun x hx y hy e => ?_⟩,
      nodup_at' nodup_U _ _, fun x hx y hy e => ?_⟩
    · subst e
      exact TF.ETPy.disjoint_at' nodup_S (by omega) hx hy
    · subst e
      rw [List.mem_append] at hx
      exact S_not_U x (hx.elim mem_of_at' mem_of_at') (mem_of_at' hy)

theorem low_nodup (p : Pl k) : (lowOf N k hn p).Nodup := by
  cases p with
  | lhs => exact nodup_at' nodup_U _ _
  | t i =>
    simp only [lowOf]
    split
    · exact List.nodup_nil
    · exact nodup_at' nodup_S _ _
  | h => exact nodup_at' nodup_S _ _
  | z => exact List.nodup_nil

theorem length_filter_eq {A l B : List Char} (hA : A.Nodup) (hB : B.Nodup) (h : ∀ x, x ∈ A ∧ x ∈ l ↔ x ∈ B) :
    (A.filter fun x => decide (x ∈ l)).length = B.length := by
  refine List.Perm.length_eq ((List.perm_ext_iff_of_nodup (hA.filter _) hB).2 fun x => ?_)
  simp only [List.mem_filter, decide_eq_true_eq, h]

theorem shared_eq (n : Nums N k hm hn zm j hl zl) (cap : k + hn ≤ 5) (capN : N ≤ 7) (p q : Pl k) :
    ((upOf N k hn j hl p).filter fun x => decide (x ∈ lowOf N k hn q)).length = tableJ N k hn j hl p q := by
  have n1 := n.le
  have n2 := n.onN
  have hS : zSummation.length = 5 := rfl
  have hU : zUnlinked.length = 7 := rfl
  have none : (∀ x ∈ upOf N k hn j hl p, x ∉ lowOf N k hn q) → ((upOf N k hn j hl p).filter fun x => decide (x ∈ lowOf N k hn q)).length = 0 :=
    TF.ETPy.filter_none
  cases p with
  | lhs => cases q <;> rfl
  | t i => cases q <;> rfl
  | h =>
    cases q with
    | z => exact none fun x _ h => by simp [lowOf] at h
    | lhs =>
      rw [length_filter_eq (B := at' zUnlinked 0 hl) (up_nodup n .h) (nodup_at' nodup_U _ _), length_at' (by omega)]
      · rfl
      · intro x
        constructor
        · rintro ⟨h1, h2⟩
          rcases up_cases h1 with ⟨i, hi⟩ | ⟨i, hi⟩
          · exact absurd h2 (onS n hi).2.2.1
          · exact (mem_iff nodup_U hi).2 (by have := (onU n hi).1.1 h1; omega)
        · intro h
          obtain ⟨i, a, b, hi⟩ := mem_at'.1 h
          exact ⟨(onU n hi).1.2 (by omega), (onU n hi).2.2.1.2 (by omega)⟩
    | h =>
      refine none fun x h1 h2 => ?_
      rcases up_cases h1 with ⟨i, hi⟩ | ⟨i, hi⟩
      · have a := (onS n hi).1.1 h1
        have b := (onS n hi).2.2.2.2.1 h2
        omega
      · exact (onU n hi).2.2.2.2 h2
    | t i =>
      by_cases hk : k = 0
      · rw [none fun x _ h => by simp [lowOf, hk] at h]
        simp [tableJ, rankOf, hk]
      · have hik : i.val < k := i.2.trans_le (TF.ETPy.tFactors_length hk).le
        by_cases hj : i.val < j
        · rw [none fun x h1 h2 => ?_]
          · simp [tableJ, hj]
          · rcases up_cases h1 with ⟨i', hi⟩ | ⟨i', hi⟩
            · have a := (onS n hi).1.1 h1
              have b := ((onS n hi).2.2.2.1 i).1 h2
              omega
            · exact (onU n hi).2.2.2.1 i h2
        · rw [length_filter_eq (B := at' zSummation i.val 1) (up_nodup n .h) (nodup_at' nodup_S _ _), length_at' (by omega)]
          · simp [tableJ, hj, rankOf, hk]
          · intro x
            constructor
            · rintro ⟨_, h2⟩
              simpa only [lowOf, if_neg hk] using h2
            · intro h
              obtain ⟨i', a, b, hi⟩ := mem_at'.1 h
              exact ⟨(onS n hi).1.2 (by omega), by simpa only [lowOf, if_neg hk] using h⟩
  | z =>
    cases q with
    | z => exact none fun x _ h => by simp [lowOf] at h
    | lhs =>
      rw [length_filter_eq (B := at' zUnlinked hl (N - hl)) (up_nodup n .z) (nodup_at' nodup_U _ _), length_at' (by omega)]
      · rfl
      · intro x
        constructor
        · rintro ⟨h1, h2⟩
          rcases up_cases h1 with ⟨i, hi⟩ | ⟨i, hi⟩
          · exact absurd h2 (onS n hi).2.2.1
          · exact (mem_iff nodup_U hi).2 (by have := (onU n hi).2.1.1 h1; omega)
        · intro h
          obtain ⟨i, a, b, hi⟩ := mem_at'.1 h
          exact ⟨(onU n hi).2.1.2 (by omega), (onU n hi).2.2.1.2 (by omega)⟩
    | h =>
      rw [length_filter_eq (B := at' zSummation k hn) (up_nodup n .z) (nodup_at' nodup_S _ _), length_at' (by omega)]
      · rfl
      · intro x
        constructor
        · exact fun h => h.2
        · intro h
          obtain ⟨i, a, b, hi⟩ := mem_at'.1 h
          exact ⟨(onS n hi).2.1.2 (by omega), h⟩
    | t i =>
      by_cases hk : k = 0
      · rw [none fun x _ h => by simp [lowOf, hk] at h]
        have : ¬ i.val < j := by omega
        simp [tableJ, this]
      · have hik : i.val < k := i.2.trans_le (TF.ETPy.tFactors_length hk).le
        by_cases hj : i.val < j
        · rw [length_filter_eq (B := at' zSummation i.val 1) (up_nodup n .z) (nodup_at' nodup_S _ _), length_at' (by omega)]
          · simp [tableJ, hj]
          · intro x
            constructor
            · rintro ⟨_, h2⟩
              simpa only [lowOf, if_neg hk] using h2
            · intro h
              obtain ⟨i', a, b, hi⟩ := mem_at'.1 h
              exact ⟨(onS n hi).2.1.2 (by omega), by simpa only [lowOf, if_neg hk] using h⟩
        · rw [none fun x h1 h2 => ?_]
          · simp [tableJ, hj]
          · rcases up_cases h1 with ⟨i', hi⟩ | ⟨i', hi⟩
            · have a := (onS n hi).2.1.1 h1
              have b := ((onS n hi).2.2.2.1 i).1 h2
              omega
            · exact (onU n hi).2.2.2.1 i h2

end

/-! ## The printed term of a class -/

section
variable {lhs : Op} {k : Nat} {h : HOp} {z : Op} {j hl zl : Nat}

theorem letters_t (j i : Nat) : letters [⟨.magenta, []⟩, blueOf j i, magOf j i, ⟨.red, []⟩] = at' zSummation i 1 := by
  unfold letters blueOf magOf
  by_cases h : i < j <;> simp [h, at'_zero]

theorem reds_ptermOf {N : Nat} (n : Nums N k h.m h.n z.m j hl zl) : reds (ptermOf N k h z j hl) = at' zUnlinked 0 N := by
  have n1 := n.le
  have n2 := n.onH
  have n3 := n.onZ
  have n4 := n.onN
  have hT : (match (ptermOf N k h z j hl).ts with | none => [] | some l => l.flatMap (coloured .red)) = [] := by
    unfold ptermOf
    simp only
    by_cases hk : k = 0
    · simp [hk]
    · rw [if_neg hk]
      simp only [List.flatMap_map]
      refine List.flatMap_eq_nil_iff.2 fun i _ => ?_
      simp [coloured, blueOf, magOf, letters]
  have hH : (match (ptermOf N k h z j hl).h with | none => [] | some l => coloured .red l.upper ++ coloured .red l.lower) = at' zUnlinked 0 hl := by
    unfold ptermOf
    simp only
    by_cases h0 : h.m + h.n = 0
    · rw [if_pos h0, show hl = 0 by omega, at'_zero]
    · rw [if_neg h0]
      simp only
      have h2 : coloured .red (if h.n > 0 then [(⟨.blue, at' zSummation k h.n⟩ : Piece), ⟨.red, []⟩] else []) = [] := by
        split <;> simp [coloured, letters]
      rw [h2, List.append_nil]
      by_cases hm : h.m > 0
      · rw [if_pos hm, coloured_append, coloured_map _ (fun i => by simp [blueOf])]
        simp [coloured, letters]
      · rw [if_neg hm, show hl = 0 by omega, at'_zero]
        rfl
  have hZ : (match (ptermOf N k h z j hl).z with | none => [] | some l => coloured .red l.upper ++ coloured .red l.lower) = at' zUnlinked hl (N - hl) := by
    unfold ptermOf
    simp only
    by_cases h0 : z.m = 0
    · rw [if_pos h0, show N - hl = 0 by omega, at'_zero]
    · rw [if_neg h0]
      simp only
      have h2 : coloured .red (if h.n > 0 then [(⟨.blue, at' zSummation k h.n⟩ : Piece)] else []) = [] := by
        split <;> simp [coloured, letters]
      rw [coloured_append, coloured_append, coloured_map _ (fun i => by simp [magOf]), h2]
      simp [coloured, letters]
  refine (congrArg₂ (· ++ ·) (congrArg₂ (· ++ ·) hT hH) hZ).trans ?_
  simp only [List.nil_append]
  have := at'_append zUnlinked 0 hl (N - hl)
  rw [Nat.zero_add] at this
  rw [this, show hl + (N - hl) = N by omega]

theorem letters_upperH {N : Nat} (n : Nums N k h.m h.n z.m j hl zl) (h0 : h.m + h.n ≠ 0) :
    letters (if h.m > 0 then (List.range k).map (blueOf j) ++ [(⟨.blue, []⟩ : Piece), ⟨.red, at' zUnlinked 0 hl⟩] else []) =
      at' zSummation j (k - j) ++ at' zUnlinked 0 hl := by
  have n1 := n.le
  have n2 := n.onH
  by_cases hm : h.m > 0
  · rw [if_pos hm, letters_append, letters_blue n1]
    simp [letters]
  · rw [if_neg hm, show hl = 0 by omega, show k - j = 0 by omega, at'_zero, at'_zero]
    rfl

theorem letters_lowerH (k : Nat) (h : HOp) :
    letters (if h.n > 0 then [(⟨.blue, at' zSummation k h.n⟩ : Piece), ⟨.red, []⟩] else []) = at' zSummation k h.n := by
  by_cases hn : h.n > 0
  · rw [if_pos hn]
    simp [letters]
  · rw [if_neg hn, show h.n = 0 by omega, at'_zero]
    rfl

theorem letters_upperZ {N : Nat} (n : Nums N k h.m h.n z.m j hl zl) :
    letters ((List.range k).map (magOf j) ++ (if h.n > 0 then [(⟨.blue, at' zSummation k h.n⟩ : Piece)] else []) ++
      [⟨.red, at' zUnlinked hl (N - hl)⟩]) = at' zSummation 0 j ++ at' zSummation k h.n ++ at' zUnlinked hl (N - hl) := by
  have n1 := n.le
  rw [letters_append, letters_append, letters_mag n1]
  by_cases hn : h.n > 0
  · rw [if_pos hn]
    simp [letters]
  · rw [if_neg hn, show h.n = 0 by omega, at'_zero]
    simp [letters]

theorem labelled_h {N : Nat} (n : Nums N k h.m h.n z.m j hl zl) :
    Labelled (h.m + h.n) (ptermOf N k h z j hl).h (upOf N k h.n j hl .h) (lowOf N k h.n .h) := by
  have n1 := n.le
  have n2 := n.onH
  unfold ptermOf
  simp only
  by_cases h0 : h.m + h.n = 0
  · rw [if_pos h0]
    refine ⟨h0, ?_, ?_⟩
    · simp only [upOf]
      rw [show hl = 0 by omega, show k - j = 0 by omega, at'_zero, at'_zero]
      rfl
    · simp only [lowOf]
      rw [show h.n = 0 by omega, at'_zero]
  · rw [if_neg h0]
    exact ⟨h0, letters_upperH n h0, letters_lowerH k h⟩

theorem labelled_z {N : Nat} (hz : z.n = 0) (n : Nums N k h.m h.n z.m j hl zl) :
    Labelled (z.m + z.n) (ptermOf N k h z j hl).z (upOf N k h.n j hl .z) (lowOf N k h.n .z) := by
  have n3 := n.onZ
  have n4 := n.onN
  unfold ptermOf
  simp only
  by_cases h0 : z.m = 0
  · rw [if_pos h0]
    refine ⟨by omega, ?_, rfl⟩
    simp only [upOf]
    rw [show j = 0 by omega, show h.n = 0 by omega, show N - hl = 0 by omega, at'_zero, at'_zero, at'_zero]
    rfl
  · rw [if_neg h0]
    exact ⟨by omega, letters_upperZ n, rfl⟩

theorem labelled_t (N : Nat) (h : HOp) (z : Op) (j hl : Nat) : if k = 0 then (ptermOf N k h z j hl).ts = none else
    ∃ l, (ptermOf N k h z j hl).ts = some l ∧ l.map letters = (List.finRange (tFactors k).length).map fun i => lowOf N k h.n (.t i) := by
  by_cases hk : k = 0
  · rw [if_pos hk]
    simp [ptermOf, hk]
  · rw [if_neg hk]
    refine ⟨_, by simp only [ptermOf]; rw [if_neg hk], ?_⟩
    rw [List.map_map]
    simp only [lowOf, if_neg hk]
    have e : (letters ∘ fun i => [⟨.magenta, []⟩, blueOf j i, magOf j i, ⟨.red, []⟩]) = fun i => at' zSummation i 1 :=
      funext fun i => letters_t j i
    rw [e]
    have : List.range k = (List.finRange (tFactors k).length).map Fin.val := by
      rw [List.map_coe_finRange_eq_range, TF.ETPy.tFactors_length hk]
    rw [this, List.map_map]
    rfl

/-- The printed term shows the table in which the first t factors are paired with z. -/
theorem showsWith_ptermOf (hl0 : lhs.m = 0) (hz : z.n = 0) (n : Nums lhs.n k h.m h.n z.m j hl zl) (cap : k + h.n ≤ 5) (capN : lhs.n ≤ 7) :
    ShowsWith (ptermOf lhs.n k h z j hl) lhs k h z (tableJ lhs.n k h.n j hl) (upOf lhs.n k h.n j hl) (lowOf lhs.n k h.n) := by
  have n1 := n.le
  have n2 := n.onH
  have n3 := n.onZ
  have n4 := n.onN
  have hS : zSummation.length = 5 := rfl
  have hU : zUnlinked.length = 7 := rfl
  refine ⟨labelled_t _ _ _ _ _, labelled_h n, labelled_z hz n, (reds_ptermOf n).symm, ?_, ?_, ?_, ?_, ?_, ?_, ?_, ?_⟩
  · intro p
    cases p with
    | lhs => simp [upOf, creators, hl0]
    | t i =>
      have := TF.ET.getElem_uniform (TF.ET.uniform_self k) i
      simp only [upOf, creators, this.2.1, List.length_nil]
    | h =>
      simp only [upOf, creators, List.length_append]
      rw [length_at' (by omega), length_at' (by omega)]
      omega
    | z =>
      simp only [upOf, creators, List.length_append]
      rw [length_at' (by omega), length_at' (by omega), length_at' (by omega)]
      omega
  · intro p
    cases p with
    | lhs =>
      simp only [lowOf, annihilators]
      exact length_at' (by omega)
    | t i =>
      have := TF.ET.getElem_uniform (TF.ET.uniform_self k) i
      simp only [lowOf, annihilators, this.2.2, rankOf]
      by_cases hk : k = 0
      · simp [hk]
      · have hi : i.val < k := i.2.trans_le (TF.ETPy.tFactors_length hk).le
        rw [if_neg hk, if_neg hk, length_at' (by omega)]
    | h =>
      simp only [lowOf, annihilators]
      exact length_at' (by omega)
    | z => simp [lowOf, annihilators, hz]
  · intro p
    refine List.nodup_append.2 ⟨up_nodup n p, low_nodup p, fun x hx y hy e => ?_⟩
    subst e
    rcases up_cases hx with ⟨i, hi⟩ | ⟨i, hi⟩
    · have a := onS n hi
      cases p with
      | lhs => simp [upOf] at hx
      | t i => simp [upOf] at hx
      | h =>
        have b := a.1.1 hx
        have c := a.2.2.2.2.1 hy
        omega
      | z => simp [lowOf] at hy
    · have a := onU n hi
      cases p with
      | lhs => simp [upOf] at hx
      | t i => simp [upOf] at hx
      | h => exact a.2.2.2.2 hy
      | z => simp [lowOf] at hy
  · intro p x hx
    rcases up_cases hx with ⟨i, hi⟩ | ⟨i, hi⟩
    · obtain ⟨a, b, c, d, e⟩ := onS n hi
      have hcase : i < k ∨ (k ≤ i ∧ i < k + h.n) := by
        cases p with
        | lhs => simp [upOf] at hx
        | t i => simp [upOf] at hx
        | h => have := a.1 hx; omega
        | z => have := b.1 hx; omega
      by_cases hik : i < k
      · have hk : k ≠ 0 := by omega
        refine ⟨.t ⟨i, by rw [TF.ETPy.tFactors_length hk]; exact hik⟩, (d _).2 ⟨hk, rfl⟩, ?_⟩
        intro q hq
        cases q with
        | lhs => exact absurd hq c
        | t i' =>
          have := ((d i').1 hq).2
          subst this
          rfl
        | h => have := e.1 hq; omega
        | z => simp [lowOf] at hq
      · refine ⟨.h, e.2 (by omega), ?_⟩
        intro q hq
        cases q with
        | lhs => exact absurd hq c
        | t i' =>
          obtain ⟨hk, e'⟩ := (d i').1 hq
          have hi' : i'.val < k := i'.2.trans_le (TF.ETPy.tFactors_length hk).le
          omega
        | h => rfl
        | z => simp [lowOf] at hq
    · obtain ⟨a, b, c, d, e⟩ := onU n hi
      have hcase : i < lhs.n := by
        cases p with
        | lhs => simp [upOf] at hx
        | t i => simp [upOf] at hx
        | h => have := a.1 hx; omega
        | z => have := b.1 hx; omega
      refine ⟨.lhs, c.2 hcase, ?_⟩
      intro q hq
      cases q with
      | lhs => rfl
      | t i' => exact absurd hq (d i')
      | h => exact absurd hq e
      | z => simp [lowOf] at hq
  · intro p x hx
    rcases low_cases hx with ⟨i, hi⟩ | ⟨i, hi⟩
    · obtain ⟨a, b, c, d, e⟩ := onS n hi
      have hcase : i < k ∨ (k ≤ i ∧ i < k + h.n) := by
        cases p with
        | lhs => exact absurd hx c
        | t i' =>
          obtain ⟨hk, e'⟩ := (d i').1 hx
          have hi' : i'.val < k := i'.2.trans_le (TF.ETPy.tFactors_length hk).le
          omega
        | h => have := e.1 hx; omega
        | z => simp [lowOf] at hx
      by_cases hj : j ≤ i ∧ i < k
      · refine ⟨.h, a.2 hj, ?_⟩
        intro q hq
        cases q with
        | lhs => simp [upOf] at hq
        | t i => simp [upOf] at hq
        | h => rfl
        | z => have := b.1 hq; omega
      · refine ⟨.z, b.2 (by omega), ?_⟩
        intro q hq
        cases q with
        | lhs => simp [upOf] at hq
        | t i => simp [upOf] at hq
        | h => have := a.1 hq; omega
        | z => rfl
    · obtain ⟨a, b, c, d, e⟩ := onU n hi
      have hcase : i < lhs.n := by
        cases p with
        | lhs => exact c.1 hx
        | t i' => exact absurd hx (d i')
        | h => exact absurd hx e
        | z => simp [lowOf] at hx
      by_cases hj : i < hl
      · refine ⟨.h, a.2 hj, ?_⟩
        intro q hq
        cases q with
        | lhs => simp [upOf] at hq
        | t i => simp [upOf] at hq
        | h => rfl
        | z => have := b.1 hq; omega
      · refine ⟨.z, b.2 (by omega), ?_⟩
        intro q hq
        cases q with
        | lhs => simp [upOf] at hq
        | t i => simp [upOf] at hq
        | h => have := a.1 hq; omega
        | z => rfl
  · exact shared_eq n cap capN
  · simp [ptermOf, tableJ]
  · have e1 : ∀ i : Fin (tFactors k).length, tableJ lhs.n k h.n j hl .h (.t i) + tableJ lhs.n k h.n j hl .z (.t i) = rankOf k := by
      intro i
      simp only [tableJ]
      by_cases hj : i.val < j
      · have : k ≠ 0 := by omega
        simp [hj, rankOf, this]
      · simp [hj]
    simp only [e1, List.map_const', List.sum_replicate, List.length_finRange, smul_eq_mul]
    have e2 : (tFactors k).length * rankOf k = k := by rw [length_t, TF.ET.lenOf_mul]
    refine Eq.trans ?_ (congrArg (· + h.n) e2.symm)
    show h.n + k = k + h.n
    omega

/-- The printed term of a class shows every contraction of the class. -/
theorem shows_ptermOf {c : Pl k → Pl k → Nat} (hl0 : lhs.m = 0) (hz : z.n = 0) (hc : Contraction lhs k h z c) (cap : k + h.n ≤ 5)
    (capN : lhs.n ≤ 7) : Shows (ptermOf lhs.n k h z (classOf c) (c .h .lhs)) lhs k h z c := by
  have hr := showsWith_ptermOf hl0 hz (nums_of_facts (contraction_facts hl0 hz hc)) cap capN
  obtain ⟨σ, hσ⟩ := exists_tableJ hl0 hz hc
  refine ⟨σ, upOf lhs.n k h.n (classOf c) (c .h .lhs), lowOf lhs.n k h.n, ?_⟩
  rw [hσ]
  exact hr

end

/-! ## The converse -/

theorem Labelled.unique {r r' : Nat} {l : Option Lab} {up low up' low' : List Char} (h : Labelled r l up low) (h' : Labelled r' l up' low') :
    up = up' ∧ low = low' := by
  cases l with
  | none => exact ⟨h.2.1.trans h'.2.1.symm, h.2.2.trans h'.2.2.symm⟩
  | some l => exact ⟨h.2.1.symm.trans h'.2.1, h.2.2.symm.trans h'.2.2⟩

theorem labels_h {N k j hl zl : Nat} {h : HOp} {z : Op} (n : Nums N k h.m h.n z.m j hl zl) {r : Nat} {up low : List Char}
    (hL : Labelled r (ptermOf N k h z j hl).h up low) : up = upOf N k h.n j hl .h ∧ low = lowOf N k h.n .h :=
  Labelled.unique hL (labelled_h n)

theorem labels_z {N k j hl zl : Nat} {h : HOp} {z : Op} (n : Nums N k h.m h.n z.m j hl zl) {r : Nat} {up low : List Char}
    (hL : Labelled r (ptermOf N k h z j hl).z up low) : up = upOf N k h.n j hl .z ∧ low = lowOf N k h.n .z := by
  have : Labelled z.m (ptermOf N k h z j hl).z (upOf N k h.n j hl .z) (lowOf N k h.n .z) :=
    labelled_z (z := { z with n := 0 }) rfl n
  exact Labelled.unique hL this

/-- The contractions a printed term shows. -/
theorem of_shows {lhs : Op} {k k' : Nat} {h h' : HOp} {z z' : Op} {c : Pl k → Pl k → Nat} {j hl zl : Nat} (hl0 : lhs.m = 0) (hz : z.n = 0)
    (n : Nums lhs.n k' h'.m h'.n z'.m j hl zl) (hc : Contraction lhs k h z c) (hs : Shows (ptermOf lhs.n k' h' z' j hl) lhs k h z c) :
    k = k' ∧ h.m = h'.m ∧ h.n = h'.n ∧ z.m = z'.m ∧ classOf c = j ∧ c .h .lhs = hl ∧ k + h.n ≤ 5 ∧ lhs.n ≤ 7 := by
  obtain ⟨σ, up, low, s⟩ := hs
  have f := contraction_facts hl0 hz hc
  have m := nums_of_facts f
  have hS : zSummation.length = 5 := rfl
  have hU : zUnlinked.length = 7 := rfl
  -- the number of t factors
  obtain rfl : k = k' := by
    have h1 := s.onT
    by_cases hk : k = 0
    · rw [if_pos hk] at h1
      simp only [ptermOf] at h1
      by_contra hne
      rw [if_neg (by omega)] at h1
      simp at h1
    · rw [if_neg hk] at h1
      obtain ⟨l, e1, e2⟩ := h1
      have e3 := congrArg List.length e2
      rw [List.length_map, List.length_map, List.length_finRange, TF.ETPy.tFactors_length hk] at e3
      simp only [ptermOf] at e1
      split at e1
      · simp at e1
      · simp only [Option.some.injEq] at e1
        rw [← e1] at e3
        simpa using e3.symm
  -- the annihilation operators of h
  have en : h.n = h'.n := by
    have h1 := s.fbar
    simp only [relabel] at h1
    have e1 : ((List.finRange (tFactors k).length).map fun i => c .h (.t (σ i)) + c .z (.t (σ i))) =
        (List.finRange (tFactors k).length).map fun _ => rankOf k :=
      List.map_congr_left fun i _ => by have := f.t_col (σ i); omega
    rw [e1, List.map_const', List.sum_replicate, List.length_finRange, smul_eq_mul] at h1
    have e2 : (tFactors k).length * rankOf k = k := by rw [length_t, TF.ET.lenOf_mul]
    have e3 := h1.trans (congrArg (· + c .z .h) e2)
    have e4 : (ptermOf lhs.n k h' z' j hl).fbar = h'.n + k := rfl
    have := f.h_col
    omega
  have n1 := n.le
  have n2 := n.onH
  have n3 := n.onZ
  have n4 := n.onN
  have m1 := m.le
  have m2 := m.onH
  obtain ⟨uh, lh⟩ := labels_h n s.onH
  obtain ⟨uz, lz⟩ := labels_z n s.onZ
  -- there are enough letters
  have cap1 : k ≤ 5 := by
    by_contra hlt
    have hk : k ≠ 0 := by omega
    have h1 := s.onT
    rw [if_neg hk] at h1
    obtain ⟨l, e1, e2⟩ := h1
    have h2 := labelled_t (k := k) lhs.n h' z' j hl
    rw [if_neg hk] at h2
    obtain ⟨l', e1', e2'⟩ := h2
    obtain rfl : l = l' := Option.some.inj (e1.symm.trans e1')
    have e5 := List.map_inj_left.1 (e2.symm.trans e2') ⟨5, by rw [TF.ETPy.tFactors_length hk]; omega⟩ (List.mem_finRange _)
    have e6 := s.lower (.t ⟨5, by rw [TF.ETPy.tFactors_length hk]; omega⟩)
    rw [e5] at e6
    simp only [lowOf, if_neg hk, annihilators, length_at'_eq] at e6
    have := TF.ET.getElem_uniform (TF.ET.uniform_self k) ⟨5, by rw [TF.ETPy.tFactors_length hk]; omega⟩
    rw [this.2.2] at e6
    simp [rankOf, hk, hS] at e6
  have cap2 : k + h.n ≤ 5 := by
    have e6 := s.lower .h
    rw [lh] at e6
    simp only [lowOf, annihilators, length_at'_eq] at e6
    omega
  have capN : lhs.n ≤ 7 := by
    have e6 := s.lower .lhs
    rw [s.external, reds_ptermOf n] at e6
    simp only [annihilators, length_at'_eq] at e6
    omega
  have em : h.m = h'.m := by
    have e6 := s.upper .h
    rw [uh] at e6
    simp only [upOf, creators, List.length_append, length_at'_eq] at e6
    omega
  have ez : z.m = z'.m := by
    have e6 := s.upper .z
    rw [uz] at e6
    simp only [upOf, creators, List.length_append, length_at'_eq] at e6
    omega
  have ehl : c .h .lhs = hl := by
    have e7 := s.shared .h .lhs
    have e8 : low .lhs = lowOf lhs.n k h'.n .lhs := s.external.trans (reds_ptermOf n)
    rw [uh, e8, shared_eq n (by omega) capN] at e7
    exact e7.symm
  exact ⟨rfl, em, en, ez, by omega, ehl, cap2, capN⟩

/-! ## The text of the printed term -/

theorem proper_at {c : Color} (hc : c ≠ .plain) {l : List Char} (hl : '}' ∉ l) (a n : Nat) : Proper ⟨c, at' l a n⟩ :=
  ⟨hc, fun h => hl (mem_of_at' h)⟩

theorem proper_nil {c : Color} (hc : c ≠ .plain) : Proper ⟨c, []⟩ := ⟨hc, by simp⟩

theorem proper_blue (j i : Nat) : Proper (blueOf j i) := proper_at (by decide) clean_S _ _
theorem proper_mag (j i : Nat) : Proper (magOf j i) := proper_at (by decide) clean_S _ _

theorem readable_ptermOf (N k : Nat) (h : HOp) (z : Op) (j hl : Nat) : Readable (ptermOf N k h z j hl) := by
  refine ⟨rfl, ?_, ?_, ?_⟩
  · intro l hl'
    simp only [ptermOf] at hl'
    split at hl'
    · simp at hl'
    · rename_i hk
      simp only [Option.some.injEq] at hl'
      subst hl'
      refine ⟨by simpa using hk, fun q hq x hx => ?_⟩
      obtain ⟨i, _, rfl⟩ := List.mem_map.1 hq
      simp only [List.mem_cons, List.not_mem_nil, or_false] at hx
      rcases hx with rfl | rfl | rfl | rfl
      · exact proper_nil (by decide)
      · exact proper_blue _ _
      · exact proper_mag _ _
      · exact proper_nil (by decide)
  · simp only [ptermOf]
    split
    · trivial
    · refine ⟨fun p hp => ?_, fun p hp => ?_⟩
      · simp only at hp
        split at hp
        · rw [List.mem_append] at hp
          rcases hp with hp | hp
          · obtain ⟨i, _, rfl⟩ := List.mem_map.1 hp
            exact proper_blue _ _
          · simp only [List.mem_cons, List.not_mem_nil, or_false] at hp
            rcases hp with rfl | rfl
            · exact proper_nil (by decide)
            · exact proper_at (by decide) clean_U _ _
        · simp at hp
      · simp only at hp
        split at hp
        · simp only [List.mem_cons, List.not_mem_nil, or_false] at hp
          rcases hp with rfl | rfl
          · exact proper_at (by decide) clean_S _ _
          · exact proper_nil (by decide)
        · simp at hp
  · simp only [ptermOf]
    split
    · trivial
    · refine ⟨fun p hp => ?_, fun p hp => by simp at hp⟩
      simp only [List.mem_append] at hp
      rcases hp with (hp | hp) | hp
      · obtain ⟨i, _, rfl⟩ := List.mem_map.1 hp
        exact proper_mag _ _
      · split at hp
        · simp only [List.mem_cons, List.not_mem_nil, or_false] at hp
          subst hp
          exact proper_at (by decide) clean_S _ _
        · simp at hp
      · simp only [List.mem_cons, List.not_mem_nil, or_false] at hp
        subst hp
        exact proper_at (by decide) clean_U _ _

/-- What a term shows does not depend on its prefactor. -/
theorem Shows.congr {p p' : PTerm} {lhs : Op} {k : Nat} {h : HOp} {z : Op} {c : Pl k → Pl k → Nat}
    (e : p.f = p'.f ∧ p.fbar = p'.fbar ∧ p.ts = p'.ts ∧ p.h = p'.h ∧ p.z = p'.z) (hs : Shows p lhs k h z c) : Shows p' lhs k h z c := by
  obtain ⟨σ, up, low, s⟩ := hs
  obtain ⟨e1, e2, e3, e4, e5⟩ := e
  have er : reds p = reds p' := by
    unfold reds
    rw [e3, e4, e5]
  exact ⟨σ, up, low, ⟨e3 ▸ s.onT, e4 ▸ s.onH, e5 ▸ s.onZ, er ▸ s.external, s.upper, s.lower, s.nodup, s.above, s.below, s.shared, e1 ▸ s.f, e2 ▸ s.fbar⟩⟩

/-! ## The prefactor -/

/-- Both values of a printed fraction. -/
def Val (p : Pref) (q : Rat) : Prop := prefValue p = q ∧ (p.numVal : Rat) / (p.denVal : Rat) = q

theorem Val.up {p : Pref} {q : Rat} (h : Val p q) {f : Fac} {v : Nat} (e : facValue f = v) : Val (p.up f v) (q * v) := by
  obtain ⟨h1, h2⟩ := h
  refine ⟨?_, ?_⟩
  · rw [← h1]
    unfold prefValue
    simp only [Pref.up, List.map_append, List.prod_append, List.map_cons, List.map_nil, List.prod_cons, List.prod_nil, e, mul_one]
    push_cast
    ring
  · rw [← h2]
    simp only [Pref.up]
    push_cast
    ring

theorem Val.down {p : Pref} {q : Rat} (h : Val p q) {f : Fac} {v : Nat} (e : facValue f = v) : Val (p.down f v) (q / v) := by
  obtain ⟨h1, h2⟩ := h
  refine ⟨?_, ?_⟩
  · rw [← h1]
    unfold prefValue
    simp only [Pref.down, List.map_append, List.prod_append, List.map_cons, List.map_nil, List.prod_cons, List.prod_nil, e, mul_one]
    push_cast
    rw [div_div]
  · rw [← h2]
    simp only [Pref.down]
    push_cast
    rw [div_div]

theorem Val.choosePar {p : Pref} {q : Rat} (h : Val p q) {a b : Nat} (hb : b ≤ a) : Val (choosePar p a b) (q * (Nat.choose a b : Rat)) := by
  unfold TF.ET.choosePar
  split
  · exact h.up rfl
  · have : Nat.choose a b = 1 := by
      have := Nat.choose_pos hb
      omega
    rw [this]
    simpa using h

theorem Val.factIf {p : Pref} {q : Rat} (h : Val p q) (c : Nat) : Val (factIf p c) (q * (c.factorial : Rat)) := by
  unfold TF.ET.factIf
  split
  · exact h.up rfl
  · have : c.factorial = 1 := Nat.factorial_eq_one.2 (by omega)
    rw [this]
    simpa using h

theorem Val.downIf {p : Pref} {q : Rat} (h : Val p q) (c : Nat) : Val (downIf p c) (q / (c.factorial : Rat)) := by
  unfold TF.ET.downIf
  split
  · exact h.down rfl
  · have : c.factorial = 1 := Nat.factorial_eq_one.2 (by omega)
    rw [this]
    simpa using h

theorem val_prefOf {N k hm hn zm j hl zl : Nat} (n : Nums N k hm hn zm j hl zl) :
    Val (prefOf hm hn zm j hl k zl) (1 / (k.factorial * (hl.factorial * zl.factorial * hn.factorial))) := by
  have n1 := n.le
  have n2 := n.onH
  have n3 := n.onZ
  have ne : ∀ a : Nat, (a.factorial : Rat) ≠ 0 := fun a => by exact_mod_cast Nat.factorial_ne_zero a
  have one : ∀ {a : Nat}, a ≤ 1 → a.factorial = 1 := fun h => Nat.factorial_eq_one.2 h
  have h0 : Val ⟨[], [], 1, 1⟩ 1 := by simp [Val, prefValue]
  have h1 : Val (if hm > 1 then factIf (choosePar (choosePar ((⟨[], [], 1, 1⟩ : Pref).down (.fact hm) hm.factorial) hm hl) (hm - hl) 0) (k - j)
      else ⟨[], [], 1, 1⟩) (1 / hl.factorial) := by
    split
    · have := (((h0.down (f := .fact hm) (v := hm.factorial) rfl).choosePar (a := hm) (b := hl) (by omega)).choosePar (a := hm - hl) (b := 0)
        (by omega)).factIf (k - j)
      convert this using 1
      have e := Nat.choose_mul_factorial_mul_factorial (n := hm) (k := hl) (by omega)
      rw [show hm - hl = k - j by omega] at e ⊢
      have e' : (Nat.choose hm hl : Rat) * hl.factorial * (k - j).factorial = hm.factorial := by exact_mod_cast e
      rw [Nat.choose_zero_right, Nat.cast_one, mul_one]
      have a1 := ne hl
      have a2 := ne hm
      field_simp
      linear_combination -e'
    · rw [one (a := hl) (by omega)]
      simpa using h0
  unfold prefOf
  simp only
  generalize (if hm > 1 then factIf (choosePar (choosePar ((⟨[], [], 1, 1⟩ : Pref).down (.fact hm) hm.factorial) hm hl) (hm - hl) 0) (k - j)
      else ⟨[], [], 1, 1⟩ : Pref) = p1 at h1 ⊢
  have h2 : Val (if hn > 1 then p1.down (.fact hn) hn.factorial else p1) (1 / hl.factorial / hn.factorial) := h1.downIf hn
  generalize (if hn > 1 then p1.down (.fact hn) hn.factorial else p1) = p2 at h2 ⊢
  have h3 : Val (if zm > 1 then factIf (factIf (choosePar (choosePar (p2.down (.fact zm) zm.factorial) zm zl) (zm - zl) hn) hn) j else p2)
      (1 / hl.factorial / hn.factorial / zl.factorial) := by
    split
    · have := ((((h2.down (f := .fact zm) (v := zm.factorial) rfl).choosePar (a := zm) (b := zl) (by omega)).choosePar (a := zm - zl) (b := hn)
        (by omega)).factIf hn).factIf j
      convert this using 1
      have e := Nat.choose_mul_factorial_mul_factorial (n := zm) (k := zl) (by omega)
      have e2 := Nat.choose_mul_factorial_mul_factorial (n := zm - zl) (k := hn) (by omega)
      rw [show zm - zl - hn = j by omega] at e2
      have e' : (Nat.choose zm zl : Rat) * zl.factorial * (zm - zl).factorial = zm.factorial := by exact_mod_cast e
      have e2' : (Nat.choose (zm - zl) hn : Rat) * hn.factorial * j.factorial = (zm - zl).factorial := by exact_mod_cast e2
      have a1 := ne hl
      have a2 := ne zm
      have a3 := ne hn
      have a4 := ne zl
      rw [← e2', mul_assoc] at e'
      field_simp
      linear_combination -e'
    · rw [one (a := zl) (by omega)]
      simpa using h2
  have h4 := h3.downIf k
  have e : (1 : Rat) / (k.factorial * (hl.factorial * zl.factorial * hn.factorial)) =
      1 / hl.factorial / hn.factorial / zl.factorial / k.factorial := by
    simp only [div_div]
    congr 1
    ring
  rw [e]
  exact h4

/-- The printed fraction is the weight of each contraction of the class. -/
theorem prefValue_ptermOf {lhs : Op} {k : Nat} {h : HOp} {z : Op} {c : Pl k → Pl k → Nat} (hl0 : lhs.m = 0) (hz : z.n = 0)
    (hc : Contraction lhs k h z c) : Val (ptermOf lhs.n k h z (classOf c) (c .h .lhs)).pref (weight c) := by
  have n := nums_of_facts (contraction_facts hl0 hz hc)
  have hm := (mem_classList hl0 hz n c).2 ⟨hc, rfl⟩
  unfold classList at hm
  obtain ⟨s, _, e⟩ := List.mem_map.1 hm
  have hw : weight c = 1 / (k.factorial * ((c .h .lhs).factorial * (lhs.n - c .h .lhs).factorial * h.n.factorial)) := by
    conv_lhs => rw [← e]
    exact weight_tableS _ _ _ _ _
  rw [hw]
  have e2 : c .z .lhs = lhs.n - c .h .lhs := by
    have := n.onN
    omega
  rw [e2] at n
  exact val_prefOf n

end TF.ETLatex
