import Verif.Lemmas.Zhz
import Mathlib.Data.Multiset.Basic
import Mathlib.Tactic.Abel
import Mathlib.Tactic.FinCases

/-!
# Letters of the z_t terms

Every printed term is a rearrangement of a canonical list of blocks of consecutive letters.
-/

namespace TF.Zhz

open TF.Py
open TF.CC (Op HOp)
open TF.Spec.Zhz

/-- blocks of consecutive letters of `l`: `pr p` are the positions at which a block with tag `p` is
printed -/
def canon {π : Type} (l : List Char) (pr : π → List (Place × Bool)) : Nat → List (π × Nat) → List Occ
  | _, [] => []
  | a, (p, k) :: bs =>
    ((pr p).flatMap fun q => (at' l a k).map (Occ.mk q.1 q.2)) ++ canon l pr (a + k) bs

/-- the tag of the block that holds letter number `n` -/
def owner {π : Type} : Nat → List (π × Nat) → Nat → Option π
  | _, [], _ => none
  | a, (p, k) :: bs, n => if n < a + k then some p else owner (a + k) bs n

/-- the number of letters in blocks -/
def total {π : Type} (bs : List (π × Nat)) : Nat := (bs.map Prod.snd).sum

theorem at'_filter {l : List Char} (hl : l.Nodup) {n : Nat} (hn : n < l.length) (a k : Nat) :
    (at' l a k).filter (fun c => c == l[n]) = if a ≤ n ∧ n < a + k then [l[n]] else [] := by
  have hnd : (at' l a k).Nodup := by
    unfold at' slice
    exact hl.sublist ((List.drop_sublist _ _).trans (List.take_sublist _ _))
  have hmem : l[n] ∈ at' l a k ↔ a ≤ n ∧ n < a + k := by
    unfold at' slice
    rw [List.mem_iff_getElem]
    constructor
    · rintro ⟨i, hi, h⟩
      rw [List.getElem_drop, List.getElem_take] at h
      have := (hl.getElem_inj_iff).1 h
      rw [List.length_drop, List.length_take] at hi
      omega
    · rintro ⟨h1, h2⟩
      refine ⟨n - a, ?_, ?_⟩
      · rw [List.length_drop, List.length_take]; omega
      · rw [List.getElem_drop, List.getElem_take]
        congr 1; omega
  have : (at' l a k).filter (fun c => c == l[n]) = List.replicate ((at' l a k).count l[n]) l[n] :=
    List.filter_beq _
  rw [this, hnd.count]
  by_cases h : a ≤ n ∧ n < a + k
  · rw [if_pos h, if_pos (hmem.2 h)]; rfl
  · rw [if_neg h, if_neg (fun h' => h (hmem.1 h'))]; rfl

theorem canon_filter {π : Type} {l : List Char} (hl : l.Nodup) (pr : π → List (Place × Bool)) {n : Nat}
    (hn : n < l.length) (bs : List (π × Nat)) : ∀ a, a ≤ n →
    (canon l pr a bs).filter (fun y => y.letter == l[n]) =
      match owner a bs n with
      | none => []
      | some p => (pr p).map fun q => Occ.mk q.1 q.2 l[n] := by
  induction bs with
  | nil => intro a _; rfl
  | cons b bs ih =>
    obtain ⟨p, k⟩ := b
    intro a ha
    simp only [canon, owner, List.filter_append]
    have hone : ((pr p).flatMap fun q => (at' l a k).map (Occ.mk q.1 q.2)).filter (fun y => y.letter == l[n]) =
        if n < a + k then (pr p).map (fun q => Occ.mk q.1 q.2 l[n]) else [] := by
      generalize pr p = qs
      induction qs with
      | nil => simp
      | cons q qs ihq =>
        rw [List.flatMap_cons, List.filter_append, ihq, List.filter_map]
        have hcomp : ((fun y : Occ => y.letter == l[n]) ∘ Occ.mk q.1 q.2) = fun c => c == l[n] := rfl
        rw [hcomp, at'_filter hl hn]
        by_cases h : n < a + k
        · rw [if_pos ⟨ha, h⟩, if_pos h, if_pos h]; rfl
        · rw [if_neg (fun h' => h h'.2), if_neg h, if_neg h]; rfl
    rw [hone]
    by_cases h : n < a + k
    · rw [if_pos h, if_pos h]
      have : (canon l pr (a + k) bs).filter (fun y => y.letter == l[n]) = [] := by
        clear ih hone
        have : ∀ a', n < a' → (canon l pr a' bs).filter (fun y => y.letter == l[n]) = [] := by
          induction bs with
          | nil => intro a' _; rfl
          | cons b bs ih =>
            intro a' ha'
            obtain ⟨p', k'⟩ := b
            simp only [canon, List.filter_append, ih (a' + k') (by omega), List.append_nil]
            rw [List.filter_eq_nil_iff]
            simp only [List.mem_flatMap, List.mem_map]
            rintro y ⟨q, _, c, hc, rfl⟩
            have h1 : c ∈ (at' l a' k').filter (fun c => c == c) := by simpa using hc
            intro hcl
            simp only [beq_iff_eq] at hcl
            have h2 : l[n] ∈ (at' l a' k').filter (fun c => c == l[n]) := by
              rw [List.mem_filter]; exact ⟨hcl ▸ hc, by simp⟩
            rw [at'_filter hl hn, if_neg (by omega)] at h2
            simp at h2
        exact this (a + k) h
      rw [this, List.append_nil]
    · rw [if_neg h, if_neg h, List.nil_append]
      exact ih (a + k) (by omega)

theorem canon_letters {π : Type} (l : List Char) (pr : π → List (Place × Bool)) (bs : List (π × Nat)) :
    ∀ a, ∀ y ∈ canon l pr a bs, y.letter ∈ l := by
  induction bs with
  | nil => intro a y hy; simp [canon] at hy
  | cons b bs ih =>
    obtain ⟨p, k⟩ := b
    intro a y hy
    simp only [canon, List.mem_append, List.mem_flatMap, List.mem_map] at hy
    rcases hy with ⟨q, _, c, hc, rfl⟩ | hy
    · exact List.mem_of_mem_take (List.mem_of_mem_drop hc)
    · exact ih _ y hy

theorem owner_count {π : Type} (q : π → Bool) (bs : List (π × Nat)) : ∀ a t, total bs ≤ t →
    (List.range' a t).countP (fun n => (owner a bs n).any q) = ((bs.filter fun b => q b.1).map Prod.snd).sum := by
  induction bs with
  | nil => intro a t _; simp [owner]
  | cons b bs ih =>
    obtain ⟨p, k⟩ := b
    intro a t ht
    simp only [total, List.map_cons, List.sum_cons] at ht
    have hsplit : List.range' a t = List.range' a k ++ List.range' (a + k) (t - k) := by
      rw [show t = k + (t - k) by omega, ← List.range'_append_1]
      congr 2
      omega
    rw [hsplit, List.countP_append]
    have h1 : (List.range' a k).countP (fun n => (owner a ((p, k) :: bs) n).any q) = if q p then k else 0 := by
      have : (List.range' a k).countP (fun n => (owner a ((p, k) :: bs) n).any q) =
          (List.range' a k).countP (fun _ => q p) := by
        apply List.countP_congr
        intro n hn
        rw [List.mem_range'_1] at hn
        simp only [owner, if_pos hn.2, Option.any_some]
      rw [this]
      cases hq : q p
      · simp
      · simp
    have h2 : (List.range' (a + k) (t - k)).countP (fun n => (owner a ((p, k) :: bs) n).any q) =
        (List.range' (a + k) (t - k)).countP (fun n => (owner (a + k) bs n).any q) := by
      apply List.countP_congr
      intro n hn
      rw [List.mem_range'_1] at hn
      simp only [owner, if_neg (by omega : ¬ n < a + k)]
    rw [h1, h2, ih _ _ (by unfold total; omega), List.filter_cons]
    split <;> simp

theorem filter_owner {π : Type} {l : List Char} (q : π → Bool) (bs : List (π × Nat)) (ht : total bs ≤ l.length)
    (R : Char → Bool) (hR : ∀ n (h : n < l.length), R l[n] = (owner 0 bs n).any q) :
    (l.filter R).length = ((bs.filter fun b => q b.1).map Prod.snd).sum := by
  rw [← List.countP_eq_length_filter, ← owner_count q bs 0 l.length ht]
  have : l = (List.range' 0 l.length).map fun n => l.getD n 'a' := by
    apply List.ext_getElem
    · simp
    · intro n h1 h2
      simp [List.getElem_range', h1]
  conv_lhs => rw [this]
  rw [List.countP_map]
  apply List.countP_congr
  intro n hn
  rw [List.mem_range'_1] at hn
  have hn' : n < l.length := by omega
  simp only [Function.comp]
  have hg : l.getD n 'a' = l[n] := by simp [hn']
  rw [hg, hR n hn']

theorem zSummation_nodup : zSummation.Nodup := by decide
theorem zUnlinked_nodup : zUnlinked.Nodup := by decide
theorem z_disjoint : ∀ x ∈ zSummation, x ∉ zUnlinked := by decide

/-- a summation block is printed above `p.1` and below `p.2` -/
def prSum (p : Place × Place) : List (Place × Bool) := [(p.1, true), (p.2, false)]
/-- an external block is printed once -/
def prExt (p : Place × Bool) : List (Place × Bool) := [p]

/-- Letters arranged in blocks describe the contraction the blocks count. -/
theorem describes_of_perm {c : Place → Place → Nat} {o : List Occ}
    {S : List ((Place × Place) × Nat)} {E : List ((Place × Bool) × Nat)}
    (ho : o.Perm (canon zSummation prSum 0 S ++ canon zUnlinked prExt 0 E))
    (hS : total S ≤ 5) (hE : total E ≤ 7) (hne : ∀ b ∈ S, b.1.1 ≠ b.1.2)
    (h1 : ∀ i j, i ≠ .lhs → j ≠ .lhs → c i j = ((S.filter fun b => decide (b.1 = (i, j))).map Prod.snd).sum)
    (h2 : ∀ i, i ≠ .lhs → c i .lhs = ((E.filter fun b => decide (b.1 = (i, true))).map Prod.snd).sum)
    (h3 : ∀ i, i ≠ .lhs → c .lhs i = ((E.filter fun b => decide (b.1 = (i, false))).map Prod.snd).sum) :
    Describes c o := by
  have hown : ∀ n, ∀ p, owner 0 S n = some p → p.1 ≠ p.2 := by
    intro n
    have : ∀ (S : List ((Place × Place) × Nat)), (∀ b ∈ S, b.1.1 ≠ b.1.2) → ∀ a p, owner a S n = some p → p.1 ≠ p.2 := by
      intro S
      induction S with
      | nil => intro _ a p h; simp [owner] at h
      | cons b S ih =>
        obtain ⟨q, k⟩ := b
        intro hb a p h
        simp only [owner] at h
        split at h
        · injection h with h
          subst h
          exact hb (q, k) (List.mem_cons_self)
        · exact ih (fun b' hb' => hb b' (by simp [hb'])) _ p h
    exact this S hne 0
  have hfs : ∀ n (hn : n < zSummation.length), (o.filter fun y => y.letter == zSummation[n]).Perm
      (match owner 0 S n with
      | none => []
      | some p => [⟨p.1, true, zSummation[n]⟩, ⟨p.2, false, zSummation[n]⟩]) := by
    intro n hn
    refine (ho.filter _).trans ?_
    rw [List.filter_append, canon_filter zSummation_nodup prSum hn S 0 (Nat.zero_le _)]
    have : (canon zUnlinked prExt 0 E).filter (fun y => y.letter == zSummation[n]) = [] := by
      rw [List.filter_eq_nil_iff]
      intro y hy hyl
      have := canon_letters _ _ _ _ y hy
      rw [beq_iff_eq] at hyl
      rw [hyl] at this
      exact z_disjoint _ (List.getElem_mem _) this
    rw [this, List.append_nil]
    cases owner 0 S n with
    | none => exact List.Perm.refl _
    | some p => exact List.Perm.refl _
  have hfe : ∀ n (hn : n < zUnlinked.length), (o.filter fun y => y.letter == zUnlinked[n]).Perm
      (match owner 0 E n with
      | none => []
      | some p => [⟨p.1, p.2, zUnlinked[n]⟩]) := by
    intro n hn
    refine (ho.filter _).trans ?_
    rw [List.filter_append, canon_filter zUnlinked_nodup prExt hn E 0 (Nat.zero_le _)]
    have : (canon zSummation prSum 0 S).filter (fun y => y.letter == zUnlinked[n]) = [] := by
      rw [List.filter_eq_nil_iff]
      intro y hy hyl
      have := canon_letters _ _ _ _ y hy
      rw [beq_iff_eq] at hyl
      rw [hyl] at this
      exact z_disjoint _ this (List.getElem_mem _)
    rw [this, List.nil_append]
    cases owner 0 E n with
    | none => exact List.Perm.refl _
    | some p => exact List.Perm.refl _
  have hmem : ∀ (x : Char) (i : Place) (u : Bool), (⟨i, u, x⟩ ∈ o ↔ ⟨i, u, x⟩ ∈ o.filter fun y => y.letter == x) := by
    intro x i u; simp
  refine ⟨?_, ?_, ?_, ?_, ?_, ?_⟩
  · intro x hx
    obtain ⟨n, hn, rfl⟩ := List.getElem_of_mem hx
    have hf := hfs n hn
    cases hw : owner 0 S n with
    | none =>
      rw [hw] at hf
      left
      intro y hy hyl
      have : y ∈ o.filter fun y => y.letter == zSummation[n] := by rw [List.mem_filter]; exact ⟨hy, by simp [hyl]⟩
      rw [hf.eq_nil] at this
      simp at this
    | some p =>
      rw [hw] at hf
      exact Or.inr ⟨p.1, p.2, hown n p hw, hf⟩
  · intro x hx
    obtain ⟨n, hn, rfl⟩ := List.getElem_of_mem hx
    rw [(hfe n hn).length_eq]
    cases owner 0 E n <;> simp
  · intro y hy
    rw [ho.mem_iff, List.mem_append] at hy
    rcases hy with hy | hy
    · exact Or.inl (canon_letters _ _ _ _ y hy)
    · exact Or.inr (canon_letters _ _ _ _ y hy)
  · intro i j hi hj
    rw [h1 i j hi hj]
    refine filter_owner (l := zSummation) (fun p => decide (p = (i, j))) S hS _ ?_
    intro n hn
    rw [← Bool.decide_and, Bool.eq_iff_iff, decide_eq_true_eq, hmem, hmem, (hfs n hn).mem_iff, (hfs n hn).mem_iff]
    cases owner 0 S n with
    | none => simp
    | some p =>
      obtain ⟨p1, p2⟩ := p
      simp only [List.mem_cons, Occ.mk.injEq, List.not_mem_nil, or_false, and_true, Bool.true_eq_false, Bool.false_eq_true,
        and_false, false_or, Option.any_some, decide_eq_true_eq, Prod.mk.injEq]
      constructor <;> rintro ⟨rfl, rfl⟩ <;> exact ⟨rfl, rfl⟩
  · intro i hi
    rw [h2 i hi]
    refine filter_owner (l := zUnlinked) (fun p => decide (p = (i, true))) E hE _ ?_
    intro n hn
    rw [Bool.eq_iff_iff, decide_eq_true_eq, hmem, (hfe n hn).mem_iff]
    cases owner 0 E n with
    | none => simp
    | some p =>
      obtain ⟨p1, p2⟩ := p
      simp only [List.mem_cons, Occ.mk.injEq, List.not_mem_nil, or_false, and_true, Bool.true_eq_false, Bool.false_eq_true,
        and_false, false_or, Option.any_some, decide_eq_true_eq, Prod.mk.injEq]
      constructor <;> rintro ⟨rfl, rfl⟩ <;> exact ⟨rfl, rfl⟩
  · intro i hi
    rw [h3 i hi]
    refine filter_owner (l := zUnlinked) (fun p => decide (p = (i, false))) E hE _ ?_
    intro n hn
    rw [Bool.eq_iff_iff, decide_eq_true_eq, hmem, (hfe n hn).mem_iff]
    cases owner 0 E n with
    | none => simp
    | some p =>
      obtain ⟨p1, p2⟩ := p
      simp only [List.mem_cons, Occ.mk.injEq, List.not_mem_nil, or_false, and_true, Bool.true_eq_false, Bool.false_eq_true,
        and_false, false_or, Option.any_some, decide_eq_true_eq, Prod.mk.injEq]
      constructor <;> rintro ⟨rfl, rfl⟩ <;> exact ⟨rfl, rfl⟩

theorem sum_filter_cons {α κ : Type} (Q : List κ) (P : κ → α → Bool) (x : α) (l : List α) :
    (Q.map fun k => ((x :: l).filter (P k)).length).sum =
      (Q.filter fun k => P k x).length + (Q.map fun k => (l.filter (P k)).length).sum := by
  induction Q with
  | nil => simp
  | cons k Q ihQ =>
    simp only [List.map_cons, List.sum_cons, ihQ]
    rw [List.filter_cons, List.filter_cons]
    by_cases hk : P k x = true
    · rw [if_pos hk, if_pos hk]
      simp only [List.length_cons]; omega
    · rw [if_neg hk, if_neg hk]; omega

/-- mutually exclusive conditions on the members of a list are met at most as often as it is long -/
theorem sum_filter_le {α κ : Type} (Q : List κ) (P : κ → α → Bool) (l : List α)
    (h : ∀ x ∈ l, (Q.filter fun k => P k x).length ≤ 1) :
    (Q.map fun k => (l.filter (P k)).length).sum ≤ l.length := by
  induction l with
  | nil => simp
  | cons x l ih =>
    have ih := ih (fun y hy => h y (by simp [hy]))
    have hx := h x (by simp)
    rw [sum_filter_cons, List.length_cons]
    omega

/-- the ordered pairs of factors other than the projection operator -/
def innerPairs : List (Place × Place) :=
  [(.left, .h), (.left, .right), (.h, .left), (.right, .left), (.right, .h), (.h, .right)]

/-- Labels that describe a contraction need as many letters as it has pairs. -/
theorem describes_fits {c : Place → Place → Nat} {o : List Occ} (h : Describes c o) :
    (innerPairs.map fun p => c p.1 p.2).sum ≤ 5 ∧
    (c .left .lhs + c .lhs .left + c .h .lhs + c .lhs .h + c .right .lhs + c .lhs .right ≤ 7) := by
  constructor
  · have := sum_filter_le innerPairs
      (fun p x => decide (Occ.mk p.1 true x ∈ o) && decide (Occ.mk p.2 false x ∈ o)) zSummation ?_
    · refine le_trans (le_of_eq ?_) this
      congr 1
      apply List.map_congr_left
      intro p hp
      refine (h.shared p.1 p.2 ?_ ?_).symm
      · revert hp; revert p; decide
      · revert hp; revert p; decide
    · intro x hx
      rcases h.sum x hx with h0 | ⟨i, j, _, hp⟩
      · have : innerPairs.filter (fun p => decide (Occ.mk p.1 true x ∈ o) && decide (Occ.mk p.2 false x ∈ o)) = [] := by
          rw [List.filter_eq_nil_iff]
          intro p _ hpp
          simp only [Bool.and_eq_true, decide_eq_true_eq] at hpp
          exact h0 _ hpp.1 rfl
        rw [this]; simp
      · have hm : ∀ (k : Place) (u : Bool), Occ.mk k u x ∈ o → Occ.mk k u x ∈ [Occ.mk i true x, Occ.mk j false x] := by
          intro k u hk
          rw [← hp.mem_iff]
          simpa using hk
        have hsub : (innerPairs.filter (fun p => decide (Occ.mk p.1 true x ∈ o) && decide (Occ.mk p.2 false x ∈ o))).length ≤
            (innerPairs.filter fun p => p == (i, j)).length := by
          rw [← List.countP_eq_length_filter, ← List.countP_eq_length_filter]
          apply List.countP_mono_left
          rintro ⟨p1, p2⟩ _ hpp
          simp only [Bool.and_eq_true, decide_eq_true_eq] at hpp
          have a1 := hm _ _ hpp.1
          have a2 := hm _ _ hpp.2
          simp only [List.mem_cons, Occ.mk.injEq, List.not_mem_nil, or_false, Bool.true_eq_false, Bool.false_eq_true,
            and_false, true_and, and_true, false_or] at a1 a2
          simp [a1, a2]
        refine hsub.trans ?_
        cases i <;> cases j <;> decide
  · have := sum_filter_le [((.left : Place), true), (.left, false), (.h, true), (.h, false), (.right, true), (.right, false)]
      (fun p x => decide (Occ.mk p.1 p.2 x ∈ o)) zUnlinked ?_
    · simp only [List.map_cons, List.map_nil, List.sum_cons, List.sum_nil] at this
      rw [h.up .left (by decide), h.up .h (by decide), h.up .right (by decide),
        h.down .left (by decide), h.down .h (by decide), h.down .right (by decide)] at this
      have h7 : zUnlinked.length = 7 := rfl
      omega
    · intro x hx
      have hle := h.ext x hx
      have hnd : ([((.left : Place), true), (.left, false), (.h, true), (.h, false), (.right, true), (.right, false)]).Nodup := by
        decide
      have : ((([((.left : Place), true), (.left, false), (.h, true), (.h, false), (.right, true), (.right, false)]).filter
          fun p => decide (Occ.mk p.1 p.2 x ∈ o)).map fun p => Occ.mk p.1 p.2 x).Subperm
          (o.filter fun y => y.letter == x) := by
        apply List.subperm_of_subset
        · apply (hnd.filter _).map_on
          rintro ⟨a, b⟩ _ ⟨a', b'⟩ _ hab
          simpa using hab
        · intro y hy
          simp only [List.mem_map, List.mem_filter, decide_eq_true_eq] at hy
          obtain ⟨p, ⟨_, hp⟩, rfl⟩ := hy
          simpa using hp
      have := this.length_le
      rw [List.length_map] at this
      omega

/-! ## The printed terms -/

theorem at'_zero (l : List Char) (a : Nat) : at' l a 0 = [] := by
  unfold at' slice
  rw [Nat.add_zero, List.drop_eq_nil_of_le]
  rw [List.length_take]; omega

theorem occ_left {z : Z} (hr : z.rank = z.m + z.n) (hm : z.m_lhs + z.m_h + z.m_z = z.m)
    (hn : z.n_lhs + z.n_h + z.n_z = z.n) : occLab .left (leftLabels z) =
    (at' zSummation 0 z.m_h ++ (at' zSummation z.m_h z.m_z ++ at' zUnlinked 0 z.m_lhs)).map (Occ.mk .left true) ++
    (at' zSummation (z.m_h + z.m_z) z.n_h ++ (at' zSummation (z.m_h + z.m_z + z.n_h) z.n_z ++
      at' zUnlinked z.m_lhs z.n_lhs)).map (Occ.mk .left false) := by
  obtain ⟨rank, m, n, m_lhs, n_lhs, m_h, n_h, m_z, n_z⟩ := z
  simp only at hr hm hn ⊢
  unfold leftLabels
  simp only []
  by_cases h0 : rank = 0
  · have : m_lhs = 0 ∧ m_h = 0 ∧ m_z = 0 ∧ n_lhs = 0 ∧ n_h = 0 ∧ n_z = 0 := by omega
    obtain ⟨rfl, rfl, rfl, rfl, rfl, rfl⟩ := this
    simp [h0, occLab, at'_zero]
  · rw [if_neg h0]
    simp only [occLab]
    congr 2
    · by_cases h : m > 0
      · rw [if_pos h]; simp [letters]
      · have : m_lhs = 0 ∧ m_h = 0 ∧ m_z = 0 := by omega
        obtain ⟨rfl, rfl, rfl⟩ := this
        simp [h, letters, at'_zero]
    · by_cases h : n > 0
      · rw [if_pos h]; simp [letters]
      · have : n_lhs = 0 ∧ n_h = 0 ∧ n_z = 0 := by omega
        obtain ⟨rfl, rfl, rfl⟩ := this
        simp [h, letters, at'_zero]

theorem occ_h {h : HC} (hr : h.rank = h.m + h.n) (hm : h.m_l + h.m_r + h.m_lhs = h.m)
    (hn : h.n_l + h.n_r + h.n_lhs = h.n) (o : HOff) : occLab .h (hLabels h o) =
    (at' zSummation o.left_upper h.m_l ++ (at' zSummation (o.summation + h.n_r) h.m_r ++
      at' zUnlinked (o.unlinked + h.n_lhs) h.m_lhs)).map (Occ.mk .h true) ++
    (at' zSummation 0 h.n_l ++ (at' zSummation o.summation h.n_r ++
      at' zUnlinked o.unlinked h.n_lhs)).map (Occ.mk .h false) := by
  obtain ⟨rank, m, n, m_l, n_l, m_r, n_r, m_lhs, n_lhs⟩ := h
  simp only at hr hm hn ⊢
  unfold hLabels
  simp only []
  by_cases h0 : rank = 0
  · have : m_lhs = 0 ∧ m_l = 0 ∧ m_r = 0 ∧ n_lhs = 0 ∧ n_l = 0 ∧ n_r = 0 := by omega
    obtain ⟨rfl, rfl, rfl, rfl, rfl, rfl⟩ := this
    simp [h0, occLab, at'_zero]
  · rw [if_neg h0]
    simp only [occLab]
    have e1 : (if n > 0 then o.summation + n_r else o.summation) = o.summation + n_r := by
      split <;> omega
    have e2 : (if n > 0 then o.unlinked + n_lhs else o.unlinked) = o.unlinked + n_lhs := by
      split <;> omega
    rw [e1, e2]
    congr 2
    · by_cases h : m > 0
      · rw [if_pos h]; simp [letters]
      · have : m_lhs = 0 ∧ m_l = 0 ∧ m_r = 0 := by omega
        obtain ⟨rfl, rfl, rfl⟩ := this
        simp [h, letters, at'_zero]
    · by_cases h : n > 0
      · rw [if_pos h]; simp [letters]
      · have : n_lhs = 0 ∧ n_l = 0 ∧ n_r = 0 := by omega
        obtain ⟨rfl, rfl, rfl⟩ := this
        simp [h, letters, at'_zero]

theorem occ_right {z : Z} (hr : z.rank = z.m + z.n) (hm : z.m_lhs + z.m_h + z.m_z = z.m)
    (hn : z.n_lhs + z.n_h + z.n_z = z.n) (o : ROff) : occLab .right (rightLabels z o) =
    (at' zSummation o.left_upper z.m_z ++ (at' zSummation o.h_upper z.m_h ++
      at' zUnlinked (o.unlinked + z.n_lhs) z.m_lhs)).map (Occ.mk .right true) ++
    (at' zSummation o.left_lower z.n_z ++ (at' zSummation o.h_lower z.n_h ++
      at' zUnlinked o.unlinked z.n_lhs)).map (Occ.mk .right false) := by
  obtain ⟨rank, m, n, m_lhs, n_lhs, m_h, n_h, m_z, n_z⟩ := z
  simp only at hr hm hn ⊢
  unfold rightLabels
  simp only []
  by_cases h0 : rank = 0
  · have : m_lhs = 0 ∧ m_h = 0 ∧ m_z = 0 ∧ n_lhs = 0 ∧ n_h = 0 ∧ n_z = 0 := by omega
    obtain ⟨rfl, rfl, rfl, rfl, rfl, rfl⟩ := this
    simp [h0, occLab, at'_zero]
  · rw [if_neg h0]
    simp only [occLab]
    have e2 : (if n > 0 then o.unlinked + n_lhs else o.unlinked) = o.unlinked + n_lhs := by
      split <;> omega
    rw [e2]
    congr 2
    · by_cases h : m > 0
      · rw [if_pos h]; simp [letters]
      · have : m_lhs = 0 ∧ m_h = 0 ∧ m_z = 0 := by omega
        obtain ⟨rfl, rfl, rfl⟩ := this
        simp [h, letters, at'_zero]
    · by_cases h : n > 0
      · rw [if_pos h]; simp [letters]
      · have : n_lhs = 0 ∧ n_h = 0 ∧ n_z = 0 := by omega
        obtain ⟨rfl, rfl, rfl⟩ := this
        simp [h, letters, at'_zero]

/-- the summation blocks of a contraction, in the order of their letters -/
def sumBlocks (c : Place → Place → Nat) : List ((Place × Place) × Nat) := innerPairs.map fun p => (p, c p.1 p.2)

/-- the external blocks of a contraction, in the order of their letters -/
def extBlocks (c : Place → Place → Nat) : List ((Place × Bool) × Nat) :=
  [((.left, true), c .left .lhs), ((.left, false), c .lhs .left), ((.h, false), c .lhs .h), ((.h, true), c .h .lhs),
   ((.right, false), c .lhs .right), ((.right, true), c .right .lhs)]

theorem describes_blocks {c : Place → Place → Nat} {o : List Occ} (hd : ∀ i, c i i = 0)
    (ho : o.Perm (canon zSummation prSum 0 (sumBlocks c) ++ canon zUnlinked prExt 0 (extBlocks c))) :
    Describes c o ↔ (innerPairs.map fun p => c p.1 p.2).sum ≤ 5 ∧
      (c .left .lhs + c .lhs .left + c .h .lhs + c .lhs .h + c .right .lhs + c .lhs .right ≤ 7) := by
  constructor
  · exact describes_fits
  · rintro ⟨h5, h7⟩
    refine describes_of_perm ho ?_ ?_ ?_ ?_ ?_ ?_
    · unfold total sumBlocks; rw [List.map_map]; exact h5
    · simp only [total, extBlocks, List.map_cons, List.map_nil, List.sum_cons, List.sum_nil]; omega
    · intro b hb
      simp only [sumBlocks, List.mem_map] at hb
      obtain ⟨p, hp, rfl⟩ := hb
      show p.1 ≠ p.2
      revert hp; revert p; decide
    · intro i j hi hj
      cases i <;> cases j <;> simp_all [sumBlocks, innerPairs]
    · intro i hi
      cases i <;> simp_all [extBlocks]
    · intro i hi
      cases i <;> simp_all [extBlocks]

/-- What the proofs about one term use: its numbers form a contraction, all records agree. -/
structure Fits (t : Term) : Prop where
  self : ∀ i, created t i i = 0
  agree : ∀ i j, annihilated t j i = created t i j
  hrank : t.h.rank = t.h.m + t.h.n
  hm : t.h.m_l + t.h.m_r + t.h.m_lhs = t.h.m
  hn : t.h.n_l + t.h.n_r + t.h.n_lhs = t.h.n
  left : ∀ z, t.left = some z → z.rank = z.m + z.n ∧ z.m_lhs + z.m_h + z.m_z = z.m ∧ z.n_lhs + z.n_h + z.n_z = z.n
  right : ∀ z, t.right = some z → z.rank = z.m + z.n ∧ z.m_lhs + z.m_h + z.m_z = z.m ∧ z.n_lhs + z.n_h + z.n_z = z.n

/-- the blocks of letters of a term, in terms of its numbers -/
def blockList (a1 a2 a3 a4 a5 a6 e1 e2 e3 e4 e5 e6 : Nat) : List Occ :=
  canon zSummation prSum 0 [((.left, .h), a1), ((.left, .right), a2), ((.h, .left), a3), ((.right, .left), a4),
    ((.right, .h), a5), ((.h, .right), a6)] ++
  canon zUnlinked prExt 0 [((.left, true), e1), ((.left, false), e2), ((.h, false), e3), ((.h, true), e4),
    ((.right, false), e5), ((.right, true), e6)]

theorem blocks_perm (a1 a2 a3 a4 a5 a6 e1 e2 e3 e4 e5 e6 : Nat) :
    (((at' zSummation 0 a1 ++ (at' zSummation a1 a2 ++ at' zUnlinked 0 e1)).map (Occ.mk .left true) ++
      (at' zSummation (a1 + a2) a3 ++ (at' zSummation (a1 + a2 + a3) a4 ++
        at' zUnlinked e1 e2)).map (Occ.mk .left false)) ++
     ((at' zSummation (a1 + a2) a3 ++ (at' zSummation (a1 + a2 + a3 + a4 + a5) a6 ++
        at' zUnlinked (e1 + e2 + e3) e4)).map (Occ.mk .h true) ++
      (at' zSummation 0 a1 ++ (at' zSummation (a1 + a2 + a3 + a4) a5 ++
        at' zUnlinked (e1 + e2) e3)).map (Occ.mk .h false)) ++
     ((at' zSummation (a1 + a2 + a3) a4 ++ (at' zSummation (a1 + a2 + a3 + a4) a5 ++
        at' zUnlinked (e1 + e2 + e3 + e4 + e5) e6)).map (Occ.mk .right true) ++
      (at' zSummation a1 a2 ++ (at' zSummation (a1 + a2 + a3 + a4 + a5) a6 ++
        at' zUnlinked (e1 + e2 + e3 + e4) e5)).map (Occ.mk .right false))).Perm
    (blockList a1 a2 a3 a4 a5 a6 e1 e2 e3 e4 e5 e6) := by
  rw [← Multiset.coe_eq_coe]
  simp only [blockList, canon, prSum, prExt, List.flatMap_cons, List.flatMap_nil, List.append_nil, List.map_append,
    ← Multiset.coe_add, Nat.zero_add]
  abel

theorem fourth_perm {t : Term} {l r : Z} (hl : t.left = some l) (hr : t.right = some r) (hf : Fits t)
    {rf : Bool} {ps : List PTerm} (hp : fourthTerm rf false t = .ok ps) {p : PTerm} (hpm : p ∈ ps) :
    (occurrences p).Perm (canon zSummation prSum 0 (sumBlocks (created t)) ++
      canon zUnlinked prExt 0 (extBlocks (created t))) := by
  unfold fourthTerm at hp
  rw [hl, hr] at hp
  simp only [] at hp
  split at hp
  · cases hp
  · split at hp
    · injection hp with hp; subst hp; simp at hpm
    · split at hp
      · cases hp
      · injection hp with hp
        subst hp
        rw [List.mem_singleton] at hpm
        subst hpm
        obtain ⟨l1, l2, l3⟩ := hf.left l hl
        obtain ⟨r1, r2, r3⟩ := hf.right r hr
        simp only [occurrences]
        rw [occ_left l1 l2 l3, occ_h hf.hrank hf.hm hf.hn, occ_right r1 r2 r3]
        have g : ∀ f : Z → Nat, get f t.left = f l := by rw [hl]; intro f; rfl
        have g' : ∀ f : Z → Nat, get f t.right = f r := by rw [hr]; intro f; rfl
        have a1 := hf.agree .left .h; have a2 := hf.agree .left .right; have a3 := hf.agree .h .left
        have a4 := hf.agree .right .left; have a5 := hf.agree .right .h; have a6 := hf.agree .h .right
        have e2 := hf.agree .lhs .left; have e3 := hf.agree .lhs .h; have e5 := hf.agree .lhs .right
        simp only [created, annihilated, g, g'] at a1 a2 a3 a4 a5 a6 e2 e3 e5
        have := blocks_perm l.m_h l.m_z l.n_h l.n_z t.h.n_r t.h.m_r l.m_lhs l.n_lhs t.h.n_lhs t.h.m_lhs r.n_lhs r.m_lhs
        simp only [sumBlocks, innerPairs, extBlocks, List.map_cons, List.map_nil, created, g, g']
        unfold blockList at this
        have o1 : l.m - l.m_lhs = l.m_h + l.m_z := by omega
        have o2 : l.rank - l.m_lhs - l.n_lhs = l.m_h + l.m_z + l.n_h + l.n_z := by omega
        have o3 : l.m_lhs + l.n_lhs + t.h.m_lhs + t.h.n_lhs = l.m_lhs + l.n_lhs + t.h.n_lhs + t.h.m_lhs := by omega
        simp only [o1, o2, o3, a1, a2, a6, ← a3, ← a4, ← a5, ← e2, ← e3, ← e5]
        exact this

theorem third_perm {t : Term} {r : Z} (hl : t.left = none) (hr : t.right = some r) (hf : Fits t)
    {rf pp : Bool} {ps : List PTerm} (hp : thirdTerm rf pp t = .ok ps) {p : PTerm} (hpm : p ∈ ps) :
    (occurrences p).Perm (canon zSummation prSum 0 (sumBlocks (created t)) ++
      canon zUnlinked prExt 0 (extBlocks (created t))) := by
  unfold thirdTerm at hp
  rw [hr] at hp
  simp only [] at hp
  split at hp
  · cases hp
  · split at hp
    · injection hp with hp; subst hp; simp at hpm
    · split at hp
      · cases hp
      · split at hp
        · cases hp
        · injection hp with hp
          subst hp
          rw [List.mem_singleton] at hpm
          subst hpm
          obtain ⟨r1, r2, r3⟩ := hf.right r hr
          simp only [occurrences]
          rw [occ_h hf.hrank hf.hm hf.hn, occ_right r1 r2 r3]
          have g : ∀ f : Z → Nat, get f t.left = 0 := by rw [hl]; intro f; rfl
          have g' : ∀ f : Z → Nat, get f t.right = f r := by rw [hr]; intro f; rfl
          have a1 := hf.agree .left .h; have a2 := hf.agree .left .right; have a3 := hf.agree .h .left
          have a4 := hf.agree .right .left; have a5 := hf.agree .right .h; have a6 := hf.agree .h .right
          have e2 := hf.agree .lhs .left; have e3 := hf.agree .lhs .h; have e5 := hf.agree .lhs .right
          simp only [created, annihilated, g, g'] at a1 a2 a3 a4 a5 a6 e2 e3 e5
          have := blocks_perm 0 0 0 0 t.h.n_r t.h.m_r 0 0 t.h.n_lhs t.h.m_lhs r.n_lhs r.m_lhs
          simp only [sumBlocks, innerPairs, extBlocks, List.map_cons, List.map_nil, created, g, g']
          unfold blockList at this
          have o3 : t.h.m_lhs + t.h.n_lhs = t.h.n_lhs + t.h.m_lhs := by omega
          simp only [at'_zero, List.map_nil, List.append_nil, List.nil_append, Nat.zero_add] at this
          simp only [o3, a1, a2, a6, ← a3, ← a4, ← a5, ← e2, ← e3, ← e5, at'_zero, List.nil_append, Nat.zero_add]
          exact this

theorem second_perm {t : Term} {l : Z} (hl : t.left = some l) (hr : t.right = none) (hf : Fits t)
    {rf : Bool} {ps : List PTerm} (hp : secondTerm rf false t = .ok ps) {p : PTerm} (hpm : p ∈ ps) :
    (occurrences p).Perm (canon zSummation prSum 0 (sumBlocks (created t)) ++
      canon zUnlinked prExt 0 (extBlocks (created t))) := by
  unfold secondTerm at hp
  rw [hl] at hp
  simp only [] at hp
  split at hp
  · cases hp
  · split at hp
    · injection hp with hp; subst hp; simp at hpm
    · split at hp
      · cases hp
      · injection hp with hp
        subst hp
        rw [List.mem_singleton] at hpm
        subst hpm
        obtain ⟨l1, l2, l3⟩ := hf.left l hl
        simp only [occurrences]
        rw [occ_left l1 l2 l3, occ_h hf.hrank hf.hm hf.hn]
        have g : ∀ f : Z → Nat, get f t.left = f l := by rw [hl]; intro f; rfl
        have g' : ∀ f : Z → Nat, get f t.right = 0 := by rw [hr]; intro f; rfl
        have a1 := hf.agree .left .h; have a2 := hf.agree .left .right; have a3 := hf.agree .h .left
        have a4 := hf.agree .right .left; have a5 := hf.agree .right .h; have a6 := hf.agree .h .right
        have e2 := hf.agree .lhs .left; have e3 := hf.agree .lhs .h; have e5 := hf.agree .lhs .right
        simp only [created, annihilated, g, g'] at a1 a2 a3 a4 a5 a6 e2 e3 e5
        have := blocks_perm l.m_h l.m_z l.n_h l.n_z 0 0 l.m_lhs l.n_lhs t.h.n_lhs t.h.m_lhs 0 0
        simp only [sumBlocks, innerPairs, extBlocks, List.map_cons, List.map_nil, created, g, g']
        unfold blockList at this
        have o1 : l.m - l.m_lhs = l.m_h + l.m_z := by omega
        have o2 : l.rank - l.m_lhs - l.n_lhs = l.m_h + l.m_z + l.n_h + l.n_z := by omega
        simp only [a4, ← a2, at'_zero, List.map_nil, List.append_nil, List.nil_append, Nat.zero_add, Nat.add_zero] at this
        simp only [o1, o2, a1, a4, ← a2, ← a6, ← a3, a5, ← e2, ← e3, ← e5, at'_zero, List.nil_append, List.append_nil,
          Nat.add_zero]
        exact this

end TF.Zhz
