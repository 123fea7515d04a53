import Verif.Lemmas.ETReads
import Mathlib.Data.Finset.Powerset
import Mathlib.Data.Fintype.Basic
import Mathlib.Data.Nat.Choose.Basic
import Mathlib.Algebra.BigOperators.Ring.List
import Mathlib.Tactic.FieldSimp

/-! # Lemmas about the Python code of the e^T z_t equations: which contractions a call computes -/

namespace TF.ETPy

open TF.Py
open TF.CC (Op HOp summationIdx unlinkedIdx)
open TF.ET (Mode lenOf rankOf Facts facts uniform_self)
open TF.Spec.ET TF.Spec.ETPy

/-- The number of t factors paired with z. -/
def classOf {k : Nat} (c : Pl k → Pl k → Nat) : Nat := ((List.finRange (tFactors k).length).map fun i => c .z (.t i)).sum

theorem length_t (k : Nat) : (tFactors k).length = lenOf k := (TF.ET.uniform_tFactors k).len

theorem rank_le (k : Nat) : rankOf k ≤ 1 := by unfold rankOf; split <;> omega

/-- A list of zeros and ones is, up to order, ones followed by zeros. -/
theorem perm_split : ∀ l : List Nat, (∀ x ∈ l, x ≤ 1) → (List.replicate l.sum 1 ++ List.replicate (l.length - l.sum) 0).Perm l ∧ l.sum ≤ l.length
  | [], _ => by simp
  | x :: l, h => by
    obtain ⟨ih, hle⟩ := perm_split l (fun y hy => h y (List.mem_cons_of_mem _ hy))
    have hx := h x (by simp)
    obtain rfl | rfl : x = 0 ∨ x = 1 := by omega
    · refine ⟨?_, by simp; omega⟩
      simp only [List.sum_cons, List.length_cons, Nat.zero_add]
      rw [show l.length + 1 - l.sum = (l.length - l.sum) + 1 by omega, List.replicate_succ]
      exact List.perm_middle.trans (ih.cons 0)
    · refine ⟨?_, by simp; omega⟩
      simp only [List.sum_cons, List.length_cons]
      rw [show l.length + 1 - (1 + l.sum) = (l.length - l.sum) by omega, Nat.add_comm 1, List.replicate_succ, List.cons_append]
      exact ih.cons 1

theorem exists_sorting {n : Nat} (f : Fin n → Nat) (hf : ∀ i, f i ≤ 1) :
    ∃ σ : Equiv.Perm (Fin n), ∀ i, f (σ i) = if i.val < ((List.finRange n).map f).sum then 1 else 0 := by
  have gen : ∀ l : List Nat, l.length = n → (∀ x ∈ l, x ≤ 1) →
      ∃ σ : Equiv.Perm (Fin n), ∀ i, l.getD (σ i) 0 = if i.val < l.sum then 1 else 0 := by
    intro l hl hle
    subst hl
    obtain ⟨p1, p2⟩ := perm_split l hle
    obtain ⟨σ, hσ⟩ := TF.ET.perm_index p1
    refine ⟨σ, fun i => ?_⟩
    have hi := i.2
    have h1 : (List.replicate l.sum 1 ++ List.replicate (l.length - l.sum) 0)[i.val]? = some l[σ i] := by
      rw [hσ]
      simp
    have h2 : l.getD (σ i) 0 = l[σ i] := by simp
    rw [h2]
    simp only [List.getElem?_append, List.length_replicate, List.getElem?_replicate] at h1
    by_cases hj : i.val < l.sum
    · simp only [hj, if_true, Option.some.injEq] at h1 ⊢
      exact h1.symm
    · have : i.val - l.sum < l.length - l.sum := by omega
      simp only [hj, if_false, this, if_true, Option.some.injEq] at h1 ⊢
      exact h1.symm
  obtain ⟨σ, h⟩ := gen ((List.finRange n).map f) (by simp) (by
    intro x hx
    obtain ⟨i, _, rfl⟩ := List.mem_map.1 hx
    exact hf i)
  refine ⟨σ, fun i => ?_⟩
  rw [← h i]
  simp

section
variable {lhs : Op} {k : Nat} {h : HOp} {z : Op} {c : Pl k → Pl k → Nat}

theorem contraction_facts (hl : lhs.m = 0) (hz : z.n = 0) (hc : Contraction lhs k h z c) : Facts lhs.n h (rankOf k) z.m c :=
  facts hl (uniform_self k) hz hc

theorem nums_of_facts {N : Nat} (f : Facts N h (rankOf k) z.m c) :
    Nums N k h.m h.n z.m (classOf c) (c .h .lhs) (c .z .lhs) := by
  have h1 := f.h_row
  have h2 := f.z_row
  have h3 := f.lhs_col
  have h4 := f.h_col
  have e : ((List.finRange (tFactors k).length).map fun i => c .z (.t i)).sum = classOf c := rfl
  have s' : ((List.finRange (tFactors k).length).map fun i => c .h (.t i)).sum + classOf c = k := by
    have := TF.ET.sum_add_finRange _ _ _ f.t_col
    have e3 : (tFactors k).length * rankOf k = k := by rw [length_t, TF.ET.lenOf_mul]
    rw [e3] at this
    exact this
  rw [e] at h2
  exact ⟨by omega, by omega, by omega, by omega⟩

/-- After sorting the t factors the table is the one of its class. -/
theorem exists_tableJ (hl : lhs.m = 0) (hz : z.n = 0) (hc : Contraction lhs k h z c) :
    ∃ σ, (fun p q => c (relabel σ p) (relabel σ q)) = tableJ lhs.n k h.n (classOf c) (c .h .lhs) := by
  have f := contraction_facts hl hz hc
  have hle : ∀ x ∈ (List.finRange (tFactors k).length).map (fun i => c .z (.t i)), x ≤ 1 := by
    intro x hx
    obtain ⟨i, _, rfl⟩ := List.mem_map.1 hx
    have := f.t_col i
    have := rank_le k
    omega
  obtain ⟨σ, hσ2⟩ := exists_sorting (fun i => c .z (.t i)) (fun i => hle _ (List.mem_map.2 ⟨i, List.mem_finRange i, rfl⟩))
  change ∀ i, c .z (.t (σ i)) = if i.val < classOf c then 1 else 0 at hσ2
  refine ⟨σ, ?_⟩
  funext p q
  have := f.lhs_col
  have := f.h_col
  cases p with
  | lhs => simp only [relabel, f.lhs]; cases q <;> rfl
  | t i => simp only [relabel, f.t]; cases q <;> rfl
  | h =>
    cases q with
    | lhs => rfl
    | t i =>
      have h1 := f.t_col (σ i)
      rw [hσ2] at h1
      simp only [relabel, tableJ]
      split at h1
      · rename_i hj
        have := rank_le k
        simp only [hj, if_true]
        omega
      · rename_i hj
        simp only [hj, if_false]
        omega
    | h => simp only [relabel, tableJ]; exact f.hh
    | z => simp only [relabel, tableJ]; exact f.z _
  | z =>
    cases q with
    | lhs => simp only [relabel, tableJ]; omega
    | t i => simp only [relabel, tableJ]; exact hσ2 i
    | h => simp only [relabel, tableJ]; omega
    | z => simp only [relabel, tableJ]; exact f.z _

/-- The call of a class computes every contraction of the class. -/
theorem computes_codeOf {mode : Mode} (hl : lhs.m = 0) (hz : z.n = 0) (hc : Contraction lhs k h z c) (cap : k + h.n ≤ 10)
    (capN : lhs.n ≤ 8) : Computes (codeOf mode lhs.n k h z (classOf c) (c .h .lhs)) mode lhs k h z c := by
  have hr := readsAs_codeOf (mode := mode) hl hz (nums_of_facts (contraction_facts hl hz hc)) cap capN
  obtain ⟨σ, hσ⟩ := exists_tableJ hl hz hc
  refine ⟨σ, labOf lhs.n k h.n (classOf c) (c .h .lhs), ?_⟩
  rw [hσ]
  exact hr

end

/-! ## The converse -/

/-- the argument for h -/
def hOperand (mode : Mode) (h : HOp) : Operand := ⟨(match mode with | .rhs => "h_args" | .lhs => "dT"), h.m, h.n⟩
/-- the argument for a t -/
def tOp (mode : Mode) : Operand := ⟨(match mode with | .rhs => "t_args" | .lhs => "t_conj"), 0, 1⟩
/-- the argument for z -/
def zOperand (mode : Mode) (h : HOp) (z : Op) : Operand := ⟨if onZ mode h then "dz_args" else "z_args", z.m, z.n⟩

theorem operands_eq (mode : Mode) (k : Nat) (h : HOp) (z : Op) :
    (factors mode k h).map (operand mode h z) =
      List.replicate k (tOp mode) ++ (if onZ mode h then [] else [hOperand mode h]) ++ [zOperand mode h z] := by
  unfold factors
  rw [List.map_append, List.map_append, List.append_assoc]
  congr 1
  · by_cases hk : k = 0
    · simp [hk]
    · rw [if_neg hk, List.map_map]
      have : (operand mode h z ∘ Place.t : Fin (tFactors k).length → Operand) = fun _ => tOp mode := by
        funext i; rfl
      rw [this, List.map_const', List.length_finRange, tFactors_length hk]
  · congr 1
    split <;> rfl

theorem operands_inj {mode : Mode} {k k' : Nat} {h h' : HOp} {z z' : Op}
    (e : (factors mode k h).map (operand mode h z) = (factors mode k' h').map (operand mode h' z')) :
    k = k' ∧ h.m = h'.m ∧ h.n = h'.n ∧ z.m = z'.m ∧ z.n = z'.n := by
  rw [operands_eq, operands_eq] at e
  obtain ⟨e1, e2⟩ := List.append_inj' e rfl
  simp only [zOperand, List.cons.injEq, Operand.mk.injEq, and_true] at e2
  obtain ⟨e2, e3, e4⟩ := e2
  by_cases a : onZ mode h
  · by_cases b : onZ mode h'
    · simp only [a, b, if_true, List.append_nil] at e1
      have := congrArg List.length e1
      simp at this
      exact ⟨this, by rw [a.2.1, b.2.1], by rw [a.2.2, b.2.2], e3, e4⟩
    · simp [a, b] at e2
  · by_cases b : onZ mode h'
    · simp [a, b] at e2
    · simp only [a, b, if_false] at e1
      obtain ⟨e5, e6⟩ := List.append_inj' e1 rfl
      have := congrArg List.length e5
      simp at this
      simp only [hOperand, List.cons.injEq, Operand.mk.injEq, and_true, true_and] at e6
      exact ⟨this, e6.1, e6.2, e3, e4⟩

theorem sum_relabel {n : Nat} (σ : Equiv.Perm (Fin n)) (f : Fin n → Nat) :
    ((List.finRange n).map fun i => f (σ i)).sum = ((List.finRange n).map f).sum := by
  have : ((List.finRange n).map fun i => σ i).Perm (List.finRange n) := by
    rw [List.perm_ext_iff_of_nodup ((List.nodup_finRange n).map σ.injective) (List.nodup_finRange n)]
    intro a
    simp only [List.mem_map, List.mem_finRange, true_and, iff_true]
    exact ⟨σ.symm a, by simp⟩
  have := (this.map f).sum_eq
  rwa [List.map_map] at this

theorem sum_below {n j : Nat} (hj : j ≤ n) : ((List.finRange n).map fun i : Fin n => if i.val < j then 1 else 0).sum = j := by
  rw [finRange_map_range (fun i => if i < j then 1 else 0)]
  obtain ⟨m, rfl⟩ : ∃ m, n = j + m := ⟨n - j, by omega⟩
  rw [List.range_add, List.map_append, List.sum_append, List.map_map]
  have h1 : (List.range j).map (fun i => if i < j then 1 else 0) = (List.range j).map fun _ => 1 :=
    List.map_congr_left fun i hi => by simp [List.mem_range.1 hi]
  have h2 : (List.range m).map ((fun i => if i < j then 1 else 0) ∘ fun x => j + x) = (List.range m).map fun _ => 0 :=
    List.map_congr_left fun i hi => by simp
  rw [h1, h2]
  simp

/-- A call that computes a contraction is the call of its class. -/
theorem of_computes {mode : Mode} {lhs : Op} (hl : lhs.m = 0) {k k' : Nat} {h h' : HOp} {z z' : Op} {c : Pl k → Pl k → Nat}
    (hz : z.n = 0) (hc : Contraction lhs k h z c) {j hl' zl' : Nat} (n : Nums lhs.n k' h'.m h'.n z'.m j hl' zl') (cap : k' + h'.n ≤ 10)
    (capN : lhs.n ≤ 8) (hz' : z'.n = 0)
    (r : Computes (codeOf mode lhs.n k' h' z' j hl') mode lhs k h z c) :
    k = k' ∧ h.m = h'.m ∧ h.n = h'.n ∧ z.m = z'.m ∧ j = classOf c ∧ hl' = c .h .lhs := by
  obtain ⟨σ, lab, r⟩ := r
  obtain ⟨e1, e2, e3, e4, e5⟩ := operands_inj (r.operands.symm.trans (show (codeOf mode lhs.n k' h' z' j hl').operands = _ from rfl))
  subst e1
  have f := contraction_facts hl hz hc
  have n' := nums_of_facts f
  have r' := readsAs_codeOf (mode := mode) hl hz' n cap capN
  have hfac : factors mode k h = factors mode k h' := by
    unfold factors
    have : onZ mode h ↔ onZ mode h' := by unfold onZ; rw [e2, e3]
    by_cases a : onZ mode h
    · rw [if_pos a, if_pos (this.1 a)]
    · rw [if_neg a, if_neg (fun b => a (this.2 b))]
  have hlab : ∀ p ∈ factors mode k h, lab p = labOf lhs.n k h'.n j hl' p := by
    have h1 := r.subs.symm.trans r'.subs
    rw [← hfac] at h1
    intro p hp
    have := List.map_inj_left.1 h1 p hp
    simpa using this
  have hj : j = classOf c := by
    by_cases hk : k = 0
    · have h1 := n.le
      have h2 := n'.le
      omega
    · have hzf : (.z : Pl k) ∈ factors mode k h := by simp [factors]
      have htf : ∀ i, (.t i : Pl k) ∈ factors mode k h := by intro i; simp [factors, hk]
      have key : ∀ i, c .z (.t (σ i)) = if i.val < j then 1 else 0 := by
        intro i
        have h1 := r.shared .z (.t i) (by simp)
        have h2 := r'.shared .z (.t i) (by simp)
        rw [hlab _ hzf, hlab _ (htf i), h2] at h1
        simp only [relabel, f.t] at h1
        rw [Nat.add_zero] at h1
        rw [← h1]
        rfl
      have h1 := sum_relabel σ (fun i => c .z (.t i))
      have h2 : ((List.finRange (tFactors k).length).map fun i => c .z (.t (σ i))).sum = j := by
        rw [List.map_congr_left (fun i _ => key i), sum_below]
        rw [tFactors_length hk]
        exact n.le
      rw [h2] at h1
      exact h1
  refine ⟨rfl, e2, e3, e4, hj, ?_⟩
  have h1 := n.onZ
  have h2 := n'.onZ
  have h3 := n.onN
  have h4 := n'.onN
  omega

/-! ## The contractions of a class and their weights -/

/-- the contraction in which the t factors in `s` are paired with z -/
def tableS (N k hn hl : Nat) (s : Finset (Fin (tFactors k).length)) : Pl k → Pl k → Nat
  | .h, .lhs => hl
  | .h, .t i => if i ∈ s then 0 else rankOf k
  | .z, .lhs => N - hl
  | .z, .t i => if i ∈ s then 1 else 0
  | .z, .h => hn
  | _, _ => 0

/-- the contractions of a class -/
noncomputable def classList (N k hn j hl : Nat) : List (Pl k → Pl k → Nat) :=
  (Finset.powersetCard j (Finset.univ : Finset (Fin (tFactors k).length))).toList.map (tableS N k hn hl)

theorem sum_indicator {n : Nat} (s : Finset (Fin n)) : ((List.finRange n).map fun i => if i ∈ s then 1 else 0).sum = s.card := by
  rw [← List.sum_toFinset _ (List.nodup_finRange n)]
  simp

theorem sum_indicator_neg {n : Nat} (s : Finset (Fin n)) (e : Nat) :
    ((List.finRange n).map fun i => if i ∈ s then 0 else e).sum = (n - s.card) * e := by
  have h1 := TF.ET.sum_add_finRange (fun i => if i ∈ s then 1 else 0) (fun i => if i ∈ s then 0 else 1) 1 (fun i => by split <;> rfl)
  rw [sum_indicator] at h1
  have : (fun i : Fin n => if i ∈ s then 0 else e) = fun i => (if i ∈ s then 0 else 1) * e := by
    funext i; split <;> simp
  rw [this, List.sum_map_mul_right]
  congr 1
  omega

theorem contraction_tableS {lhs : Op} (hl : lhs.m = 0) {k : Nat} {h : HOp} {z : Op} (hz : z.n = 0) {j hl' zl : Nat}
    (n : Nums lhs.n k h.m h.n z.m j hl' zl) {s : Finset (Fin (tFactors k).length)} (hs : s.card = j) :
    Contraction lhs k h z (tableS lhs.n k h.n hl' s) := by
  have n1 := n.le
  have n2 := n.onH
  have n3 := n.onZ
  have n4 := n.onN
  have hu := uniform_self k
  have e1 : ((tFactors k).length - s.card) * rankOf k = k - j := by
    rw [hs, length_t]
    unfold lenOf rankOf
    split <;> omega
  refine ⟨?_, ?_, ?_⟩
  · intro i
    cases i <;> rfl
  · intro i
    rw [TF.ET.sum_places]
    cases i with
    | lhs => simp [tableS, creators, hl]
    | t i =>
      simp only [tableS, creators, (TF.ET.getElem_uniform hu i).2.1]
      simp
    | h =>
      simp only [tableS, creators, sum_indicator_neg]
      omega
    | z =>
      simp only [tableS, creators, sum_indicator]
      omega
  · intro i
    rw [TF.ET.sum_places]
    cases i with
    | lhs =>
      simp only [tableS, annihilators]
      simp
      omega
    | t i =>
      simp only [tableS, annihilators, (TF.ET.getElem_uniform hu i).2.2]
      have : i ∈ s → rankOf k = 1 := by
        intro hi
        have : 0 < s.card := Finset.card_pos.2 ⟨i, hi⟩
        unfold rankOf
        rw [if_neg]
        omega
      by_cases hi : i ∈ s
      · simp [hi, this hi]
      · simp [hi]
    | h => simp [tableS, annihilators]
    | z => simp [tableS, annihilators, hz]

theorem tableS_inj {N k hn hl : Nat} : Function.Injective (tableS N k hn hl) := by
  intro s s' e
  ext i
  have := congrFun (congrFun e .z) (.t i)
  simp only [tableS] at this
  by_cases a : i ∈ s <;> by_cases b : i ∈ s' <;> simp_all

theorem mem_classList {lhs : Op} (hl : lhs.m = 0) {k : Nat} {h : HOp} {z : Op} (hz : z.n = 0) {j hl' zl : Nat}
    (n : Nums lhs.n k h.m h.n z.m j hl' zl) (c : Pl k → Pl k → Nat) :
    c ∈ classList lhs.n k h.n j hl' ↔ Contraction lhs k h z c ∧ classOf c = j := by
  unfold classList
  simp only [List.mem_map, Finset.mem_toList, Finset.mem_powersetCard_univ]
  constructor
  · rintro ⟨s, hs, rfl⟩
    refine ⟨contraction_tableS hl hz n hs, ?_⟩
    simp only [classOf, tableS, sum_indicator]
    exact hs
  · rintro ⟨hc, hj⟩
    have f := contraction_facts hl hz hc
    have n' := nums_of_facts f
    have h1 : ∀ i, c .z (.t i) = if i ∈ Finset.univ.filter (fun i => c .z (.t i) = 1) then 1 else 0 := by
      intro i
      have := f.t_col i
      have := rank_le k
      simp only [Finset.mem_filter, Finset.mem_univ, true_and]
      split <;> omega
    refine ⟨Finset.univ.filter (fun i => c .z (.t i) = 1), ?_, ?_⟩
    · rw [← sum_indicator, ← hj]
      unfold classOf
      congr 1
      exact List.map_congr_left fun i _ => (h1 i).symm
    · have a1 := n.onZ
      have a2 := n'.onZ
      have a3 := n.onN
      have a4 := n'.onN
      funext p q
      cases p with
      | lhs => rw [f.lhs]; cases q <;> rfl
      | t i => rw [f.t]; cases q <;> rfl
      | h =>
        cases q with
        | lhs => simp only [tableS]; omega
        | t i =>
          have := f.t_col i
          have := rank_le k
          simp only [tableS, Finset.mem_filter, Finset.mem_univ, true_and]
          split <;> omega
        | h => simp only [tableS]; exact f.hh.symm
        | z => simp only [tableS]; exact (f.z _).symm
      | z =>
        cases q with
        | lhs => simp only [tableS]; omega
        | t i => simp only [tableS]; exact (h1 i).symm
        | h => simp only [tableS]; exact f.h_col.symm
        | z => simp only [tableS]; exact (f.z _).symm

theorem classList_nodup (N k hn j hl : Nat) : (classList N k hn j hl).Nodup :=
  (Finset.nodup_toList _).map tableS_inj

theorem prod_places {k : Nat} (f : Place k → Rat) :
    ((places k).map f).prod = f .lhs * ((List.finRange k).map fun i => f (.t i)).prod * f .h * f .z := by
  simp only [places, List.map_cons, List.map_append, List.map_map, List.map_nil, List.prod_cons, List.prod_append,
    List.prod_nil, Function.comp_def]
  ring

theorem prod_one {α : Type} (l : List α) (f : α → Rat) (h : ∀ x ∈ l, f x = 1) : (l.map f).prod = 1 := by
  rw [List.map_congr_left h]
  simp

theorem weight_tableS (N k hn hl : Nat) (s : Finset (Fin (tFactors k).length)) :
    weight (tableS N k hn hl s) = 1 / (k.factorial * (hl.factorial * (N - hl).factorial * hn.factorial)) := by
  unfold weight
  congr 2
  rw [prod_places]
  simp only [prod_places]
  have h1 : ∀ i ∈ List.finRange (tFactors k).length, ((tableS N k hn hl s .h (.t i)).factorial : Rat) = 1 := by
    intro i _
    simp only [tableS]
    have := rank_le k
    split
    · simp
    · rw [Nat.factorial_eq_one.2 this]; simp
  have h2 : ∀ i ∈ List.finRange (tFactors k).length, ((tableS N k hn hl s .z (.t i)).factorial : Rat) = 1 := by
    intro i _
    simp only [tableS]
    split <;> simp
  rw [prod_one _ _ h1, prod_one _ _ h2]
  simp only [tableS]
  simp
  ring

/-- The prefactor is the sum of the weights of the contractions of the class. -/
theorem sum_weights {N k hn j hl : Nat} (hj : j ≤ k) :
    ((classList N k hn j hl).map weight).sum =
      1 / (hl.factorial * (k - j).factorial * hn.factorial * (N - hl).factorial * j.factorial : Rat) := by
  unfold classList
  rw [List.map_map]
  have h1 : (weight ∘ tableS N k hn hl) = fun _ => (1 / (k.factorial * (hl.factorial * (N - hl).factorial * hn.factorial)) : Rat) :=
    funext fun s => weight_tableS N k hn hl s
  rw [h1, List.map_const', List.sum_replicate, Finset.length_toList, Finset.card_powersetCard, Finset.card_univ, Fintype.card_fin,
    length_t, nsmul_eq_mul]
  have h2 : (Nat.choose (lenOf k) j : Rat) * j.factorial * (k - j).factorial = k.factorial := by
    have h3 : Nat.choose (lenOf k) j = Nat.choose k j := by
      unfold lenOf
      split
      · rename_i hk
        have : j = 0 := by omega
        subst this hk
        rfl
      · rfl
    rw [h3]
    exact_mod_cast Nat.choose_mul_factorial_mul_factorial hj
  have f1 : (k.factorial : Rat) ≠ 0 := by exact_mod_cast k.factorial_ne_zero
  have f2 : (hl.factorial : Rat) ≠ 0 := by exact_mod_cast hl.factorial_ne_zero
  have f3 : ((N - hl).factorial : Rat) ≠ 0 := by exact_mod_cast (N - hl).factorial_ne_zero
  have f4 : (hn.factorial : Rat) ≠ 0 := by exact_mod_cast hn.factorial_ne_zero
  have f5 : (j.factorial : Rat) ≠ 0 := by exact_mod_cast j.factorial_ne_zero
  have f6 : ((k - j).factorial : Rat) ≠ 0 := by exact_mod_cast (k - j).factorial_ne_zero
  rw [← h2]
  have f7 : (Nat.choose (lenOf k) j : Rat) ≠ 0 := by
    intro h0
    rw [h0] at h2
    simp at h2
    exact f1 h2.symm
  field_simp

end TF.ETPy
