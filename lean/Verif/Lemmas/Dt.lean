import Verif.Spec.Dt
import Verif.Lemmas.WRun

/-! # Lemmas about the model of the amplitude derivatives -/

namespace TF.Dt

open TF.Py TF.Helper TF.W TF.Spec TF.Spec.Dt
open TF.Spec.W hiding Env callNth runFunction serve

/-! ## The products with one derivative -/

/-- the ordering `c` with the derivative at position 0, 1, .. -/
def marks : List Nat → List (List Operand)
  | [] => []
  | a :: l => (⟨true, a⟩ :: l.map (Operand.mk false)) :: (marks l).map (⟨false, a⟩ :: ·)

def markAt (i : Nat) (l : List Nat) : List Operand := l.zipIdx.map fun x => ⟨decide (i = x.2), x.1⟩

theorem markAt_aux (l : List Nat) (s : Nat) :
    (List.range l.length).map (fun i => (l.zipIdx s).map fun x => (⟨decide (i + s = x.2), x.1⟩ : Operand)) = marks l := by
  induction l generalizing s with
  | nil => rfl
  | cons a l ih =>
    rw [List.length_cons, List.range_succ_eq_map, List.map_cons, marks]
    congr 1
    · rw [List.zipIdx_cons, List.map_cons]
      have : ∀ x ∈ l.zipIdx (s + 1), (⟨decide (0 + s = x.2), x.1⟩ : Operand) = ⟨false, x.1⟩ := by
        rintro ⟨x, j⟩ hx
        have := List.le_snd_of_mem_zipIdx hx
        simp only [Operand.mk.injEq, decide_eq_false_iff_not, and_true]
        simp only [] at this
        omega
      rw [List.map_congr_left this]
      simp only [Nat.zero_add, decide_true]
      congr 1
      have e : (fun x : Nat × Nat => (⟨false, x.1⟩ : Operand)) = Operand.mk false ∘ Prod.fst := rfl
      rw [e, ← List.map_map, List.zipIdx_map_fst]
    · rw [← ih (s + 1), List.map_map, List.map_map]
      apply List.map_congr_left
      intro i _
      simp only [Function.comp, List.zipIdx_cons, List.map_cons]
      congr 1
      · congr 1
        simp
      · apply List.map_congr_left
        intro x _
        congr 2
        rw [Nat.succ_eq_add_one]
        apply propext
        omega

theorem markAt_marks (l : List Nat) : (List.range l.length).map (fun i => markAt i l) = marks l := by
  rw [← markAt_aux l 0]
  rfl

theorem countP_map_false (l : List Nat) : (l.map (Operand.mk false)).countP Operand.der = 0 := by
  rw [List.countP_eq_zero]
  intro x hx
  obtain ⟨a, _, rfl⟩ := List.mem_map.1 hx
  simp

theorem eq_map_false (o : List Operand) (h : o.countP Operand.der = 0) : o = (o.map Operand.n).map (Operand.mk false) := by
  rw [List.countP_eq_zero] at h
  rw [List.map_map]
  conv_lhs => rw [← List.map_id o]
  apply List.map_congr_left
  intro x hx
  have := h x hx
  cases x with
  | mk d n => cases d <;> simp_all

theorem mem_marks (l : List Nat) (o : List Operand) : o ∈ marks l ↔ o.map Operand.n = l ∧ o.countP Operand.der = 1 := by
  induction l generalizing o with
  | nil =>
    rw [marks]
    constructor
    · intro h; cases h
    · rintro ⟨h, h1⟩
      rw [List.map_eq_nil_iff] at h
      subst h
      cases h1
  | cons a l ih =>
    rw [marks, List.mem_cons, List.mem_map]
    constructor
    · rintro (rfl | ⟨o', ho', rfl⟩)
      · refine ⟨by rw [List.map_cons, List.map_map, show Operand.n ∘ Operand.mk false = id from rfl, List.map_id], ?_⟩
        rw [List.countP_cons, countP_map_false]; rfl
      · rw [ih] at ho'
        refine ⟨by rw [List.map_cons, ho'.1], ?_⟩
        rw [List.countP_cons, ho'.2]; rfl
    · rintro ⟨h1, h2⟩
      cases o with
      | nil => cases h1
      | cons x o =>
        rw [List.map_cons] at h1
        injection h1 with hx ho
        cases x with
        | mk d n =>
          simp only [] at hx
          subst hx
          cases d with
          | true =>
            left
            rw [List.countP_cons] at h2
            simp only [if_true] at h2
            rw [eq_map_false o (by omega), ho]
          | false =>
            right
            refine ⟨o, (ih o).2 ⟨ho, ?_⟩, rfl⟩
            rw [List.countP_cons] at h2
            simpa using h2

theorem nodup_marks (l : List Nat) : (marks l).Nodup := by
  induction l with
  | nil => exact List.nodup_nil
  | cons a l ih =>
    rw [marks, List.nodup_cons]
    refine ⟨?_, ih.map fun x y h => by injection h⟩
    rw [List.mem_map]
    rintro ⟨o, _, ho⟩
    injection ho with h _
    cases h

/-! ## Closed forms -/

theorem collect_dtName (l : List Nat) (h : ∀ x ∈ l, 1 ≤ x ∧ x ≤ 8) : collect (l.map dtName) = .ok l := by
  rw [collect_map_ok dtName id l fun x hx => ?_, List.map_id]
  have := h x hx
  unfold dtName
  rw [if_neg (by omega), if_pos (by omega)]; rfl

theorem operands_eq (i : Nat) (c : List Nat) (h : ∀ x ∈ c, 1 ≤ x ∧ x ≤ 8) : operands i c = .ok (markAt i c) := by
  unfold operands markAt
  apply collect_map_ok
  rintro ⟨x, j⟩ hx
  have := h x (List.fst_mem_of_mem_zipIdx hx)
  unfold operandOf dtName tName
  simp only []
  by_cases hi : i = j
  · rw [if_pos hi, if_neg (by omega), if_pos (by omega), decide_eq_true hi]; rfl
  · rw [if_neg hi, if_neg (by omega), if_pos (by omega), decide_eq_false hi]; rfl

variable {k : Nat} {p : List Nat}

theorem comb_bounds (hk2 : k ≤ 6) (h : IsPartition k p) {c : List Nat} (hc : c ∈ combinations p) :
    ∀ x ∈ c, 1 ≤ x ∧ x ≤ 8 := by
  intro x hx
  have := part_le h ((mem_combinations.1 hc).subset hx)
  omega

/-- the einsums of the ordering `c` -/
def mkDs (k : Nat) (c : List Nat) : List DEinsum := (marks c).map (DEinsum.mk (mkP k c).subs ('a' :: 'b' :: modeTags.take k))
/-- the calls of the ordering `c` -/
def mkCs (c : List Nat) : List DCall := (marks c).map DCall.mk
/-- the expressions of the ordering `c` -/
def mkPs (k : Nat) (c : List Nat) : List Path := (marks c).map fun _ => mkP k c

theorem length_marks (c : List Nat) : (marks c).length = c.length := by
  rw [← markAt_marks, List.length_map, List.length_range]

theorem einsumList_eq (hk1 : 1 ≤ k) (hk2 : k ≤ 6) (h : IsPartition k p) :
    einsumList p k = .ok ((combinations p).flatMap (mkDs k)) := by
  have hl := partition_length hk1 h
  unfold einsumList
  rw [surfaceIndex_eq p hl.1 (by omega), modeIndex_eq hk2 h]
  simp only []
  rw [List.zipWith_map_right, List.zipWith_self, collect_map_ok _ (mkDs k)]
  · rfl
  · intro c hc
    unfold einsumsOf
    rw [inDims_eq hk1 hk2 h hc]
    simp only []
    rw [collect_map_ok _ (fun i => DEinsum.mk (mkP k c).subs ('a' :: 'b' :: modeTags.take k) (markAt i c))]
    · unfold mkDs
      rw [← markAt_marks, (mem_combinations.1 hc).length_eq, List.map_map]
      rfl
    · intro i _
      rw [operands_eq i c (comb_bounds hk2 h hc)]
      rfl

theorem callList_eq (hk2 : k ≤ 6) (h : IsPartition k p) : callList p k = .ok ((combinations p).flatMap mkCs) := by
  unfold callList
  rw [collect_map_ok _ mkCs]
  · rfl
  · intro c hc
    unfold callsOf
    rw [collect_map_ok _ (fun i => DCall.mk (markAt i c))]
    · unfold mkCs
      rw [← markAt_marks, (mem_combinations.1 hc).length_eq, List.map_map]
      rfl
    · intro i _
      rw [operands_eq i c (comb_bounds hk2 h hc)]
      rfl

theorem pathList_eq (hk1 : 1 ≤ k) (hk2 : k ≤ 6) (h : IsPartition k p) :
    pathList p k = .ok ((combinations p).flatMap (mkPs k)) := by
  have hl := partition_length hk1 h
  unfold pathList
  rw [surfaceIndex_eq p hl.1 (by omega), modeIndex_eq hk2 h]
  simp only []
  rw [List.zipWith_map_right, List.zipWith_self, collect_map_ok _ (mkPs k)]
  · rfl
  · intro c hc
    unfold pathsOf
    rw [inDims_eq hk1 hk2 h hc]
    unfold mkPs mkP
    rw [List.map_const', length_marks, (mem_combinations.1 hc).length_eq]
    rfl

/-- the statement of a partition -/
def dblk {ι : Type} (f : List Nat → List ι) (p : List Nat) : DBlock ι := ⟨prefOf p, (combinations p).flatMap f⟩

theorem blockOf_eq {ι : Type} (mk : List Nat → Nat → Except PyErr (List ι)) (f : List Nat → List ι) (hk1 : 1 ≤ k)
    (h : IsPartition k p) (hmk : mk p k = .ok ((combinations p).flatMap f)) : blockOf mk k p = .ok (dblk f p) := by
  unfold blockOf
  rw [prefactor_eq (partitions_ne_nil hk1 h), hmk]
  rfl

def linkedAt {ι : Type} (f : Nat → List Nat → List ι) (k : Nat) : Disconnected ι :=
  ⟨if k < 2 then [] else range2 1 k, if k < 2 then none else some ((linkedPartitions k).map (dblk (f k)))⟩
def unlinkedAt {ι : Type} (f : Nat → List Nat → List ι) (k : Nat) : Disconnected ι :=
  ⟨if k < 4 then [] else range2 1 k, if k < 4 then none else some ((unlinkedPartitions k).map (dblk (f k)))⟩

theorem range2_dtnames {a b : Nat} (h1 : 1 ≤ a) (h2 : b ≤ 9) : collect ((range2 a b).map dtName) = .ok (range2 a b) :=
  collect_dtName _ fun x hx => by rw [mem_range2] at hx; omega

theorem linked_eq {ι : Type} (mk : List Nat → Nat → Except PyErr (List ι)) (f : Nat → List Nat → List ι) (hk1 : 1 ≤ k)
    (hk2 : k ≤ 6) (hmk : ∀ p, IsPartition k p → mk p k = .ok ((combinations p).flatMap (f k))) :
    linked mk k = .ok (linkedAt f k) := by
  unfold linked linkedAt
  rw [if_neg (by omega), range2_names (by omega) (by omega), range2_dtnames (by omega) (by omega)]
  simp only []
  by_cases h2 : k < 2
  · rw [if_pos h2, if_pos h2, if_pos h2]
  · rw [if_neg h2, if_neg h2, if_neg h2, collect_map_ok _ (dblk (f k))]
    · rfl
    · intro p hp
      obtain ⟨h3, _⟩ := linked_mem hk1 p hp
      exact blockOf_eq mk (f k) hk1 h3 (hmk p h3)

theorem unlinked_eq {ι : Type} (mk : List Nat → Nat → Except PyErr (List ι)) (f : Nat → List Nat → List ι) (hk1 : 1 ≤ k)
    (hk2 : k ≤ 6) (hmk : ∀ p, IsPartition k p → mk p k = .ok ((combinations p).flatMap (f k))) :
    unlinked mk k = .ok (unlinkedAt f k) := by
  unfold unlinked unlinkedAt
  rw [if_neg (by omega), range2_names (by omega) (by omega), range2_dtnames (by omega) (by omega)]
  simp only []
  by_cases h2 : k < 4
  · rw [if_pos h2, if_pos h2, if_pos h2]
  · rw [if_neg h2, if_neg h2, if_neg h2, collect_map_ok _ (dblk (f k))]
    · rfl
    · intro p hp
      obtain ⟨h3, _⟩ := unlinked_mem hk1 p hp
      exact blockOf_eq mk (f k) hk1 h3 (hmk p h3)

def dtFnAt (k : Nat) : DtFunction :=
  ⟨k, range2 1 (k + 1), k, epsilonPath k, if k < 2 then (false, false) else (true, false),
    if k < 2 then (false, false) else if k < 4 then (true, false) else (true, true), k⟩

theorem dtFunction_eq (hk2 : k ≤ 6) : dtFunction k = .ok (dtFnAt k) := by
  unfold dtFunction
  rw [if_neg (by omega), collect_map_ok wKey id _ fun x hx => ?_, List.map_id]
  · rfl
  · rw [mem_range2] at hx
    unfold wKey
    rw [if_pos (by omega)]; rfl

theorem solver_eq (hk1 : 1 ≤ k) (hk2 : k ≤ 6) : solver k = .ok k := by
  rcases k with _ | _ | _ | _ | _ | _ | _ | k
  all_goals first | omega | rfl

def exprAt (k : Nat) (p : List Nat) : Nat × List Path := (maxPart p, (combinations p).flatMap (mkPs k))

theorem contractedExpressions_eq (hk1 : 1 ≤ k) (hk2 : k ≤ 6) (ps : List (List Nat))
    (h : ∀ p ∈ ps, IsPartition k p ∧ p ≠ [k]) : contractedExpressions ps k = .ok (ps.map (exprAt k)) := by
  unfold contractedExpressions
  rw [List.filter_eq_self.2]
  · apply collect_map_ok
    intro p hp
    obtain ⟨h1, _⟩ := h p hp
    have hne := partitions_ne_nil hk1 h1
    have hm := maxPart_spec hne
    have := part_le h1 hm.1
    unfold expressionsOf exprAt
    rw [pathList_eq hk1 hk2 h1, pyMax_eq hne]
    simp only []
    cases hc : orderTags[maxPart p]? with
    | none =>
      rw [List.getElem?_eq_none_iff, show orderTags.length = 7 from rfl] at hc
      omega
    | some _ => rfl
  · intro p hp
    obtain ⟨h1, h2⟩ := h p hp
    rw [decide_eq_true_eq, ne_eq, length_one_iff h1]
    exact h2

def linkedPathsAt (n : Nat) : PathsFunction := ⟨none, [] :: (range2 2 (n + 1)).map fun k => (linkedPartitions k).map (exprAt k)⟩
def unlinkedPathsAt (n : Nat) : PathsFunction :=
  ⟨some 2, [] :: [] :: [] :: (range2 4 (n + 1)).map fun k => (unlinkedPartitions k).map (exprAt k)⟩

theorem linkedPaths_eq (n : Nat) (hn : n ≤ 6) : linkedPaths n = .ok (linkedPathsAt n) := by
  unfold linkedPaths linkedPathsAt
  rw [if_neg (by omega), collect_map_ok _ (fun k => (linkedPartitions k).map (exprAt k))]
  · rfl
  · intro k hk
    rw [mem_range2] at hk
    exact contractedExpressions_eq (by omega) (by omega) _ (linked_mem (by omega))

theorem unlinkedPaths_eq (n : Nat) (hn : n ≤ 6) : unlinkedPaths n = .ok (unlinkedPathsAt n) := by
  unfold unlinkedPaths unlinkedPathsAt
  rw [if_neg (by omega), collect_map_ok _ (fun k => (unlinkedPartitions k).map (exprAt k))]
  · rfl
  · intro k hk
    rw [mem_range2] at hk
    exact contractedExpressions_eq (by omega) (by omega) _ (unlinked_mem (by omega))

def dtModuleOf (n : Nat) : DtModule :=
  let ks := range2 1 (n + 1)
  { linked := ks.map (linkedAt mkDs), unlinked := ks.map (unlinkedAt mkDs), fns := ks.map dtFnAt, solvers := ks,
    linkedOpt := ks.map (linkedAt fun _ => mkCs), unlinkedOpt := ks.map (unlinkedAt fun _ => mkCs),
    fnsOpt := ks.map dtFnAt, solversOpt := ks, epsilonPaths := ks.map fun k => (k, epsilonPath k),
    linkedPaths := linkedPathsAt n, unlinkedPaths := unlinkedPathsAt n }

theorem dtModule_eq (n : Nat) (hn : n ≤ 6) : dtModule n = .ok (dtModuleOf n) := by
  have hk : ∀ k ∈ range2 1 (n + 1), 1 ≤ k ∧ k ≤ 6 := fun k hk => by rw [mem_range2] at hk; omega
  have he : epsilonPaths n = .ok ((range2 1 (n + 1)).map fun k => (k, epsilonPath k)) := by
    unfold epsilonPaths; rw [if_neg (by omega)]
  unfold dtModule
  simp only []
  rw [collect_map_ok (linked einsumList) (linkedAt mkDs) _ fun k h =>
      linked_eq einsumList mkDs (hk k h).1 (hk k h).2 fun p hp => einsumList_eq (hk k h).1 (hk k h).2 hp,
    collect_map_ok (unlinked einsumList) (unlinkedAt mkDs) _ fun k h =>
      unlinked_eq einsumList mkDs (hk k h).1 (hk k h).2 fun p hp => einsumList_eq (hk k h).1 (hk k h).2 hp,
    collect_map_ok dtFunction dtFnAt _ fun k h => dtFunction_eq (hk k h).2,
    collect_map_ok solver id _ fun k h => solver_eq (hk k h).1 (hk k h).2,
    collect_map_ok (linked callList) (linkedAt fun _ => mkCs) _ fun k h =>
      linked_eq callList (fun _ => mkCs) (hk k h).1 (hk k h).2 fun p hp => callList_eq (hk k h).2 hp,
    collect_map_ok (unlinked callList) (unlinkedAt fun _ => mkCs) _ fun k h =>
      unlinked_eq callList (fun _ => mkCs) (hk k h).1 (hk k h).2 fun p hp => callList_eq (hk k h).2 hp,
    he, linkedPaths_eq n hn, unlinkedPaths_eq n hn, List.map_id]
  rfl

theorem dtModule_error (n : Nat) (hn : 6 < n) : ∃ e, dtModule n = .error e := by
  unfold dtModule
  simp only []
  cases h : collect ((range2 1 (n + 1)).map (linked einsumList)) with
  | error e => exact ⟨e, rfl⟩
  | ok r =>
    exfalso
    rw [collect_ok_iff] at h
    have h7 : linked einsumList n ∈ (range2 1 (n + 1)).map (linked einsumList) :=
      List.mem_map.2 ⟨n, by rw [mem_range2]; omega, rfl⟩
    rw [h] at h7
    obtain ⟨x, _, hx⟩ := List.mem_map.1 h7
    unfold linked at hx
    rw [if_pos (by omega)] at hx
    cases hx

/-! ## Execution -/

section run
variable {ι : Type}

def linkedDone (f : Nat → List Nat → List ι) (env : Env) (k : Nat) : List (DBlock ι) :=
  if !env.veci && (env.mixed || env.cc) then (linkedPartitions k).map (dblk (f k)) else []
def unlinkedDone (f : Nat → List Nat → List ι) (env : Env) (k : Nat) : List (DBlock ι) :=
  if !env.veci && (!env.mixed && env.cc) then (unlinkedPartitions k).map (dblk (f k)) else []

theorem runDisconnected_some (ts : ι → List Operand) (f : List Nat → List ι) (hf : ∀ c, (f c).map ts = marks c)
    (tlen dtlen : Nat) (names : List Nat) (ps : List (List Nat)) (hps : ∀ p ∈ ps, ∀ x ∈ p, x ∈ names) :
    runDisconnected ts tlen dtlen ⟨names, some (ps.map (dblk f))⟩ =
      if tlen < names.length ∨ dtlen < names.length then .error .value else .ok (ps.map (dblk f)) := by
  unfold runDisconnected
  simp only []
  split
  · rfl
  · rw [if_pos]
    rw [List.all_eq_true]
    intro b hb
    obtain ⟨p, hp, rfl⟩ := List.mem_map.1 hb
    rw [List.all_eq_true]
    intro i hi
    obtain ⟨c, hc, hi⟩ := List.mem_flatMap.1 hi
    rw [List.all_eq_true]
    intro o ho
    have hm : ts i ∈ marks c := by rw [← hf]; exact List.mem_map.2 ⟨i, hi, rfl⟩
    rw [mem_marks] at hm
    rw [List.contains_iff_mem]
    apply hps p hp
    apply (mem_combinations.1 hc).subset
    rw [← hm.1]
    exact List.mem_map.2 ⟨o, ho, rfl⟩

theorem call_linked (ts : ι → List Operand) (f : Nat → List Nat → List ι) (hf : ∀ k c, (f k c).map ts = marks c)
    (tlen dtlen n : Nat) (h1 : 2 ≤ k) (h2 : k ≤ n) :
    callNth ts tlen dtlen k true ((range2 1 (n + 1)).map (linkedAt f)) =
      if tlen < k - 1 ∨ dtlen < k - 1 then .error .value else .ok ((linkedPartitions k).map (dblk (f k))) := by
  unfold callNth
  rw [if_pos rfl, List.getElem?_map, getElem_range2 (by omega) h2]
  simp only [Option.map_some]
  unfold linkedAt
  rw [if_neg (by omega), if_neg (by omega), runDisconnected_some ts (f k) (hf k)]
  · rw [show (range2 1 k).length = k - 1 by unfold range2; simp]
  · intro p hp x hx
    obtain ⟨h3, h4⟩ := linked_mem (k := k) (by omega) p hp
    have := part_linked h3 h4 hx
    have := h3.pos x hx
    rw [mem_range2]; omega

theorem call_unlinked (ts : ι → List Operand) (f : Nat → List Nat → List ι) (hf : ∀ k c, (f k c).map ts = marks c)
    (tlen dtlen n : Nat) (h1 : 4 ≤ k) (h2 : k ≤ n) :
    callNth ts tlen dtlen k true ((range2 1 (n + 1)).map (unlinkedAt f)) =
      if tlen < k - 1 ∨ dtlen < k - 1 then .error .value else .ok ((unlinkedPartitions k).map (dblk (f k))) := by
  unfold callNth
  rw [if_pos rfl, List.getElem?_map, getElem_range2 (by omega) h2]
  simp only [Option.map_some]
  unfold unlinkedAt
  rw [if_neg (by omega), if_neg (by omega), runDisconnected_some ts (f k) (hf k)]
  · rw [show (range2 1 k).length = k - 1 by unfold range2; simp]
  · intro p hp x hx
    obtain ⟨h3, h4⟩ := unlinked_mem (k := k) (by omega) p hp
    have := part_linked h3 h4 hx
    have := h3.pos x hx
    rw [mem_range2]; omega

/-- are disconnected terms computed -/
def disc (env : Env) (k : Nat) : Bool := !env.veci && (env.mixed || env.cc) && decide (2 ≤ k)

theorem runFunction_eq (ts : ι → List Operand) (f : Nat → List Nat → List ι) (hf : ∀ k c, (f k c).map ts = marks c)
    (env : Env) (resFns : List TF.Residual.Fn) (n : Nat) (h1 : 1 ≤ k) (h2 : k ≤ n) :
    runFunction ts env resFns ((range2 1 (n + 1)).map (linkedAt f)) ((range2 1 (n + 1)).map (unlinkedAt f)) (dtFnAt k) =
      if env.res.wlen < k then .error .value
      else match runResidual env.res resFns k with
        | .error e => .error e
        | .ok r =>
          if !env.res.present k then .error .type
          else if disc env k = true ∧ (env.tlen < k - 1 ∨ env.dtlen < k - 1) then .error .value
          else .ok ⟨r, (k, k, epsilonPath k), linkedDone f env k, unlinkedDone f env k, k⟩ := by
  unfold runFunction
  rw [show (dtFnAt k).unpacked.length = k by unfold dtFnAt range2; simp, show (dtFnAt k).order = k from rfl]
  split
  · rfl
  cases runResidual env.res resFns k with
  | error e => rfl
  | ok r =>
    simp only []
    split
    · rfl
    have hF : ∀ l : List (Disconnected ι), callNth ts env.tlen env.dtlen k false l = .ok [] := fun _ => rfl
    have hL := fun h => call_linked ts f hf env.tlen env.dtlen n h h2
    have hU := fun h => call_unlinked ts f hf env.tlen env.dtlen n h h2
    unfold disc linkedDone unlinkedDone dtFnAt
    simp only []
    by_cases hk : k < 2
    · have : k = 1 := by omega
      subst this
      rw [linked_one, unlinked_lt (by omega)]
      simp [hF]
    · have hL := hL (by omega)
      have hk' : 2 ≤ k := by omega
      by_cases hk4 : k < 4
      · rw [unlinked_lt (by omega)]
        cases env.veci <;> cases env.mixed <;> cases env.cc <;> simp [hk, hk', hk4, hF, hL]
        all_goals by_cases hc : env.tlen < k - 1 ∨ env.dtlen < k - 1 <;> simp [hc]
      · have hU := hU (by omega)
        cases env.veci <;> cases env.mixed <;> cases env.cc <;> simp [hk, hk', hk4, hF, hL, hU]
        all_goals by_cases hc : env.tlen < k - 1 ∨ env.dtlen < k - 1 <;> simp [hc]

theorem runSolver_eq (ts : ι → List Operand) (f : Nat → List Nat → List ι) (hf : ∀ k c, (f k c).map ts = marks c)
    (env : Env) (resFns : List TF.Residual.Fn) (n : Nat) (h1 : 1 ≤ k) (h2 : k ≤ n) :
    runSolver ts env resFns ((range2 1 (n + 1)).map (linkedAt f)) ((range2 1 (n + 1)).map (unlinkedAt f))
      ((range2 1 (n + 1)).map dtFnAt) (range2 1 (n + 1)) k =
      if !env.res.fl k then .error .exception
      else if env.res.wlen < k then .error .value
      else match runResidual env.res resFns k with
        | .error e => .error e
        | .ok r =>
          if !env.res.present k then .error .type
          else if disc env k = true ∧ (env.tlen < k - 1 ∨ env.dtlen < k - 1) then .error .value
          else .ok ⟨r, (k, k, epsilonPath k), linkedDone f env k, unlinkedDone f env k, k⟩ := by
  unfold runSolver
  rw [List.getElem?_map, getElem_range2 h1 h2]
  simp only [Option.map_some]
  rw [runFunction_eq ts f hf env resFns n h1 h2]

theorem runSolver_ok_iff (ts : ι → List Operand) (f : Nat → List Nat → List ι) (hf : ∀ k c, (f k c).map ts = marks c)
    (env : Env) (resFns : List TF.Residual.Fn) (n : Nat) (h1 : 1 ≤ k) (h2 : k ≤ n) (R : Result ι) :
    runSolver ts env resFns ((range2 1 (n + 1)).map (linkedAt f)) ((range2 1 (n + 1)).map (unlinkedAt f))
      ((range2 1 (n + 1)).map dtFnAt) (range2 1 (n + 1)) k = .ok R ↔
      env.res.fl k = true ∧ k ≤ env.res.wlen ∧ env.res.present k = true ∧
      (disc env k = true → k - 1 ≤ env.tlen ∧ k - 1 ≤ env.dtlen) ∧
      ∃ r, runResidual env.res resFns k = .ok r ∧ R = ⟨r, (k, k, epsilonPath k), linkedDone f env k, unlinkedDone f env k, k⟩ := by
  rw [runSolver_eq ts f hf env resFns n h1 h2]
  cases hfl : env.res.fl k
  · simp
  · rw [if_neg (by simp)]
    by_cases hw : env.res.wlen < k
    · rw [if_pos hw]
      constructor
      · intro h; cases h
      · intro h; omega
    · rw [if_neg hw]
      cases hr : runResidual env.res resFns k with
      | error e =>
        simp only []
        constructor
        · intro h; cases h
        · rintro ⟨_, _, _, _, r, h, _⟩; cases h
      | ok r =>
        simp only []
        cases hp : env.res.present k
        · simp
        · rw [if_neg (by simp)]
          by_cases hd : disc env k = true ∧ (env.tlen < k - 1 ∨ env.dtlen < k - 1)
          · rw [if_pos hd]
            constructor
            · intro h; cases h
            · rintro ⟨_, _, _, h, _⟩
              have := h hd.1
              omega
          · rw [if_neg hd]
            constructor
            · intro h
              injection h with h
              refine ⟨by trivial, by omega, by trivial, fun h' => ?_, r, rfl, h.symm⟩
              constructor
              · by_contra hx; exact hd ⟨h', .inl (by omega)⟩
              · by_contra hx; exact hd ⟨h', .inr (by omega)⟩
            · rintro ⟨_, _, _, _, r', h, rfl⟩
              injection h with h
              subst h
              rfl

end run

/-! ## The subtracted products -/

def subtracted (env : Env) (k : Nat) : List (List Nat) :=
  (if !env.veci && (env.mixed || env.cc) then linkedPartitions k else []) ++
  (if !env.veci && (!env.mixed && env.cc) then unlinkedPartitions k else [])

theorem nodup_subtracted (env : Env) (hk : 1 ≤ k) : (subtracted env k).Nodup := by
  have h := (partition_classes_split k hk).nodup_iff.2 (partitions_nodup k)
  refine List.Sublist.nodup ?_ (List.nodup_cons.1 h).2
  unfold subtracted
  apply List.Sublist.append
  · split
    · exact List.Sublist.refl _
    · exact List.nil_sublist _
  · split
    · exact List.Sublist.refl _
    · exact List.nil_sublist _

theorem mem_subtracted (env : Env) (hk : 1 ≤ k) (p : List Nat) : p ∈ subtracted env k ↔ Subtracted env k p := by
  unfold subtracted
  have e2 : p ∈ (if (!env.veci && (env.mixed || env.cc)) = true then linkedPartitions k else []) ↔
      (!env.veci && (env.mixed || env.cc)) = true ∧ p ∈ linkedPartitions k := by
    split <;> simp_all
  have e3 : p ∈ (if (!env.veci && (!env.mixed && env.cc)) = true then unlinkedPartitions k else []) ↔
      (!env.veci && (!env.mixed && env.cc)) = true ∧ p ∈ unlinkedPartitions k := by
    split <;> simp_all
  rw [List.mem_append, e2, e3, linked_exact k hk, unlinked_exact k hk]
  constructor
  · rintro (⟨h, h1, h2, h3⟩ | ⟨h, h1, h2⟩)
    · refine ⟨h1, h3, ?_⟩
      rw [Bool.and_eq_true, Bool.not_eq_true', Bool.or_eq_true] at h
      refine ⟨h.1, ?_⟩
      cases hm : env.mixed
      · right; exact ⟨rfl, by simpa [hm] using h.2⟩
      · left; exact ⟨rfl, h2⟩
    · refine ⟨h1, unlinked_ne h2, ?_⟩
      rw [Bool.and_eq_true, Bool.not_eq_true', Bool.and_eq_true, Bool.not_eq_true'] at h
      exact ⟨h.1, .inr h.2⟩
  · rintro ⟨h1, h2, h3, h4⟩
    rcases h4 with ⟨h4, h5⟩ | ⟨h4, h5⟩
    · exact .inl ⟨by simp [h3, h4], h1, h5, h2⟩
    · by_cases hb : AtMostOneBig p
      · exact .inl ⟨by simp [h3, h4, h5], h1, hb, h2⟩
      · exact .inr ⟨by simp [h3, h4, h5], h1, hb⟩

theorem done_subtracted {ι : Type} (f : Nat → List Nat → List ι) (env : Env) (k : Nat) :
    linkedDone f env k ++ unlinkedDone f env k = (subtracted env k).map (dblk (f k)) := by
  unfold linkedDone unlinkedDone subtracted
  rw [List.map_append]
  congr 1 <;> split <;> rfl

theorem dblk_derives {ι : Type} (ts : ι → List Operand) (f : List Nat → List ι) (hf : ∀ c, (f c).map ts = marks c) (p : List Nat)
    (hp : p ≠ []) : Derives ts p (dblk f p) := by
  have e : (dblk f p).items.map ts = (combinations p).flatMap marks := by
    unfold dblk
    simp only []
    rw [List.map_flatMap]
    exact List.flatMap_congr fun c _ => hf c
  refine ⟨prefOf_weight hp, ?_, ?_⟩
  · rw [e, List.nodup_flatMap]
    refine ⟨fun c _ => nodup_marks c, ?_⟩
    refine (nodup_combinations p).imp ?_
    intro a b hab
    rw [Function.onFun, List.disjoint_left]
    intro o ho ho'
    rw [mem_marks] at ho ho'
    exact hab (ho.1.symm.trans ho'.1)
  · intro o
    rw [e, List.mem_flatMap]
    constructor
    · rintro ⟨c, hc, ho⟩
      rw [mem_marks] at ho
      exact ⟨by rw [ho.1]; exact mem_combinations.1 hc, ho.2⟩
    · rintro ⟨h1, h2⟩
      exact ⟨_, mem_combinations.2 h1, (mem_marks _ _).2 ⟨rfl, h2⟩⟩

/-! ## The product rule -/

section leibniz
variable {R : Type} [Ring R] [Algebra Rat R]

omit [Algebra Rat R] in
theorem valueD_false (t dt : Nat → R) (l : List Nat) : valueD t dt (l.map (Operand.mk false)) = (l.map t).prod := by
  unfold valueD
  rw [List.map_map]
  rfl

omit [Algebra Rat R] in
theorem valueD_cons (t dt : Nat → R) (x : Operand) (o : List Operand) :
    valueD t dt (x :: o) = (if x.der then dt x.n else t x.n) * valueD t dt o := by
  unfold valueD
  rw [List.map_cons, List.prod_cons]

theorem leibniz_prod (D : R →ₗ[Rat] R) (hD : ∀ x y, D (x * y) = D x * y + x * D y) (t : Nat → R) (l : List Nat) :
    D ((l.map t).prod) = ((marks l).map (valueD t fun n => D (t n))).sum := by
  induction l with
  | nil =>
    have h1 := hD 1 1
    simp only [mul_one, one_mul] at h1
    have : D 1 = 0 := by
      have h2 : D 1 + 0 = D 1 + D 1 := by rw [add_zero]; exact h1
      exact (add_left_cancel h2).symm
    simpa [marks] using this
  | cons a l ih =>
    rw [List.map_cons, List.prod_cons, hD, ih, marks, List.map_cons, List.sum_cons, valueD_cons, valueD_false, List.map_map]
    congr 1
    rw [← List.sum_map_mul_left]
    simp only [Function.comp_def, valueD_cons]
    rfl

end leibniz

end TF.Dt
