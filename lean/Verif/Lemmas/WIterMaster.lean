import Verif.Lemmas.WIterPaths
import Verif.Spec.WIter

/-!
# Running the text of a generated W module: all orders, optimised
-/

namespace TF.W

set_option maxRecDepth 10000

open TF.Py TF.Helper TF.Spec TF.Spec.Source TF.Spec.PyRun TF.Spec.PyIter TF.Spec.Tensor TF.Spec.WCall TF.Spec.WIter
open TF.Spec.W (Done Multiplies einsumValue added returned overFactorials masterOrders runMaster runOrder)
open TF.Spec.ResidualCall (tensor)

variable {R : Type} [CommRing R] [Algebra Rat R]

section
variable {A N n : Nat} {env : Spec.W.Env} {t : Nat → Arr R} {L1 L2 : List (Val R)}

/-- the arguments with the lists of the optimised expressions -/
def inputsOpt (A N : Nat) (env : Spec.W.Env) (t : Nat → Arr R) (L1 L2 : List (Val R)) : List (Val R) := inputs A N env t ++ [.list L1, .list L2]

/-- the variables of the function before the first order -/
def startVarsOpt (n A N : Nat) (env : Spec.W.Env) (t : Nat → Arr R) (L1 L2 : List (Val R)) : List Char → Option (Val R) :=
  setAll (globals (R := R) (moduleAst n)) ((masterParams true).map String.toList) (inputsOpt A N env t L1 L2)

/-- the variables after the orders up to `j` -/
def orderVarsOpt (n A N : Nat) (env : Spec.W.Env) (t : Nat → Arr R) (L1 L2 : List (Val R)) : Nat → List Char → Option (Val R)
  | 0 => startVarsOpt n A N env t L1 L2
  | j + 1 => Spec.PyRun.set (orderVarsOpt n A N env t L1 L2 j) (smallName (j + 1)).toList (valueAt A N env t j (j + 1))

theorem orderVarsOpt_other {w : List Char} (hw : w.take 2 ≠ ['w', '_']) : ∀ j, orderVarsOpt n A N env t L1 L2 j w = startVarsOpt n A N env t L1 L2 w
  | 0 => rfl
  | j + 1 => by
    rw [orderVarsOpt, set_other _ _ (by rintro rfl; rw [smallName_toList] at hw; simp at hw), orderVarsOpt_other hw j]

theorem orderVarsOpt_at {i : Nat} : ∀ {j : Nat}, i < j → orderVarsOpt n A N env t L1 L2 j (smallName (i + 1)).toList = some (valueAt A N env t i (i + 1))
  | 0, h => by omega
  | j + 1, h => by
    rw [orderVarsOpt]
    by_cases e : i = j
    · subst e
      exact set_same _ _ _
    · rw [set_other _ _ fun e' => e (by have := smallName_inj e'; omega)]
      exact orderVarsOpt_at (by omega)

theorem fn_not_mem_opt : ∀ n ≤ 6, ∀ k ≤ 6, n < k → (wFnName true k).toList ∉ fnNames n := by decide +kernel

theorem wFnName_opt_head (k : Nat) : ∃ l, (wFnName true k).toList = '_' :: l := ⟨"calculate_order_".toList ++ ((toString k).toList ++ ("_w_operator".toList ++ (optSuffix true).toList)), by
      unfold wFnName
      simp only [String.toList_append, List.append_assoc]
      rfl⟩

theorem known_wFn_opt (hn : n ≤ 6) {k : Nat} (h1 : 1 ≤ k) (h6 : k ≤ 6) : PyIter.known (moduleAst n) (wFnName true k).toList = decide (k ≤ n) := by
  by_cases h : k ≤ n
  · rw [decide_eq_true h]
    exact known_of_mem (by rw [names_moduleAst]; exact nodup_fnNames n hn) (mem_wFn_opt h1 h)
  · rw [decide_eq_false h]
    unfold PyIter.known
    obtain ⟨l, hl⟩ := wFnName_opt_head k
    rw [lookup_none (l := moduleAst n) (by rw [names_moduleAst]; exact fn_not_mem_opt n hn k h6 (by omega)), hl,
      globals_none n (by simp) (by simp) (by simp) (by simp)]
    rfl

theorem eval_index_list {E : Spec.PyRun.Env R} {w : String} (hw : number w.toList = Option.none) {l : List (Val R)} {v : Val R} {i : Nat} (h1 : E.vars w.toList = some (.list l)) (h2 : l[i]? = some v) :
    eval E (.index (nameExpr w) [natWord i]) = .ok v := by
  have e1 : eval E (nameExpr w) = .ok (.list l) := by
    unfold nameExpr
    rw [eval]
    simp only [hw, h1]
  have e2 : evalList E [natWord i] = .ok [.num i] := by
    unfold natWord
    simp only [evalList, eval, number_nat, Except.map]
  rw [eval, e1, e2]
  have e3 : natural (i : Rat) = some i := by simp [natural]
  simp only [getIndex, e3, h2]

theorem evalList_ok_append {E : Spec.PyRun.Env R} {b : List Expr} : ∀ {a : List Expr} {vs : List (Val R)}, evalList E a = .ok vs → evalList E (a ++ b) = (evalList E b).map (vs ++ ·)
  | [], vs, h => by
    rw [evalList] at h
    injection h with h
    subst h
    rw [List.nil_append]
    cases evalList E b <;> rfl
  | e :: a, vs, h => by
    rw [evalList] at h
    rw [List.cons_append, evalList]
    cases he : eval E e with
    | error x => rw [he] at h; cases h
    | ok v =>
      rw [he] at h
      cases ha : evalList E a with
      | error x => rw [ha] at h; cases h
      | ok ws =>
        rw [ha] at h
        injection h with h
        subst h
        simp only [evalList_ok_append (b := b) ha]
        cases evalList E b <;> rfl

/-- the lists contain the expressions of the orders -/
structure ListsOk (A N n : Nat) (env : Spec.W.Env) (L1 L2 : List (Val R)) : Prop where
  mixed : ∀ k, 1 ≤ k → k ≤ n → L1[k - 1]? = some (.list (pathVals A N env (mkE k) (linkedPartitions k)))
  cc : ∀ k, 1 ≤ k → k ≤ n → (k ≤ 3 ∨ env.fl 2 = true) → L2[k - 1]? = some (.list (pathVals A N env (mkE k) (unlinkedPartitions k)))

theorem exec_order_opt (hn : n ≤ 6) (ok : ListsOk A N n env L1 L2) {j : Nat} (hj : j < 6) (h3 : j < 3 ∨ env.fl 2 = true) (depth : Nat) (l : List Spec.Source.Stmt) :
    execAllS (PyIter.known (moduleAst n)) (callS (moduleAst n) (depth + 2)) ⟨orderVarsOpt n A N env t L1 L2 j, orderHeap A N env t j⟩ (orderCallAst true (j + 1) :: l) =
      match order n env (j + 1) with
      | .error e => .error e
      | .ok _ => execAllS (PyIter.known (moduleAst n)) (callS (moduleAst n) (depth + 2)) ⟨orderVarsOpt n A N env t L1 L2 (j + 1), orderHeap A N env t (j + 1)⟩ l := by
  have hni : (wFnName true (j + 1)).toList ≠ "iter".toList := by
    obtain ⟨l, hl⟩ := wFnName_opt_head (j + 1)
    rw [hl]
    simp
  have hi : ∀ args, iterCall (.call (nameExpr (wFnName true (j + 1))) args) = none := by
    intro args
    simp only [nameExpr, iterCall, if_neg hni]
  have hc : ∀ args, callable (PyIter.known (moduleAst n)) (.call (nameExpr (wFnName true (j + 1))) args) = decide (j + 1 ≤ n) := by
    intro args
    unfold nameExpr callable
    exact known_wFn_opt hn (by omega) (by omega)
  rw [order_eq (by omega)]
  by_cases h : n < j + 1
  · rw [if_pos h, execAllS]
    unfold orderCallAst
    rw [execS]
    simp only [hi, hc, decide_eq_false (show ¬ j + 1 ≤ n by omega), Bool.false_eq_true, if_false]
  · have v : ∀ w : List Char, w.take 2 ≠ ['w', '_'] → orderVarsOpt n A N env t L1 L2 j w = startVarsOpt n A N env t L1 L2 w := fun w hw => orderVarsOpt_other hw j
    have hl : evalList ⟨orderVarsOpt n A N env t L1 L2 j, orderHeap A N env t j⟩ ((["A", "N", "t_args", "ansatz", "truncation"] : List String).map nameExpr) = .ok (inputs A N env t) := by
      refine evalList_names ?_
      refine .cons ⟨number_none (by decide), (v _ (by decide)).trans ?_⟩ (.cons ⟨number_none (by decide), (v _ (by decide)).trans ?_⟩ (.cons ⟨number_none (by decide), (v _ (by decide)).trans ?_⟩
        (.cons ⟨number_none (by decide), (v _ (by decide)).trans ?_⟩ (.cons ⟨number_none (by decide), (v _ (by decide)).trans ?_⟩ .nil))))
      · exact setAll_at (n := 0) (by decide) rfl rfl
      · exact setAll_at (n := 1) (by decide) rfl rfl
      · exact setAll_at (n := 2) (by decide) rfl rfl
      · exact setAll_at (n := 3) (by decide) rfl rfl
      · exact setAll_at (n := 4) (by decide) rfl rfl
    have g1 := eval_index_list (R := R) (E := ⟨orderVarsOpt n A N env t L1 L2 j, orderHeap A N env t j⟩) (w := "vemx_optimized_paths") (number_none (by decide)) (l := L1) (i := j)
      ((v _ (by decide)).trans (setAll_at (n := 5) (by decide) rfl rfl)) (ok.mixed (j + 1) (by omega) (by omega))
    have g2 := eval_index_list (R := R) (E := ⟨orderVarsOpt n A N env t L1 L2 j, orderHeap A N env t j⟩) (w := "vecc_optimized_paths") (number_none (by decide)) (l := L2) (i := j)
      ((v _ (by decide)).trans (setAll_at (n := 6) (by decide) rfl rfl)) (ok.cc (j + 1) (by omega) (by omega) (h3.imp (fun h => by omega) id))
    have hargs : evalList ⟨orderVarsOpt n A N env t L1 L2 j, orderHeap A N env t j⟩ ([nameExpr "A", nameExpr "N", nameExpr "t_args", nameExpr "ansatz", nameExpr "truncation"] ++
        [.index (nameExpr "vemx_optimized_paths") [natWord j], .index (nameExpr "vecc_optimized_paths") [natWord j]]) =
        .ok (inputs A N env t ++ [.list (pathVals A N env (mkE (j + 1)) (linkedPartitions (j + 1))), .list (pathVals A N env (mkE (j + 1)) (unlinkedPartitions (j + 1)))]) := by
      rw [show [nameExpr "A", nameExpr "N", nameExpr "t_args", nameExpr "ansatz", nameExpr "truncation"] = (["A", "N", "t_args", "ansatz", "truncation"] : List String).map nameExpr from rfl,
        evalList_ok_append hl, evalList, g1, evalList, g2, evalList]
      rfl
    have ht : evalTop (callS (moduleAst n) (depth + 2)) ⟨orderVarsOpt n A N env t L1 L2 j, orderHeap A N env t j⟩ (.call (nameExpr (wFnName true (j + 1)))
        ([nameExpr "A", nameExpr "N", nameExpr "t_args", nameExpr "ansatz", nameExpr "truncation"] ++
          [.index (nameExpr "vemx_optimized_paths") [natWord j], .index (nameExpr "vecc_optimized_paths") [natWord j]])) =
        if env.tlen < j + 1 then .error .value else .ok (valueAt A N env t j (j + 1), orderHeap A N env t (j + 1)) := by
      rw [show nameExpr (wFnName true (j + 1)) = .word (wFnName true (j + 1)).toList from rfl, evalTop, hargs]
      refine (call_wFn_opt hn (by omega) (by omega) depth _).trans ?_
      rw [length_orderHeap]
      by_cases ht : env.tlen < j + 1
      · rw [if_pos ht, if_pos ht]
      · rw [if_neg ht, if_neg ht]
        simp only [orderHeap, List.range_succ, List.map_append, List.map_cons, List.map_nil]
    rw [if_neg h, execAllS]
    unfold orderCallAst
    rw [execS_assign (hi _) ((hc _).trans (decide_eq_true (by omega))), exec, if_pos rfl, show j + 1 - 1 = j from rfl, ht]
    by_cases ht : env.tlen < j + 1
    · rw [if_pos ht, if_pos ht]
    · rw [if_neg ht, if_neg ht]
      rfl

theorem exec_return_opt (j : Nat) (known : List Char → Bool) (fs : Functions R) (l : List Spec.Source.Stmt) :
    execAllS known fs ⟨orderVarsOpt n A N env t L1 L2 j, orderHeap A N env t j⟩ (returnAst j :: l) =
      .ok (some (.tuple (((List.range j).map fun i => valueAt A N env t i (i + 1)) ++ List.replicate (6 - j) .none)), ⟨orderVarsOpt n A N env t L1 L2 j, orderHeap A N env t j⟩) := by
  have hl : evalList ⟨orderVarsOpt n A N env t L1 L2 j, orderHeap A N env t j⟩ ((((List.range j).map fun i => smallName (i + 1)) ++ List.replicate (6 - j) "None").map nameExpr) =
      .ok (((List.range j).map fun i => valueAt A N env t i (i + 1)) ++ List.replicate (6 - j) .none) := by
    refine evalList_names (List.rel_append ?_ ?_)
    · rw [List.forall₂_map_left_iff, List.forall₂_map_right_iff]
      refine List.forall₂_same.2 fun i hi => ⟨?_, orderVarsOpt_at (List.mem_range.1 hi)⟩
      rw [smallName_toList]
      exact number_none (by simp)
    · rw [List.forall₂_iff_get]
      refine ⟨by simp, fun i h1 h2 => ?_⟩
      simp only [List.get_eq_getElem, List.getElem_replicate]
      refine ⟨number_none (by decide), ?_⟩
      rw [orderVarsOpt_other (by decide)]
      unfold startVarsOpt
      rw [setAll_other (by decide)]
      rfl
  rw [List.map_append, List.map_map, List.map_replicate] at hl
  unfold returnAst
  rw [execAllS, execS_ret rfl, exec]
  simp only [evalTop, eval, Function.comp_def] at hl ⊢
  rw [hl]
  rfl

omit [CommRing R] [Algebra Rat R] in
theorem startVarsOpt_truncation : startVarsOpt n A N env t L1 L2 "truncation".toList = some (truncation env) := setAll_at (n := 4) (by decide) rfl rfl

/-- a statement that returns if the truncation does not contain an order -/
theorem exec_gate_opt {j g : Nat} (h1 : 1 ≤ g) (h6 : g ≤ 6) (known : List Char → Bool) (fs : Functions R) (b c l : List Spec.Source.Stmt) :
    execAllS known fs ⟨orderVarsOpt n A N env t L1 L2 j, orderHeap A N env t j⟩ (.cond (.not (flagExpr g)) b c :: l) =
      execAllS known fs ⟨orderVarsOpt n A N env t L1 L2 j, orderHeap A N env t j⟩ ((if env.fl g then c else b) ++ l) := by
  rw [execAllS_append, execAllS, execS, eval_not_flag ((orderVarsOpt_other (by decide) j).trans startVarsOpt_truncation) h1 h6]
  cases env.fl g <;> rfl

theorem execS_raise (known : List Char → Bool) (fs : Functions R) (E : Spec.PyRun.Env R) (e : Expr) : execS known fs E (.raise e) = exec fs E (.raise e) := by
  rw [execS] <;> simp

/-- A call of the optimised function that computes all orders. -/
theorem call_master_opt (hn : n ≤ 6) (A N : Nat) (env : Spec.W.Env) (t : Nat → Arr R) (ok : env.fl 1 = true → ListsOk A N n env L1 L2) :
    callTupleS (moduleAst n) 3 (masterName true).toList (inputsOpt A N env t L1 L2) =
      match masterOrders (master n) env.fl with
      | .error .notImplemented =>
        match orders n env [1, 2, 3, 4, 5, 6] with
        | .error e => .error e
        | .ok _ => .error .notImplemented
      | .error e => .error e
      | .ok ks =>
        match orders n env ks with
        | .error e => .error e
        | .ok _ => .ok (returnedAt A N env t ks.length) := by
  have hnp : (moduleAst n).any importsNumpy = true := by
    unfold moduleAst
    simp only [List.any_append]
    have : importAst.any importsNumpy = true := rfl
    simp only [this, Bool.true_or]
  have hl := lookup_of_nodup (by rw [names_moduleAst]; exact nodup_fnNames n hn) (mem_master_opt n)
  unfold callTupleS
  rw [if_pos hnp, callS]
  simp only [hl]
  rw [if_pos (by rfl)]
  have e0 : (⟨setAll (globals (R := R) (moduleAst n)) ((masterParams true).map String.toList) (inputsOpt A N env t L1 L2), []⟩ : Spec.PyRun.Env R) =
    ⟨orderVarsOpt n A N env t L1 L2 0, orderHeap A N env t 0⟩ := rfl
  rw [e0, masterOrders_cases]
  unfold masterBody
  rw [exec_doc, exec_gate_opt (by omega) (by omega)]
  cases f1 : env.fl 1 with
  | false =>
    simp only [Bool.false_eq_true, if_false, List.cons_append, List.nil_append]
    rw [execAllS, execS_raise, exec]
    have : "Exception".toList ≠ "NotImplementedError".toList := by decide
    simp only [raised, nameExpr, if_neg this]
  | true =>
    replace ok := ok f1
    simp only [if_true, List.nil_append]
    rw [exec_order_opt hn ok (by omega) (by omega), exec_order_opt hn ok (by omega) (by omega), exec_order_opt hn ok (by omega) (by omega), exec_gate_opt (by omega) (by omega)]
    cases f2 : env.fl 2 with
    | false =>
      simp only [Bool.false_eq_true, if_false, List.cons_append, List.nil_append]
      rw [exec_return_opt]
      simp only [orders, List.map_cons, List.map_nil]
      cases order n env 1 <;> cases order n env 2 <;> cases order n env 3 <;> rfl
    | true =>
      simp only [if_true, List.cons_append, List.nil_append]
      rw [exec_order_opt hn ok (by omega) (.inr f2), exec_gate_opt (by omega) (by omega)]
      cases f3 : env.fl 3 with
      | false =>
        simp only [Bool.false_eq_true, if_false, List.cons_append, List.nil_append]
        rw [exec_return_opt]
        simp only [orders, List.map_cons, List.map_nil]
        cases order n env 1 <;> cases order n env 2 <;> cases order n env 3 <;> cases order n env 4 <;> rfl
      | true =>
        simp only [if_true, List.cons_append, List.nil_append]
        rw [exec_order_opt hn ok (by omega) (.inr f2), exec_gate_opt (by omega) (by omega)]
        cases f4 : env.fl 4 with
        | false =>
          simp only [Bool.false_eq_true, if_false, List.cons_append, List.nil_append]
          rw [exec_return_opt]
          simp only [orders, List.map_cons, List.map_nil]
          cases order n env 1 <;> cases order n env 2 <;> cases order n env 3 <;> cases order n env 4 <;> cases order n env 5 <;> rfl
        | true =>
          simp only [if_true, List.cons_append, List.nil_append]
          rw [exec_order_opt hn ok (by omega) (.inr f2), exec_gate_opt (by omega) (by omega)]
          cases f5 : env.fl 5 with
          | false =>
            simp only [Bool.false_eq_true, if_false, List.cons_append, List.nil_append]
            rw [exec_return_opt]
            simp only [orders, List.map_cons, List.map_nil]
            cases order n env 1 <;> cases order n env 2 <;> cases order n env 3 <;> cases order n env 4 <;> cases order n env 5 <;> cases order n env 6 <;> rfl
          | true =>
            simp only [if_true, List.cons_append, List.nil_append]
            rw [execAllS, execS_raise, exec]
            simp only [raised, nameExpr, if_true]
            simp only [orders, List.map_cons, List.map_nil]
            cases order n env 1 <;> cases order n env 2 <;> cases order n env 3 <;> cases order n env 4 <;> cases order n env 5 <;> cases order n env 6 <;> rfl

/-- the optimised call computes what the other one computes -/
theorem call_master_same (hn : n ≤ 6) (A N : Nat) (env : Spec.W.Env) (t : Nat → Arr R) (ok : env.fl 1 = true → ListsOk A N n env L1 L2) :
    callTupleS (moduleAst n) 3 (masterName true).toList (inputsOpt A N env t L1 L2) = callTuple (moduleAst n) 3 (masterName false).toList (inputs A N env t) :=
  (call_master_opt hn A N env t ok).trans (call_master hn A N env t).symm

end

end TF.W
