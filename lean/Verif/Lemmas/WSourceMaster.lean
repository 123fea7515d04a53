import Verif.Lemmas.WSourceCall

/-!
# Running the text of a generated W module: all orders
-/

namespace TF.W

set_option maxRecDepth 10000

open TF.Py TF.Helper TF.Spec TF.Spec.Source TF.Spec.PyRun TF.Spec.Tensor TF.Spec.WCall
open TF.Spec.W (Done Multiplies einsumValue added returned overFactorials masterOrders runMaster runOrder)
open TF.Spec.ResidualCall (tensor)

variable {R : Type} [CommRing R] [Algebra Rat R]

section
variable {A N n : Nat} {env : Spec.W.Env} {t : Nat → Arr R}

/-- the variables of the function before the first order -/
def startVars (n A N : Nat) (env : Spec.W.Env) (t : Nat → Arr R) : List Char → Option (Val R) :=
  setAll (globals (R := R) (moduleAst n)) ((masterParams false).map String.toList) (inputs A N env t)

/-- the variables after the orders up to `j` -/
def orderVars (n A N : Nat) (env : Spec.W.Env) (t : Nat → Arr R) : Nat → List Char → Option (Val R)
  | 0 => startVars n A N env t
  | j + 1 => Spec.PyRun.set (orderVars n A N env t j) (smallName (j + 1)).toList (valueAt A N env t j (j + 1))

/-- the arrays after the orders up to `j` -/
def orderHeap (A N : Nat) (env : Spec.W.Env) (t : Nat → Arr R) (j : Nat) : List (NArr R) := (List.range j).map fun i => tensor A N (i + 1) (addedAt A N env t (i + 1))

theorem length_orderHeap (j : Nat) : (orderHeap A N env t j).length = j := by simp [orderHeap]

theorem smallName_toList (k : Nat) : (smallName k).toList = 'w' :: '_' :: (toString k).toList := by simp [smallName, String.toList_append]

theorem smallName_inj {a b : Nat} (h : (smallName a).toList = (smallName b).toList) : a = b := by
  rw [smallName_toList, smallName_toList] at h
  injection h with _ h
  injection h with _ h
  have := (number_nat a).symm.trans ((congrArg number h).trans (number_nat b))
  injection this with this
  exact_mod_cast this

theorem orderVars_other {w : List Char} (hw : w.take 2 ≠ ['w', '_']) : ∀ j, orderVars n A N env t j w = startVars n A N env t w
  | 0 => rfl
  | j + 1 => by
    rw [orderVars, set_other _ _ (by rintro rfl; rw [smallName_toList] at hw; simp at hw), orderVars_other hw j]

theorem orderVars_at {i : Nat} : ∀ {j : Nat}, i < j → orderVars n A N env t j (smallName (i + 1)).toList = some (valueAt A N env t i (i + 1))
  | 0, h => by omega
  | j + 1, h => by
    rw [orderVars]
    by_cases e : i = j
    · subst e
      exact set_same _ _ _
    · rw [set_other _ _ fun e' => e (by have := smallName_inj e'; omega)]
      exact orderVars_at (by omega)

/-- one order -/
def order (n : Nat) (env : Spec.W.Env) (k : Nat) : Except PyErr (Nat × List (Done Einsum) × List (Done Einsum) × List (Done Einsum)) :=
  runOrder Einsum.ts env (moduleOf n).vemx (moduleOf n).vecc (moduleOf n).fns k

theorem order_eq {k : Nat} (h1 : 1 ≤ k) : order n env k = if n < k then .error .name else if env.tlen < k then .error .value
    else .ok (k, veciDone env k, mixedDone mkE env k, ccDone mkE env k) := runOrder_eq Einsum.ts mkE (fun _ _ => rfl) env n h1

omit [CommRing R] [Algebra Rat R] in
theorem findSome_named {a : Nat → Spec.Source.Stmt} (w : List Char) (l : List Nat) (h : ∀ k, importOf (R := R) w (a k) = none) : (l.map a).findSome? (importOf (R := R) w) = none := by
  rw [List.findSome?_eq_none_iff]
  intro s hs
  obtain ⟨k, _, rfl⟩ := List.mem_map.1 hs
  exact h k

omit [CommRing R] [Algebra Rat R] in
theorem globals_wFn {n k : Nat} : globals (R := R) (moduleAst n) (wFnName false k).toList = none := by
  obtain ⟨l, hl⟩ : ∃ l, (wFnName false k).toList = '_' :: l := ⟨"calculate_order_".toList ++ ((toString k).toList ++ ("_w_operator".toList ++ (optSuffix false).toList)), by
      unfold wFnName
      simp only [String.toList_append, List.append_assoc]
      rfl⟩
  rw [hl]
  unfold globals moduleAst
  rw [if_neg (by simp)]
  simp only [List.findSome?_append]
  rw [findSome_named (a := fun k => contributionsAst einsumReading .vemx false k (vemxAt mkE k)) _ _ fun _ => rfl,
    findSome_named (a := fun k => contributionsAst einsumReading .vecc false k (veccAt mkE k)) _ _ fun _ => rfl, findSome_named (a := wFnAst false) _ _ fun _ => rfl,
    findSome_named (a := fun k => contributionsAst callReading .vemx true k (vemxAt (fun _ => Call.mk) k)) _ _ fun _ => rfl,
    findSome_named (a := fun k => contributionsAst callReading .vecc true k (veccAt (fun _ => Call.mk) k)) _ _ fun _ => rfl, findSome_named (a := wFnAst true) _ _ fun _ => rfl]
  have e : importAst.findSome? (importOf (R := R) ('_' :: l)) = none := by
    rw [List.findSome?_eq_none_iff]
    intro s hs
    simp only [importAst, List.mem_cons, List.not_mem_nil, or_false] at hs
    rcases hs with rfl | rfl | rfl | rfl | rfl <;> simp [importOf]
  rw [e]
  rfl

theorem exec_order (hn : n ≤ 6) {j : Nat} (hj : j < 6) (depth : Nat) (l : List Spec.Source.Stmt) :
    Spec.PyRun.execAll (call (moduleAst n) (depth + 2)) ⟨orderVars n A N env t j, orderHeap A N env t j⟩ (orderCallAst false (j + 1) :: l) =
      match order n env (j + 1) with
      | .error e => .error e
      | .ok _ => Spec.PyRun.execAll (call (moduleAst n) (depth + 2)) ⟨orderVars n A N env t (j + 1), orderHeap A N env t (j + 1)⟩ l := by
  have hl : evalList ⟨orderVars n A N env t j, orderHeap A N env t j⟩ ((["A", "N", "t_args", "ansatz", "truncation"] : List String).map nameExpr) = .ok (inputs A N env t) := by
    refine evalList_names ?_
    have v : ∀ w : List Char, w.take 2 ≠ ['w', '_'] → orderVars n A N env t j w = startVars n A N env t w := fun w hw => orderVars_other hw j
    refine .cons ⟨number_none (by decide), (v _ (by decide)).trans ?_⟩ (.cons ⟨number_none (by decide), (v _ (by decide)).trans ?_⟩ (.cons ⟨number_none (by decide), (v _ (by decide)).trans ?_⟩
      (.cons ⟨number_none (by decide), (v _ (by decide)).trans ?_⟩ (.cons ⟨number_none (by decide), (v _ (by decide)).trans ?_⟩ .nil))))
    · exact setAll_at (n := 0) (by decide) rfl rfl
    · exact setAll_at (n := 1) (by decide) rfl rfl
    · exact setAll_at (n := 2) (by decide) rfl rfl
    · exact setAll_at (n := 3) (by decide) rfl rfl
    · exact setAll_at (n := 4) (by decide) rfl rfl
  have hcall : call (moduleAst n) (depth + 2) (wFnName false (j + 1)).toList (inputs A N env t) (orderHeap A N env t j) =
      match order n env (j + 1) with
      | .error e => .error e
      | .ok _ => .ok (valueAt A N env t j (j + 1), orderHeap A N env t (j + 1)) := by
    rw [order_eq (by omega)]
    by_cases h : n < j + 1
    · rw [if_pos h, call]
      simp only [lookup_none (l := moduleAst n) (by rw [names_moduleAst]; exact fn_not_mem n hn (j + 1) (by omega) h), globals_wFn]
    · rw [if_neg h, call_wFn hn (by omega) (by omega), length_orderHeap]
      by_cases ht : env.tlen < j + 1
      · rw [if_pos ht, if_pos ht]
      · rw [if_neg ht, if_neg ht]
        simp only [orderHeap, List.range_succ, List.map_append, List.map_cons, List.map_nil]
  have ht : evalTop (call (moduleAst n) (depth + 2)) ⟨orderVars n A N env t j, orderHeap A N env t j⟩ (.call (nameExpr (wFnName false (j + 1)))
      ([nameExpr "A", nameExpr "N", nameExpr "t_args", nameExpr "ansatz", nameExpr "truncation"] ++ if false = true then [.index (nameExpr "vemx_optimized_paths") [natWord (j + 1 - 1)],
        .index (nameExpr "vecc_optimized_paths") [natWord (j + 1 - 1)]] else [])) =
      call (moduleAst n) (depth + 2) (wFnName false (j + 1)).toList (inputs A N env t) (orderHeap A N env t j) := by
    simp only [Bool.false_eq_true, if_false, List.append_nil]
    simp only [List.map_cons, List.map_nil] at hl
    unfold nameExpr at hl ⊢
    simp only [evalTop, hl]
  unfold orderCallAst
  rw [Spec.PyRun.execAll, exec, ht, hcall]
  cases order n env (j + 1) with
  | error e => rfl
  | ok r => rfl

theorem exec_return (j : Nat) (fs : Functions R) (l : List Spec.Source.Stmt) :
    Spec.PyRun.execAll fs ⟨orderVars n A N env t j, orderHeap A N env t j⟩ (returnAst j :: l) =
      .ok (some (.tuple (((List.range j).map fun i => valueAt A N env t i (i + 1)) ++ List.replicate (6 - j) .none)), ⟨orderVars n A N env t j, orderHeap A N env t j⟩) := by
  have hl : evalList ⟨orderVars n A N env t j, orderHeap A N env t j⟩ ((((List.range j).map fun i => smallName (i + 1)) ++ List.replicate (6 - j) "None").map nameExpr) =
      .ok (((List.range j).map fun i => valueAt A N env t i (i + 1)) ++ List.replicate (6 - j) .none) := by
    refine evalList_names (List.rel_append ?_ ?_)
    · rw [List.forall₂_map_left_iff, List.forall₂_map_right_iff]
      refine List.forall₂_same.2 fun i hi => ⟨?_, orderVars_at (List.mem_range.1 hi)⟩
      rw [smallName_toList]
      exact number_none (by simp)
    · rw [List.forall₂_iff_get]
      refine ⟨by simp, fun i h1 h2 => ?_⟩
      simp only [List.get_eq_getElem, List.getElem_replicate]
      refine ⟨number_none (by decide), ?_⟩
      rw [orderVars_other (by decide)]
      unfold startVars
      rw [setAll_other (by decide)]
      rfl
  rw [List.map_append, List.map_map, List.map_replicate] at hl
  unfold returnAst
  rw [Spec.PyRun.execAll, exec]
  simp only [evalTop, eval, Function.comp_def] at hl ⊢
  rw [hl]
  rfl

/-- the arrays a call returns after the orders up to `j` -/
def returnedAt (A N : Nat) (env : Spec.W.Env) (t : Nat → Arr R) (j : Nat) : List (Option (NArr R)) :=
  ((List.range j).map fun i => some (tensor A N (i + 1) (returned (fnOf (i + 1)) (addedAt A N env t (i + 1))))) ++ List.replicate (6 - j) none

theorem entry_value {i j : Nat} (h : i < j) :
    entry (orderHeap A N env t j) (valueAt A N env t i (i + 1)) = some (some (tensor A N (i + 1) (returned (fnOf (i + 1)) (addedAt A N env t (i + 1))))) := by
  unfold valueAt
  by_cases hi : i + 1 = 1
  · rw [if_pos hi]
    obtain rfl : i = 0 := by omega
    have e : (orderHeap A N env t j)[0]? = some (tensor A N 1 (addedAt A N env t 1)) := by
      unfold orderHeap
      rw [List.getElem?_map, List.getElem?_range h]
      rfl
    simp only [entry, array, e]
    rfl
  · rw [if_neg hi]
    have e : returned (fnOf (i + 1)) (addedAt A N env t (i + 1)) = symSum (i + 1) (addedAt A N env t (i + 1)) := by
      unfold fnOf
      rw [if_neg hi]
      rfl
    rw [e]
    rfl

theorem mapM_some {α β : Type} {f : α → Option β} {g : α → β} : ∀ {l : List α}, (∀ a ∈ l, f a = some (g a)) → l.mapM f = some (l.map g)
  | [], _ => rfl
  | a :: l, h => by
    rw [List.mapM_cons, h a (by simp), mapM_some fun b hb => h b (by simp [hb])]
    rfl

theorem mapM_entries (j : Nat) :
    (((List.range j).map fun i => valueAt A N env t i (i + 1)) ++ List.replicate (6 - j) Val.none).mapM (entry (orderHeap A N env t j)) = some (returnedAt A N env t j) := by
  rw [List.mapM_append, List.mapM_map, mapM_some (f := entry (orderHeap A N env t j) ∘ fun i => valueAt A N env t i (i + 1)) (g := fun i => some (tensor A N (i + 1) (returned (fnOf (i + 1)) (addedAt A N env t (i + 1)))))
    fun i hi => entry_value (List.mem_range.1 hi), mapM_some (g := fun _ => none) (l := List.replicate (6 - j) Val.none) fun a ha => by rw [List.eq_of_mem_replicate ha]; rfl]
  simp [returnedAt]

/-- what a list of orders gives -/
def orders (n : Nat) (env : Spec.W.Env) (ks : List Nat) : Except PyErr (List (Nat × List (Done Einsum) × List (Done Einsum) × List (Done Einsum))) := collect (ks.map (order n env))

theorem eval_not_flag {vars : List Char → Option (Val R)} (ht : vars "truncation".toList = some (truncation env)) {g : Nat} (h1 : 1 ≤ g) (h6 : g ≤ 6) (heap : List (NArr R)) :
    eval ⟨vars, heap⟩ (.not (flagExpr g)) = .ok (.bool (!env.fl g)) := by
  have := eval_flag ht h1 h6 heap
  rw [eval]
  unfold flagExpr
  rw [this]

omit [CommRing R] [Algebra Rat R] in
theorem startVars_truncation : startVars n A N env t "truncation".toList = some (truncation env) := setAll_at (n := 4) (by decide) rfl rfl

/-- a statement that returns if the truncation does not contain an order -/
theorem exec_gate {j g : Nat} (h1 : 1 ≤ g) (h6 : g ≤ 6) (fs : Functions R) (b c l : List Spec.Source.Stmt) :
    Spec.PyRun.execAll fs ⟨orderVars n A N env t j, orderHeap A N env t j⟩ (.cond (.not (flagExpr g)) b c :: l) =
      Spec.PyRun.execAll fs ⟨orderVars n A N env t j, orderHeap A N env t j⟩ ((if env.fl g then c else b) ++ l) := by
  rw [execAll_append, Spec.PyRun.execAll, exec, eval_not_flag ((orderVars_other (by decide) j).trans startVars_truncation) h1 h6]
  cases env.fl g <;> rfl

/-- A call of the function that computes all orders. -/
theorem call_master (hn : n ≤ 6) (A N : Nat) (env : Spec.W.Env) (t : Nat → Arr R) :
    callTuple (moduleAst n) 3 (masterName false).toList (inputs A N env t) =
      match masterOrders (master n) env.fl with
      | .error .notImplemented =>
        match orders n env [1, 2, 3, 4, 5, 6] with
        | .error e => .error e
        | .ok _ => .error .notImplemented
      | .error e => .error e
      | .ok ks =>
        match orders n env ks with
        | .error e => .error e
        | .ok _ => .ok (returnedAt A N env t ks.length) := by
  have hnp : (moduleAst n).any importsNumpy = true := by
    unfold moduleAst
    simp only [List.any_append]
    have : importAst.any importsNumpy = true := rfl
    simp only [this, Bool.true_or]
  have hl := lookup_of_nodup (by rw [names_moduleAst]; exact nodup_fnNames n hn) (mem_master n)
  unfold callTuple
  rw [if_pos hnp, call]
  simp only [hl]
  rw [if_pos (by rfl)]
  have e0 : (⟨setAll (globals (R := R) (moduleAst n)) ((masterParams false).map String.toList) (inputs A N env t), []⟩ : Spec.PyRun.Env R) =
    ⟨orderVars n A N env t 0, orderHeap A N env t 0⟩ := rfl
  rw [e0, masterOrders_cases]
  unfold masterBody
  rw [execAll_cons (E' := ⟨orderVars n A N env t 0, orderHeap A N env t 0⟩) (by rw [exec]), exec_gate (by omega) (by omega)]
  cases f1 : env.fl 1 with
  | false =>
    simp only [Bool.false_eq_true, if_false, List.cons_append, List.nil_append]
    rw [Spec.PyRun.execAll, exec]
    have : "Exception".toList ≠ "NotImplementedError".toList := by decide
    simp only [raised, nameExpr, if_neg this]
  | true =>
    simp only [if_true, List.nil_append]
    rw [exec_order hn (by omega), exec_order hn (by omega), exec_order hn (by omega), exec_gate (by omega) (by omega)]
    cases f2 : env.fl 2 with
    | false =>
      simp only [Bool.false_eq_true, if_false, List.cons_append, List.nil_append]
      rw [exec_return]
      simp only [orders, List.map_cons, List.map_nil]
      cases order n env 1 <;> cases order n env 2 <;> cases order n env 3 <;> first | rfl | (simp only [Option.getD_some, mapM_entries]; rfl)
    | true =>
      simp only [if_true, List.cons_append, List.nil_append]
      rw [exec_order hn (by omega), exec_gate (by omega) (by omega)]
      cases f3 : env.fl 3 with
      | false =>
        simp only [Bool.false_eq_true, if_false, List.cons_append, List.nil_append]
        rw [exec_return]
        simp only [orders, List.map_cons, List.map_nil]
        cases order n env 1 <;> cases order n env 2 <;> cases order n env 3 <;> cases order n env 4 <;> first | rfl | (simp only [Option.getD_some, mapM_entries]; rfl)
      | true =>
        simp only [if_true, List.cons_append, List.nil_append]
        rw [exec_order hn (by omega), exec_gate (by omega) (by omega)]
        cases f4 : env.fl 4 with
        | false =>
          simp only [Bool.false_eq_true, if_false, List.cons_append, List.nil_append]
          rw [exec_return]
          simp only [orders, List.map_cons, List.map_nil]
          cases order n env 1 <;> cases order n env 2 <;> cases order n env 3 <;> cases order n env 4 <;> cases order n env 5 <;> first | rfl | (simp only [Option.getD_some, mapM_entries]; rfl)
        | true =>
          simp only [if_true, List.cons_append, List.nil_append]
          rw [exec_order hn (by omega), exec_gate (by omega) (by omega)]
          cases f5 : env.fl 5 with
          | false =>
            simp only [Bool.false_eq_true, if_false, List.cons_append, List.nil_append]
            rw [exec_return]
            simp only [orders, List.map_cons, List.map_nil]
            cases order n env 1 <;> cases order n env 2 <;> cases order n env 3 <;> cases order n env 4 <;> cases order n env 5 <;> cases order n env 6 <;> first | rfl | (simp only [Option.getD_some, mapM_entries]; rfl)
          | true =>
            simp only [if_true, List.cons_append, List.nil_append]
            rw [Spec.PyRun.execAll, exec]
            simp only [raised, nameExpr, if_true]
            simp only [orders, List.map_cons, List.map_nil]
            cases order n env 1 <;> cases order n env 2 <;> cases order n env 3 <;> cases order n env 4 <;> cases order n env 5 <;> cases order n env 6 <;> rfl

end

end TF.W
