import Verif.Lemmas.DtIterRun
import Verif.Lemmas.WIterMaster

/-!
# Running the text of a generated module of the amplitude derivatives: the optimised functions of the orders
-/

namespace TF.Dt

set_option maxRecDepth 10000

open TF.Py TF.Helper TF.W TF.Spec TF.Spec.Source TF.Spec.PyRun TF.Spec.PyIter TF.Spec.Tensor TF.Spec.DtCall TF.Spec.DtIter
open TF.Spec.Dt (MultipliesD einsumValue disconnected returned residualValue runResidual runFunction runSolver Result)
open TF.Spec.W (overFactorials Multiplies)
open TF.Spec.ResidualCall (tensor truncation hamiltonian wOperator)

variable {R : Type} [CommRing R] [Algebra Rat R]

/-! ## Subtracting -/

/-- the statements subtract `y` from the first array; they may create other arrays -/
def SubsS (known : List Char → Bool) (fs : Functions R) (vars : Vars R) (S : List Nat) (ss : List Spec.Source.Stmt) (y : Arr R) : Prop :=
  ∀ (x : Arr R) (rest : List (NArr R)), ∃ rest', execAllS known fs ⟨vars, ⟨S, x⟩ :: rest⟩ ss = .ok (none, ⟨vars, ⟨S, fun v => x v - y v⟩ :: rest'⟩)

/-- the statements raise an exception -/
def RaisesS (known : List Char → Bool) (fs : Functions R) (vars : Vars R) (S : List Nat) (ss : List Spec.Source.Stmt) (e : PyErr) : Prop :=
  ∀ (x : Arr R) (rest : List (NArr R)), execAllS known fs ⟨vars, ⟨S, x⟩ :: rest⟩ ss = .error e

section
variable {known : List Char → Bool} {fs : Functions R} {vars : Vars R} {S : List Nat}

theorem SubsS.cast {ss : List Spec.Source.Stmt} {y y' : Arr R} (h : SubsS known fs vars S ss y) (e : y = y') : SubsS known fs vars S ss y' := e ▸ h

theorem SubsS.nil : SubsS known fs vars S [] fun _ => 0 := by
  intro x rest
  refine ⟨rest, ?_⟩
  simp [execAllS]

theorem SubsS.pass : SubsS known fs vars S [.pass] fun _ => 0 := by
  intro x rest
  refine ⟨rest, ?_⟩
  rw [execAllS_cons (E' := ⟨vars, ⟨S, x⟩ :: rest⟩) (by rw [execS, exec] <;> simp)]
  simp [execAllS]

theorem SubsS.append {a b : List Spec.Source.Stmt} {y z : Arr R} (h : SubsS known fs vars S a y) (h' : SubsS known fs vars S b z) : SubsS known fs vars S (a ++ b) fun v => y v + z v := by
  intro x rest
  obtain ⟨r1, e1⟩ := h x rest
  obtain ⟨r2, e2⟩ := h' (fun v => x v - y v) r1
  refine ⟨r2, ?_⟩
  rw [execAllS_then e1, e2]
  simp [sub_sub]

theorem SubsS.branch {c : Expr} {b : Bool} {body orelse : List Spec.Source.Stmt} {y : Arr R} (hc : ∀ heap, eval ⟨vars, heap⟩ c = .ok (.bool b))
    (ht : b = true → SubsS known fs vars S body y) (hf : b = false → SubsS known fs vars S orelse y) : SubsS known fs vars S [.cond c body orelse] y := by
  intro x rest
  cases b with
  | true =>
    obtain ⟨r, e⟩ := ht rfl x rest
    refine ⟨r, ?_⟩
    rw [execAllS, execS, hc]
    simp only [e, execAllS]
  | false =>
    obtain ⟨r, e⟩ := hf rfl x rest
    refine ⟨r, ?_⟩
    rw [execAllS, execS, hc]
    simp only [e, execAllS]

theorem RaisesS.left {a b : List Spec.Source.Stmt} {e : PyErr} (h : RaisesS known fs vars S a e) : RaisesS known fs vars S (a ++ b) e := by
  intro x rest
  rw [execAllS_append, h]

theorem RaisesS.branch {c : Expr} {b : Bool} {body orelse : List Spec.Source.Stmt} {e : PyErr} (hc : ∀ heap, eval ⟨vars, heap⟩ c = .ok (.bool b))
    (ht : b = true → RaisesS known fs vars S body e) (hf : b = false → RaisesS known fs vars S orelse e) : RaisesS known fs vars S [.cond c body orelse] e := by
  intro x rest
  rw [execAllS, execS, hc]
  cases b with
  | true => simp only [ht rfl x rest]
  | false => simp only [hf rfl x rest]

end

section
variable {A N k n : Nat} {env : Spec.Dt.Env} {h : Nat × Nat → Arr R} {t dt w : Nat → Arr R} {ε : Arr R} {vars : Vars R} {fs other : Functions R} {known : List Char → Bool}
  {s : List Char} {shapes : List (List Nat)}

/-- the lists of the disconnected terms are those of the order -/
def ListsFor (A N k : Nat) (get : Side → Val R) : Prop := ∀ side : Side, side.first ≤ k → get side = .list (blockVals A N ((side.partitions k).map (dblk (mkDs k))))

/-- the variables of the optimised function of an order -/
structure FnScopeO (A N k : Nat) (env : Spec.Dt.Env) (t dt w : Nat → Arr R) (ε : Arr R) (s : List Char) (shapes : List (List Nat)) (get : Side → Val R) (vars : Vars R) : Prop extends
    FnScope A N k env t dt w ε vars where
  optEpsilon : vars "opt_epsilon".toList = some (.expression s shapes)
  optList : ∀ side : Side, vars side.paths.toList = some (get side)
  free : ∀ side : Side, vars (sideName side true k).toList = none

/-! ## Epsilon -/

/-- the shapes of the operands -/
def epsilonShapes (A N k : Nat) : List (List Nat) := [A :: A :: List.replicate k N, [A, A]]

theorem evalS_opt_epsilon {v : Val R} (he : vars "opt_epsilon".toList = some (.expression s shapes)) (hw : vars (wString k).toList = some v) (hε : vars "epsilon".toList = some (.arr ⟨[A, A], ε⟩))
    (heap : List (NArr R)) : evalS ⟨vars, heap⟩ (epsilonExpr true k) = (applyExpression heap (.expression s shapes) [v, .arr ⟨[A, A], ε⟩]).map (·, vars) := by
  have a1 := number_w k
  have a2 : number "epsilon".toList = Option.none := number_none (by decide)
  have e : epsilonExpr true k = .call (nameExpr "opt_epsilon") [nameExpr (wString k), nameExpr "epsilon"] := rfl
  have hl : evalList ⟨vars, heap⟩ [nameExpr (wString k), nameExpr "epsilon"] = .ok [v, .arr ⟨[A, A], ε⟩] := by
    simp only [nameExpr, evalList, eval, a1, a2, hw, hε, Except.map]
  rw [e, evalS, nameExpr, evalCall]
  simp only [he, hl]

theorem evalS_pref_error (hf : vars "factorial".toList = some (.imported [.word "math".toList] "factorial".toList)) (heap : List (NArr R)) {l : List Nat} (hl : l ≠ []) {e : Expr} {x : PyErr}
    (he : evalS ⟨vars, heap⟩ e = .error x) : evalS ⟨vars, heap⟩ (.prod (prefTerm l e)) = .error x := by
  have h1 : number "1".toList = some 1 := number_nat 1
  have hd : evalS ⟨vars, heap⟩ (denomExpr l) = .ok (.num ((l.map Nat.factorial).prod : Nat), vars) := by
    rw [evalS_plain (plain_denom hf hl), eval_denom hf heap hl]
    rfl
  have h2 : evalS ⟨vars, heap⟩ (.word "1".toList) = .ok (.num 1, vars) := by
    rw [evalS_plain rfl, eval, h1]
    rfl
  simp only [prefTerm, nameExpr]
  simp only [evalS, evalProdS, mulAllS]
  simp only [evalS] at h2
  simp only [h2, hd, he, mulVal, if_true, if_neg (facts_ne l)]

theorem epsilonAst_eq (k : Nat) : epsilonAst true k = .sub "residual".toList (.prod (prefTerm [k] (epsilonExpr true k))) := rfl

variable {get : Side → Val R}

theorem exec_epsilon_opt (sc : FnScopeO A N k env t dt w ε (epsilonSubs k) (epsilonShapes A N k) get vars) (h6 : k ≤ 6) (x : Arr R) (rest : List (NArr R)) :
    execS known fs ⟨vars, tensor A N k x :: rest⟩ (epsilonAst true k) =
      if env.res.present k = true then
        .ok (none, ⟨vars, tensor A N k (fun v => x v - (1 / (k.factorial : Rat)) • Spec.Tensor.einsum A N ((epsilonPath k).subs.zip [w k, ε]) (epsilonPath k).out v) :: rest⟩)
      else .error .type := by
  have hw := sc.wk
  unfold wOperator at hw
  rw [epsilonAst_eq, execS, show iterates (⟨vars, tensor A N k x :: rest⟩ : Spec.PyRun.Env R) (.prod (prefTerm [k] (epsilonExpr true k))) = true from rfl, if_pos rfl]
  by_cases hp : env.res.present k = true
  · rw [if_pos hp] at hw ⊢
    have ha : applyExpression (tensor A N k x :: rest) (.expression (epsilonSubs k) (epsilonShapes A N k)) [.arr (tensor A N k (w k)), .arr ⟨[A, A], ε⟩] =
        .ok (.arr (tensor A N k (Spec.Tensor.einsum A N ((epsilonPath k).subs.zip [w k, ε]) (epsilonPath k).out))) := by
      unfold applyExpression
      have e1 : arrays (tensor A N k x :: rest) [.arr (tensor A N k (w k)), .arr ⟨[A, A], ε⟩] = .ok [tensor A N k (w k), ⟨[A, A], ε⟩] := rfl
      have e2 : [tensor A N k (w k), ⟨[A, A], ε⟩].map NArr.shape = epsilonShapes A N k := rfl
      simp only [e1, e2, if_true, einsum_epsilonSubs h6, Except.map]
    have hs := evalS_opt_epsilon sc.optEpsilon hw sc.epsilon (tensor A N k x :: rest)
    rw [ha] at hs
    rw [evalS_pref sc.factorial _ (by simp) hs]
    have ho : overFactorials [k] = 1 / (k.factorial : Rat) := by simp [overFactorials]
    rw [ho]
    simp only [addTo, sc.residual, NArr.smul, tensor, NArr.add, array, List.getElem?_cons_zero, List.set_cons_zero, sub_eq, if_true]
  · rw [if_neg hp] at hw ⊢
    have hs := evalS_opt_epsilon sc.optEpsilon hw sc.epsilon (tensor A N k x :: rest)
    have ha : applyExpression (tensor A N k x :: rest) (.expression (epsilonSubs k) (epsilonShapes A N k)) [.none, .arr ⟨[A, A], ε⟩] = .error .type := rfl
    rw [ha] at hs
    rw [evalS_pref_error sc.factorial _ (by simp) hs]
    simp only [addTo, sc.residual]

/-- an expression for operands of other shapes -/
theorem exec_epsilon_bad (sc : FnScopeO A N k env t dt w ε s shapes get vars) (hs : shapes ≠ epsilonShapes A N k) (x : Arr R) (rest : List (NArr R)) :
    ∃ e, execS known fs ⟨vars, tensor A N k x :: rest⟩ (epsilonAst true k) = .error e := by
  have hw := sc.wk
  unfold wOperator at hw
  rw [epsilonAst_eq, execS, show iterates (⟨vars, tensor A N k x :: rest⟩ : Spec.PyRun.Env R) (.prod (prefTerm [k] (epsilonExpr true k))) = true from rfl, if_pos rfl]
  by_cases hp : env.res.present k = true
  · rw [if_pos hp] at hw
    have ha : applyExpression (tensor A N k x :: rest) (.expression s shapes) [.arr (tensor A N k (w k)), .arr ⟨[A, A], ε⟩] = .error .value := by
      unfold applyExpression
      have e1 : arrays (tensor A N k x :: rest) [.arr (tensor A N k (w k)), .arr ⟨[A, A], ε⟩] = .ok [tensor A N k (w k), ⟨[A, A], ε⟩] := rfl
      have e2 : [tensor A N k (w k), ⟨[A, A], ε⟩].map NArr.shape = epsilonShapes A N k := rfl
      simp only [e1, e2, if_neg (Ne.symm hs)]
    have hs := evalS_opt_epsilon sc.optEpsilon hw sc.epsilon (tensor A N k x :: rest)
    rw [ha] at hs
    rw [evalS_pref_error sc.factorial _ (by simp) hs]
    exact ⟨.value, by simp only [addTo, sc.residual]⟩
  · rw [if_neg hp] at hw
    have hs := evalS_opt_epsilon sc.optEpsilon hw sc.epsilon (tensor A N k x :: rest)
    have ha : applyExpression (tensor A N k x :: rest) (.expression s shapes) [.none, .arr ⟨[A, A], ε⟩] = .error .type := rfl
    rw [ha] at hs
    rw [evalS_pref_error sc.factorial _ (by simp) hs]
    exact ⟨.type, by simp only [addTo, sc.residual]⟩

/-! ## The disconnected terms -/

theorem evalList_side_opt (sc : FnScopeO A N k env t dt w ε s shapes get vars) (side : Side) (heap : List (NArr R)) :
    evalList ⟨vars, heap⟩ ((sideParams side true).map nameExpr) = .ok [.num A, .num N, truncation env.res, amplitudes A N env.tlen t, amplitudes A N env.dtlen dt, get side] := by
  refine evalList_names (ws := sideParams side true) (.cons ⟨number_none (by decide), sc.a⟩ (.cons ⟨number_none (by decide), sc.modes⟩ (.cons ⟨number_none (by decide), sc.trunc⟩ (.cons ⟨number_none (by decide), sc.tArgs⟩
    (.cons ⟨number_none (by decide), sc.dtArgs⟩ (.cons ⟨?_, sc.optList side⟩ .nil))))))
  cases side <;> exact number_none (by decide)

theorem evalTop_side_opt (sc : FnScopeO A N k env t dt w ε s shapes get vars) (hg : ListsFor A N k get) {side : Side} (hn : n ≤ 6) (hf : side.first ≤ k) (hk : k ≤ n) (depth : Nat)
    (heap : List (NArr R)) :
    evalTop (callWithS other (moduleAst n) (depth + 1)) ⟨vars, heap⟩ (.call (nameExpr (sideName side true k)) ((sideParams side true).map nameExpr)) =
      if env.tlen < k - 1 ∨ env.dtlen < k - 1 then .error .value
      else .ok (.ref heap.length, heap ++ [tensor A N k (disconnected A N t dt ((side.partitions k).map (dblk (mkDs k))))]) := by
  rw [nameExpr, evalTop, evalList_side_opt sc, hg side hf]
  exact call_side_opt hn hf hk depth _ _ _ heap

theorem execS_subtract (sc : FnScopeO A N k env t dt w ε s shapes get vars) {side : Side} (hn : n ≤ 6) (h1 : 1 ≤ k) (hk : k ≤ n) (heap : List (NArr R)) :
    execS (PyIter.known (moduleAst n)) fs ⟨vars, heap⟩ (subtractAst side true k) = exec fs ⟨vars, heap⟩ (subtractAst side true k) := by
  have hkn : PyIter.known (moduleAst n) (sideName side true k).toList = true :=
    known_of_mem (by rw [names_moduleAst]; exact nodup_fnNames n hn) (mem_side_opt (n := n) side h1 hk)
  have hi : iterates (⟨vars, heap⟩ : Spec.PyRun.Env R) (.call (nameExpr (sideName side true k)) ((sideParams side true).map nameExpr)) = false := by
    unfold nameExpr iterates
    simp only [sc.free side]
  have hc : callable (PyIter.known (moduleAst n)) (.call (nameExpr (sideName side true k)) ((sideParams side true).map nameExpr)) = true := by
    unfold nameExpr callable
    exact hkn
  unfold subtractAst
  rw [execS, hi, hc]
  rfl

theorem subs_side_opt (sc : FnScopeO A N k env t dt w ε s shapes get vars) (hg : ListsFor A N k get) {side : Side} (hn : n ≤ 6) (hf : side.first ≤ k) (hk : k ≤ n)
    (hl : ¬ (env.tlen < k - 1 ∨ env.dtlen < k - 1)) (depth : Nat) :
    SubsS (PyIter.known (moduleAst n)) (callWithS other (moduleAst n) (depth + 1)) vars (A :: A :: List.replicate k N) [subtractAst side true k]
      (disconnected A N t dt ((side.partitions k).map (dblk (mkDs k)))) := by
  intro x rest
  refine ⟨rest ++ [tensor A N k (disconnected A N t dt ((side.partitions k).map (dblk (mkDs k))))], ?_⟩
  have e := evalTop_side_opt (other := other) sc hg hn hf hk depth (⟨A :: A :: List.replicate k N, x⟩ :: rest)
  rw [if_neg hl] at e
  rw [execAllS, execS_subtract sc hn (le_trans (by decide) (le_trans first_le hf)) hk, subtractAst, exec]
  simp only [sc.residual, e, List.cons_append, List.length_cons, array, List.getElem?_cons_zero, List.getElem?_cons_succ]
  rw [List.getElem?_append_right (le_refl _), Nat.sub_self]
  simp only [List.getElem?_cons_zero, NArr.smul, tensor, NArr.add, if_true, List.set_cons_zero, sub_eq, execAllS]

theorem raises_side_opt (sc : FnScopeO A N k env t dt w ε s shapes get vars) (hg : ListsFor A N k get) {side : Side} (hn : n ≤ 6) (hf : side.first ≤ k) (hk : k ≤ n)
    (hl : env.tlen < k - 1 ∨ env.dtlen < k - 1) (depth : Nat) :
    RaisesS (PyIter.known (moduleAst n)) (callWithS other (moduleAst n) (depth + 1)) vars (A :: A :: List.replicate k N) [subtractAst side true k] .value := by
  intro x rest
  have e := evalTop_side_opt (other := other) sc hg hn hf hk depth (⟨A :: A :: List.replicate k N, x⟩ :: rest)
  rw [if_pos hl] at e
  rw [execAllS, execS_subtract sc hn (le_trans (by decide) (le_trans first_le hf)) hk, subtractAst, exec]
  simp only [sc.residual, e]

theorem subs_ansatz_opt (sc : FnScopeO A N k env t dt w ε s shapes get vars) (hg : ListsFor A N k get) (hn : n ≤ 6) (h1 : 1 ≤ k) (hk : k ≤ n) (depth : Nat)
    (hd : ¬ (disc env k = true ∧ (env.tlen < k - 1 ∨ env.dtlen < k - 1))) :
    SubsS (PyIter.known (moduleAst n)) (callWithS other (moduleAst n) (depth + 1)) vars (A :: A :: List.replicate k N) [ansatzAst true k]
      (disconnected A N t dt (linkedDone mkDs env k ++ unlinkedDone mkDs env k)) := by
  have hz : ∀ {y : Arr R}, y = (fun _ => 0) → SubsS (PyIter.known (moduleAst n)) (callWithS other (moduleAst n) (depth + 1)) vars (A :: A :: List.replicate k N) [.pass] y :=
    fun e => SubsS.pass.cast e.symm
  unfold ansatzAst
  refine SubsS.branch (fun heap => (eval_ansatz sc.ansatz heap).1) ?_ ?_
  · intro hv
    refine hz ?_
    simp only [linkedDone, unlinkedDone, hv]
    exact disconnected_nil A N t dt
  intro hv
  refine SubsS.branch (fun heap => (eval_ansatz sc.ansatz heap).2.1) ?_ ?_
  · intro hm
    have e : linkedDone mkDs env k ++ unlinkedDone mkDs env k = (linkedPartitions k).map (dblk (mkDs k)) := by simp [linkedDone, unlinkedDone, hv, hm]
    rw [e]
    unfold mixedAst
    by_cases h2 : k < 2
    · obtain rfl : k = 1 := by omega
      rw [if_pos h2, linked_one]
      exact hz (disconnected_nil A N t dt)
    · rw [if_neg h2]
      have hl : ¬ (env.tlen < k - 1 ∨ env.dtlen < k - 1) := fun hl => hd ⟨by simp [disc, hv, hm]; omega, hl⟩
      exact subs_side_opt (side := .linked) sc hg hn (by show 2 ≤ k; omega) hk hl depth
  intro hm
  refine SubsS.branch (fun heap => (eval_ansatz sc.ansatz heap).2.2) ?_ ?_
  · intro hc
    have e : linkedDone mkDs env k ++ unlinkedDone mkDs env k = (linkedPartitions k).map (dblk (mkDs k)) ++ (unlinkedPartitions k).map (dblk (mkDs k)) := by
      simp [linkedDone, unlinkedDone, hv, hm, hc]
    rw [e]
    unfold ccAst
    by_cases h2 : k < 2
    · obtain rfl : k = 1 := by omega
      rw [if_pos h2, linked_one, unlinked_lt (by omega)]
      exact hz (disconnected_nil A N t dt)
    · rw [if_neg h2]
      have hl : ¬ (env.tlen < k - 1 ∨ env.dtlen < k - 1) := fun hl => hd ⟨by simp [disc, hv, hc]; omega, hl⟩
      rw [disconnected_append]
      refine SubsS.append (a := [subtractAst .linked true k]) (subs_side_opt (side := .linked) sc hg hn (by show 2 ≤ k; omega) hk hl depth) ?_
      by_cases h4 : k < 4
      · rw [if_pos h4, unlinked_lt h4]
        exact hz (disconnected_nil A N t dt)
      · rw [if_neg h4]
        exact subs_side_opt (side := .unlinked) sc hg hn (by show 4 ≤ k; omega) hk hl depth
  · intro hc
    refine SubsS.nil.cast ?_
    simp only [linkedDone, unlinkedDone, hv, hm, hc]
    exact disconnected_nil A N t dt

theorem raises_ansatz_opt (sc : FnScopeO A N k env t dt w ε s shapes get vars) (hg : ListsFor A N k get) (hn : n ≤ 6) (hk : k ≤ n) (depth : Nat) (hd : disc env k = true)
    (hl : env.tlen < k - 1 ∨ env.dtlen < k - 1) :
    RaisesS (PyIter.known (moduleAst n)) (callWithS other (moduleAst n) (depth + 1)) vars (A :: A :: List.replicate k N) [ansatzAst true k] .value := by
  have h2 : 2 ≤ k := by
    unfold disc at hd
    simp at hd
    exact hd.2
  have hr := raises_side_opt (other := other) (side := .linked) sc hg hn h2 hk hl depth
  unfold ansatzAst
  refine RaisesS.branch (fun heap => (eval_ansatz sc.ansatz heap).1) ?_ ?_
  · intro hv
    simp [disc, hv] at hd
  intro hv
  refine RaisesS.branch (fun heap => (eval_ansatz sc.ansatz heap).2.1) ?_ ?_
  · intro hm
    rw [mixedAst, if_neg (by omega)]
    exact hr
  intro hm
  refine RaisesS.branch (fun heap => (eval_ansatz sc.ansatz heap).2.2) ?_ ?_
  · intro hc
    rw [ccAst, if_neg (by omega)]
    exact RaisesS.left (a := [subtractAst .linked true k]) hr
  · intro hc
    simp [disc, hv, hm, hc] at hd

/-! ## The function of an order -/

omit [CommRing R] [Algebra Rat R] in
theorem globals_none (n : Nat) {w : List Char} (h1 : w ≠ "None".toList) (h2 : w ≠ "factorial".toList) (h3 : w ≠ "symmetrize_tensor".toList) (h4 : w ≠ "log".toList)
    (h5 : w ≠ "residual_equations".toList) : globals (R := R) (moduleAst n) w = none := by
  unfold globals moduleAst
  rw [if_neg h1]
  simp only [List.findSome?_append]
  rw [findSome_named (a := einsumSideAst .linked) _ _ fun _ => rfl, findSome_named (a := einsumSideAst .unlinked) _ _ fun _ => rfl, findSome_named (a := dtFnAst false) _ _ fun _ => rfl,
    findSome_named (a := solverAst false) _ _ fun _ => rfl, findSome_named (a := callSideAst .linked) _ _ fun _ => rfl, findSome_named (a := callSideAst .unlinked) _ _ fun _ => rfl,
    findSome_named (a := dtFnAst true) _ _ fun _ => rfl, findSome_named (a := solverAst true) _ _ fun _ => rfl]
  have e : importAst.findSome? (importOf (R := R) w) = none := by
    rw [List.findSome?_eq_none_iff]
    intro s hs
    simp only [importAst, List.mem_cons, List.not_mem_nil, or_false] at hs
    have g2 := h2.symm
    have g3 := h3.symm
    have g4 := h4.symm
    have g5 := h5.symm
    rcases hs with rfl | rfl | rfl | rfl | rfl | rfl <;> simp_all [importOf]
  rw [e]
  rfl

theorem sideName_head (side : Side) (opt : Bool) (k : Nat) : ∃ l, (sideName side opt k).toList = '_' :: 'o' :: l :=
  ⟨"rder_".toList ++ ((toString k).toList ++ ("_".toList ++ (side.name.toList ++ ("_disconnected_terms".toList ++ (optSuffix opt).toList)))), by
    unfold sideName
    simp only [String.toList_append, List.append_assoc]
    rfl⟩

theorem known_symmetrize (n : Nat) : PyIter.known (moduleAst n) "symmetrize_tensor".toList = true := by
  unfold PyIter.known
  rw [globals_symmetrize]
  simp

theorem callable_symmetrize (n : Nat) {args : List Expr} : callable (PyIter.known (moduleAst n)) (.call (nameExpr "symmetrize_tensor") args) = true := by
  unfold nameExpr callable
  exact known_symmetrize n

theorem call_symmetrize_opt (hn : n ≤ 6) (depth : Nat) (x : Arr R) (rest : List (NArr R)) :
    callWithS other (moduleAst n) (depth + 1) "symmetrize_tensor".toList [.num N, .ref 0, .kw "order".toList (.num k)] (tensor A N k x :: rest) =
      .ok (.arr (tensor A N k (symSum k x)), tensor A N k x :: rest) := by
  have hne : ¬ ("symmetrize_tensor".toList = "log.warning".toList ∧ (moduleAst n).any importsLog = true) := fun h => absurd h.1 (by decide)
  rw [callWithS]
  simp only
  rw [if_neg hne, if_neg (by decide)]
  simp only [lookup_none (l := moduleAst n) (by rw [names_moduleAst]; exact symmetrize_not_mem n hn), globals_symmetrize]
  unfold callImported
  rw [if_neg (by simp), if_pos (by simp)]
  simp only [natural_nat, array, List.getElem?_cons_zero]
  rw [if_pos trivial, if_pos (by simp [tensor])]
  rfl

theorem opt_inputs_nodup : (["A", "N", "ansatz", "trunc", "epsilon", "h_args", "t_args", "dt_args", "w_args", "opt_epsilon", "opt_linked_path_list", "opt_unlinked_path_list"].map String.toList).Nodup := by
  decide

/-- the arguments of the optimised function of an order -/
def inputsO (A N : Nat) (env : Spec.Dt.Env) (h : Nat × Nat → Arr R) (t dt w : Nat → Arr R) (ε : Arr R) (s : List Char) (shapes : List (List Nat)) (get : Side → Val R) : List (Val R) :=
  inputs A N env h t dt w ε ++ [.expression s shapes, get .linked, get .unlinked]

/-- the value of a call -/
def outcome (r : Except PyErr (Option (Val R) × Spec.PyRun.Env R)) : Except PyErr (Val R × List (NArr R)) :=
  match r with
  | .error x => .error x
  | .ok (v, env) => .ok (v.getD .none, env.heap)

/-- a call of the optimised function of an order, up to the residual -/
theorem call_dtFn_start (hn : n ≤ 6) (h1 : 1 ≤ k) (hk : k ≤ n) (depth : Nat) {resFns : List TF.Residual.Fn}
    (hres : other ("residual_equations".toList ++ '.' :: (residualName k).toList) (Spec.ResidualCall.inputs A N env.res h w) [] =
      (runResidual env.res resFns k).map fun ls => (.ref 0, [tensor A N k (residualValue A N h w ls)])) (s : List Char) (shapes : List (List Nat)) (get : Side → Val R) :
    (env.res.wlen < k → callWithS other (moduleAst n) (depth + 2) (dtFnName true k).toList (inputsO A N env h t dt w ε s shapes get) [] = .error .value) ∧
    (k ≤ env.res.wlen → ∃ vars2, FnScopeO A N k env t dt w ε s shapes get vars2 ∧
      callWithS other (moduleAst n) (depth + 2) (dtFnName true k).toList (inputsO A N env h t dt w ε s shapes get) [] =
        match runResidual env.res resFns k with
        | .error e => .error e
        | .ok ls => outcome (execAllS (PyIter.known (moduleAst n)) (callWithS other (moduleAst n) (depth + 1)) ⟨vars2, [tensor A N k (residualValue A N h w ls)]⟩
            [epsilonAst true k, ansatzAst true k, symAst k, .ret (some (nameExpr (dtString k)))])) := by
  have hc := callWithS_eq (other := other) hn (mem_dtFn_opt (n := n) (k := k) h1 hk) (undotted_opt k (by omega)).2.2.1 (depth + 1) (args := inputsO A N env h t dt w ε s shapes get) rfl []
  rw [hc]
  set vars := setAll (globals (R := R) (moduleAst n)) ((dtParams true).map String.toList) (inputsO A N env h t dt w ε s shapes get) with hvars
  have ep : (dtParams true).map String.toList =
    ["A", "N", "ansatz", "trunc", "epsilon", "h_args", "t_args", "dt_args", "w_args", "opt_epsilon", "opt_linked_path_list", "opt_unlinked_path_list"].map String.toList := rfl
  rw [ep] at hvars
  have at_ : ∀ (j : Nat) {s' : String} {v : Val R},
      (["A", "N", "ansatz", "trunc", "epsilon", "h_args", "t_args", "dt_args", "w_args", "opt_epsilon", "opt_linked_path_list", "opt_unlinked_path_list"].map String.toList)[j]? = some s'.toList →
      (inputsO A N env h t dt w ε s shapes get)[j]? = some v → vars s'.toList = some v := by
    intro j s' v e1 e2
    rw [hvars]
    exact setAll_at (n := j) opt_inputs_nodup e1 e2
  have v1 : vars "A".toList = some (.num A) := at_ 0 rfl rfl
  have v2 : vars "N".toList = some (.num N) := at_ 1 rfl rfl
  have v3 : vars "ansatz".toList = some (ansatz env) := at_ 2 rfl rfl
  have v4 : vars "trunc".toList = some (truncation env.res) := at_ 3 rfl rfl
  have v5 : vars "epsilon".toList = some (.arr ⟨[A, A], ε⟩) := at_ 4 rfl rfl
  have v6 : vars "h_args".toList = some (hamiltonian A N h) := at_ 5 rfl rfl
  have v7 : vars "t_args".toList = some (amplitudes A N env.tlen t) := at_ 6 rfl rfl
  have v8 : vars "dt_args".toList = some (amplitudes A N env.dtlen dt) := at_ 7 rfl rfl
  have v9 : vars "w_args".toList = some (.tuple (wVals A N env w)) := at_ 8 rfl rfl
  have v12 : vars "opt_epsilon".toList = some (.expression s shapes) := at_ 9 rfl rfl
  have v13 : ∀ side : Side, vars side.paths.toList = some (get side) := by
    intro side
    cases side
    · exact at_ 10 rfl rfl
    · exact at_ 11 rfl rfl
  have v10 : vars "factorial".toList = some (.imported [.word "math".toList] "factorial".toList) := by
    rw [hvars, setAll_other (by decide), globals_factorial]
  have v11 : vars "residual_equations".toList = some (.imported [.sym '.'] "residual_equations".toList) := by
    rw [hvars, setAll_other (by decide), globals_residual]
  have v14 : ∀ side : Side, vars (sideName side true k).toList = none := by
    intro side
    obtain ⟨l, hl⟩ := sideName_head side true k
    rw [hvars, hl, setAll_other (by simp), globals_none n (by simp) (by simp) (by simp) (by simp) (by simp)]
  unfold dtBody
  rw [exec_doc]
  have u := exec_unpackNames (fs := callWithS other (moduleAst n) (depth + 1)) (src := "w_args") (number_none (by decide)) v9 [] (wNames k) "unusedargs".toList
  have hwl : (wVals A N env w).length = env.res.wlen := by simp [wVals]
  have e1 : unpackWAst k = .unpack (wNames k) "unusedargs".toList (nameExpr "w_args") := rfl
  rw [length_wNames, hwl] at u
  rw [e1]
  constructor
  · intro hw
    rw [execAllS, execS_unpack, u, if_neg (by omega)]
  intro hw
  rw [if_pos (by omega)] at u
  rw [execAllS_cons ((execS_unpack _ _ _ _).trans u)]
  have e2 : Spec.PyRun.set (setAll vars (wNames k) (wVals A N env w)) "unusedargs".toList (.list ((wVals A N env w).drop k)) = unpacked vars (wNames k) (wVals A N env w) := by
    unfold unpacked
    rw [length_wNames]
  rw [e2]
  have keep : ∀ {x : List Char}, x.take 3 ≠ ['w', '_', 'i'] → x ≠ "unusedargs".toList → unpacked vars (wNames k) (wVals A N env w) x = vars x :=
    fun h1 h2 => unpacked_other (not_mem_wNames h1) h2
  have hargs : evalList ⟨unpacked vars (wNames k) (wVals A N env w), []⟩ (["A", "N", "trunc", "h_args", "w_args"].map nameExpr) = .ok (Spec.ResidualCall.inputs A N env.res h w) :=
    evalList_names (.cons ⟨number_none (by decide), (keep (by decide) (by decide)).trans v1⟩ (.cons ⟨number_none (by decide), (keep (by decide) (by decide)).trans v2⟩
      (.cons ⟨number_none (by decide), (keep (by decide) (by decide)).trans v4⟩ (.cons ⟨number_none (by decide), (keep (by decide) (by decide)).trans v6⟩
        (.cons ⟨number_none (by decide), (keep (by decide) (by decide)).trans v9⟩ .nil)))))
  have hnl : "residual_equations".toList ++ '.' :: (residualName k).toList ≠ "log.warning".toList := by
    intro e
    have h' : some 'r' = "log.warning".toList.head? := congrArg List.head? e
    exact absurd h' (by decide)
  have htop : evalTop (callWithS other (moduleAst n) (depth + 1)) ⟨unpacked vars (wNames k) (wVals A N env w), []⟩
      (.call (.attr (nameExpr "residual_equations") (residualName k).toList) (["A", "N", "trunc", "h_args", "w_args"].map nameExpr)) =
        (runResidual env.res resFns k).map fun ls => (.ref 0, [tensor A N k (residualValue A N h w ls)]) := by
    rw [nameExpr, evalTop, if_neg (by simp)]
    simp only [(keep (x := "residual_equations".toList) (by decide) (by decide)).trans v11, hargs]
    rw [callWithS]
    simp only
    rw [if_neg (fun h => hnl h.1), if_pos (by simp), hres]
  set vars2 := Spec.PyRun.set (unpacked vars (wNames k) (wVals A N env w)) "residual".toList (.ref 0) with hvars2
  have keep2 : ∀ {x : List Char}, x.take 3 ≠ ['w', '_', 'i'] → x ≠ "unusedargs".toList → x ≠ "residual".toList → vars2 x = vars x :=
    fun h1 h2 h3 => (set_other _ _ h3).trans (keep h1 h2)
  refine ⟨vars2, ⟨?_, ?_, ?_, ?_⟩, ?_⟩
  · refine ⟨(keep2 (by decide) (by decide) (by decide)).trans v1, (keep2 (by decide) (by decide) (by decide)).trans v2, (keep2 (by decide) (by decide) (by decide)).trans v3,
      (keep2 (by decide) (by decide) (by decide)).trans v4, (keep2 (by decide) (by decide) (by decide)).trans v5, (keep2 (by decide) (by decide) (by decide)).trans v7,
      (keep2 (by decide) (by decide) (by decide)).trans v8, ?_, set_same _ _ _, (keep2 (by decide) (by decide) (by decide)).trans v10⟩
    rw [hvars2, set_other _ _ (by rw [wString_toList]; simp), unpacked, set_other _ _ (by rw [wString_toList]; simp)]
    refine setAll_at (wNames_nodup k (by omega)) (wNames_get h1 (le_refl k)) ?_
    unfold wVals
    rw [List.getElem?_map, List.getElem?_range (by omega)]
    simp only [Option.map_some]
    rw [show k - 1 + 1 = k by omega]
  · exact (keep2 (by decide) (by decide) (by decide)).trans v12
  · intro side
    exact (keep2 (by cases side <;> decide) (by cases side <;> decide) (by cases side <;> decide)).trans (v13 side)
  · intro side
    have := v14 side
    obtain ⟨l, hl⟩ := sideName_head side true k
    rw [hl] at this ⊢
    exact (keep2 (by simp) (by simp) (by simp)).trans this
  · rw [execAllS, residualAst, execS_assign rfl rfl, exec, htop]
    cases hrr : runResidual env.res resFns k with
    | error e => exact rfl
    | ok ls => exact rfl

/-- a call of the optimised function of an order -/
theorem call_dtFn_opt (hn : n ≤ 6) (h1 : 1 ≤ k) (hk : k ≤ n) (depth : Nat) {resFns : List TF.Residual.Fn}
    (hres : other ("residual_equations".toList ++ '.' :: (residualName k).toList) (Spec.ResidualCall.inputs A N env.res h w) [] =
      (runResidual env.res resFns k).map fun ls => (.ref 0, [tensor A N k (residualValue A N h w ls)])) {get : Side → Val R} (hg : ListsFor A N k get) :
    Returns (callWithS other (moduleAst n) (depth + 2) (dtFnName true k).toList (inputsO A N env h t dt w ε (epsilonSubs k) (epsilonShapes A N k) get) [])
      ((runFunction DEinsum.ts env resFns ((range2 1 (n + 1)).map (linkedAt mkDs)) ((range2 1 (n + 1)).map (unlinkedAt mkDs)) (dtFnAt k)).map
        fun r => tensor A N k (returned A N h t dt w ε r)) := by
  rw [runFunction_eq DEinsum.ts mkDs (fun k c => by unfold mkDs; rw [List.map_map]; exact List.map_id _) env resFns n h1 hk]
  obtain ⟨s1, s2⟩ := call_dtFn_start (t := t) (dt := dt) (ε := ε) hn h1 hk depth hres (epsilonSubs k) (epsilonShapes A N k) get
  by_cases hw : env.res.wlen < k
  · rw [s1 hw, if_pos hw]
    exact rfl
  obtain ⟨vars2, sc, e0⟩ := s2 (by omega)
  rw [e0, if_neg hw]
  cases hrr : runResidual env.res resFns k with
  | error e => exact rfl
  | ok ls =>
    simp only
    have he := exec_epsilon_opt (known := PyIter.known (moduleAst n)) (fs := callWithS other (moduleAst n) (depth + 1)) sc (by omega) (residualValue A N h w ls) []
    cases hp : env.res.present k with
    | false =>
      rw [execAllS, he, hp]
      exact rfl
    | true =>
      rw [hp, if_pos rfl] at he
      rw [execAllS_cons he, if_neg (by simp)]
      generalize hy : (fun v => residualValue A N h w ls v - (1 / (k.factorial : Rat)) • Spec.Tensor.einsum A N ((epsilonPath k).subs.zip [w k, ε]) (epsilonPath k).out v) = y
      have es : ∀ l : List Spec.Source.Stmt, ansatzAst true k :: l = [ansatzAst true k] ++ l := fun _ => rfl
      rw [es]
      by_cases hd : disc env k = true ∧ (env.tlen < k - 1 ∨ env.dtlen < k - 1)
      · rw [if_pos hd, execAllS_append]
        have := raises_ansatz_opt (other := other) sc hg hn hk depth hd.1 hd.2 y []
        unfold tensor
        rw [this]
        exact rfl
      · rw [if_neg hd]
        obtain ⟨rest, e3⟩ := subs_ansatz_opt (other := other) sc hg hn h1 hk depth hd y []
        have e4 : execAllS (PyIter.known (moduleAst n)) (callWithS other (moduleAst n) (depth + 1)) ⟨vars2, [tensor A N k y]⟩ [ansatzAst true k] = _ := e3
        rw [execAllS_then e4]
        set z : Arr R := fun v => y v - disconnected A N t dt (linkedDone mkDs env k ++ unlinkedDone mkDs env k) v with hz
        have na : number "N".toList = Option.none := number_none (by decide)
        have nr : number "residual".toList = Option.none := number_none (by decide)
        have hev : evalList ⟨vars2, tensor A N k z :: rest⟩ [nameExpr "N", nameExpr "residual", .kw "order".toList (natWord k)] = .ok [.num N, .ref 0, .kw "order".toList (.num k)] := by
          simp only [evalList, eval, nameExpr, natWord, na, nr, sc.modes, sc.residual, number_nat, Except.map]
        have e5 : execS (PyIter.known (moduleAst n)) (callWithS other (moduleAst n) (depth + 1)) ⟨vars2, tensor A N k z :: rest⟩ (symAst k) =
            .ok (none, ⟨Spec.PyRun.set vars2 (dtString k).toList (.arr (tensor A N k (symSum k z))), tensor A N k z :: rest⟩) := by
          rw [symAst, execS_assign iterCall_symmetrize (callable_symmetrize n), exec, nameExpr, evalTop, hev]
          simp only [call_symmetrize_opt hn]
        have e6 : (⟨vars2, ⟨A :: A :: List.replicate k N, z⟩ :: rest⟩ : Spec.PyRun.Env R) = ⟨vars2, tensor A N k z :: rest⟩ := rfl
        rw [e6, execAllS_cons e5, execAllS, execS_ret rfl, exec]
        simp only [nameExpr, evalTop, eval, number_dt, set_same, Except.map]
        refine ⟨tensor A N k z :: rest, ?_⟩
        have e7 : symSum k z = returned A N h t dt w ε ⟨ls, (k, k, epsilonPath k), linkedDone mkDs env k, unlinkedDone mkDs env k, k⟩ := by
          unfold returned
          simp only []
          rw [hz, ← hy]
        rw [e7]
        rfl

/-- with an expression for operands of other shapes -/
theorem call_dtFn_bad (hn : n ≤ 6) (h1 : 1 ≤ k) (hk : k ≤ n) (depth : Nat) {resFns : List TF.Residual.Fn}
    (hres : other ("residual_equations".toList ++ '.' :: (residualName k).toList) (Spec.ResidualCall.inputs A N env.res h w) [] =
      (runResidual env.res resFns k).map fun ls => (.ref 0, [tensor A N k (residualValue A N h w ls)])) (s : List Char) {shapes : List (List Nat)} (hs : shapes ≠ epsilonShapes A N k)
    (get : Side → Val R) : ∃ e, callWithS other (moduleAst n) (depth + 2) (dtFnName true k).toList (inputsO A N env h t dt w ε s shapes get) [] = .error e := by
  obtain ⟨s1, s2⟩ := call_dtFn_start (t := t) (dt := dt) (ε := ε) hn h1 hk depth hres s shapes get
  by_cases hw : env.res.wlen < k
  · exact ⟨_, s1 hw⟩
  obtain ⟨vars2, sc, e0⟩ := s2 (by omega)
  rw [e0]
  cases hrr : runResidual env.res resFns k with
  | error e => exact ⟨e, rfl⟩
  | ok ls =>
    obtain ⟨e, he⟩ := exec_epsilon_bad (known := PyIter.known (moduleAst n)) (fs := callWithS other (moduleAst n) (depth + 1)) sc hs (residualValue A N h w ls) []
    refine ⟨e, ?_⟩
    simp only
    rw [execAllS, he]
    rfl

end

end TF.Dt
