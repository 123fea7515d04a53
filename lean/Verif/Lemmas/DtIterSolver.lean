import Verif.Lemmas.DtIterPaths

/-!
# Running the text of a generated module of the amplitude derivatives: the optimised functions that are called from outside
-/

namespace TF.Dt

set_option maxRecDepth 10000

open TF.Py TF.Helper TF.W TF.Spec TF.Spec.Source TF.Spec.PyRun TF.Spec.PyIter TF.Spec.Tensor TF.Spec.DtCall TF.Spec.DtIter
open TF.Spec.Dt (MultipliesD einsumValue disconnected returned residualValue runResidual runFunction runSolver Result)
open TF.Spec.ResidualCall (tensor truncation hamiltonian wOperator)

variable {R : Type} [CommRing R] [Algebra Rat R]

/-! ## The expression for epsilon -/

theorem range2_split {k n : Nat} (hk : k ≤ n) : range2 1 (n + 1) = range2 1 (k + 1) ++ range2 (k + 1) (n + 1) := by
  have e : ∀ a b, range2 a b = List.range' a (b - a) := by
    intro a b
    unfold range2
    rw [List.range'_eq_map_range]
    exact List.map_congr_left fun i _ => by omega
  obtain ⟨m, rfl⟩ := Nat.exists_eq_add_of_le hk
  have := List.range'_append_1 (s := 1) (m := k) (n := m)
  rw [e, e, e, show k + m + 1 - 1 = k + m by omega, show k + 1 - 1 = k by omega, show k + m + 1 - (k + 1) = m by omega, Nat.add_comm k 1, this]

omit [CommRing R] [Algebra Rat R] in
theorem epsVals_all {A N k n : Nat} {fl : Nat → Bool} (h1 : 1 ≤ k) (hk : k ≤ n) (hfl : ∀ j, 1 ≤ j → j ≤ k → fl j = true) :
    (epsVals (R := R) A N fl (range2 1 (n + 1)))[k - 1]? = some (epsVal A N k) := by
  have e : (range2 1 (k + 1)).filter fl = range2 1 (k + 1) := List.filter_eq_self.2 fun j hj => by
    have := mem_range2.1 hj
    exact hfl j (by omega) (by omega)
  unfold epsVals
  rw [range2_split hk, List.filter_append, e, List.getElem?_map, List.getElem?_append_left (by simp [range2]; omega), getElem_range2 h1 le_rfl]
  rfl

omit [CommRing R] [Algebra Rat R] in
theorem epsVals_missing {A N k n j : Nat} {fl : Nat → Bool} (h1 : 1 ≤ k) (hk : k ≤ n) (hj1 : 1 ≤ j) (hjk : j ≤ k) (hj : fl j = false) :
    (epsVals (R := R) A N fl (range2 1 (n + 1)))[k - 1]? = none ∨ ∃ m, k < m ∧ (epsVals (R := R) A N fl (range2 1 (n + 1)))[k - 1]? = some (epsVal A N m) := by
  have hlen : ((range2 1 (k + 1)).filter fl).length < k := by
    have : ((range2 1 (k + 1)).filter fl).length < (range2 1 (k + 1)).length := by
      refine List.length_filter_lt_length_iff_exists.2 ⟨j, mem_range2.2 ⟨hj1, by omega⟩, by simp [hj]⟩
    simpa [range2] using this
  unfold epsVals
  rw [range2_split hk, List.filter_append, List.getElem?_map, List.getElem?_append_right (by omega)]
  cases h : ((range2 (k + 1) (n + 1)).filter fl)[k - 1 - ((range2 1 (k + 1)).filter fl).length]? with
  | none => exact .inl rfl
  | some m =>
    have := (List.mem_filter.1 (List.mem_of_getElem? h)).1
    exact .inr ⟨m, by have := mem_range2.1 this; omega, rfl⟩

theorem shapes_ne {A N k m : Nat} (h : k < m) : epsilonShapes A N m ≠ epsilonShapes A N k := by
  intro e
  unfold epsilonShapes at e
  simp only [List.cons.injEq, true_and, and_true] at e
  have := congrArg List.length e
  simp at this
  omega

theorem eval_index_missing {E : Spec.PyRun.Env R} {w : String} (hw : number w.toList = Option.none) {l : List (Val R)} {i : Nat} (h1 : E.vars w.toList = some (.list l)) (h2 : l[i]? = Option.none) :
    eval E (.index (nameExpr w) [natWord i]) = .error .index := by
  have e1 : eval E (nameExpr w) = .ok (.list l) := by
    unfold nameExpr
    rw [eval]
    simp only [hw, h1]
  have e2 : evalList E [natWord i] = .ok [.num i] := by
    unfold natWord
    simp only [evalList, eval, number_nat, Except.map]
  rw [eval, e1, e2]
  have e3 : natural (i : Rat) = some i := by simp [natural]
  simp only [getIndex, e3, h2]

/-! ## The function of an order -/

section
variable {A N k n : Nat} {env : Spec.Dt.Env} {h : Nat × Nat → Arr R} {t dt w : Nat → Arr R} {ε : Arr R} {other : Functions R} {E1 L1 L2 : List (Val R)}

theorem solver_inputs_nodup : (["A", "N", "ansatz", "trunc", "epsilon", "h_args", "t_args", "dt_args", "w_args", "opt_path_list"].map String.toList).Nodup := by decide

/-- the arguments of an optimised function -/
def inputsS (A N : Nat) (env : Spec.Dt.Env) (h : Nat × Nat → Arr R) (t dt w : Nat → Arr R) (ε : Arr R) (E1 L1 L2 : List (Val R)) : List (Val R) :=
  inputs A N env h t dt w ε ++ [.list [.list E1, .list L1, .list L2]]

/-- the value of the call is that of the function of the order -/
theorem call_solver_start (hn : n ≤ 6) (h1 : 1 ≤ k) (hk : k ≤ n) (depth : Nat) {v1 v2 : Val R} (hv1 : L1[k - 1]? = some v1) (hv2 : L2[k - 1]? = some v2) :
    callWithS other (moduleAst n) (depth + 1) (solverName true k).toList (inputsS A N env h t dt w ε E1 L1 L2) [] =
      if !env.res.fl k then .error .exception
      else
        match E1[k - 1]? with
        | none => .error .index
        | some v => callWithS other (moduleAst n) depth (dtFnName true k).toList (inputs A N env h t dt w ε ++ [v, v1, v2]) [] := by
  rw [callWithS_eq (other := other) hn (mem_solver_opt (n := n) (k := k) h1 hk) (undotted_opt k (by omega)).2.2.2 depth (args := inputsS A N env h t dt w ε E1 L1 L2) rfl []]
  set vars := setAll (globals (R := R) (moduleAst n)) ((solverParams true).map String.toList) (inputsS A N env h t dt w ε E1 L1 L2) with hvars
  have ep : (solverParams true).map String.toList = ["A", "N", "ansatz", "trunc", "epsilon", "h_args", "t_args", "dt_args", "w_args", "opt_path_list"].map String.toList := rfl
  rw [ep] at hvars
  have at_ : ∀ (j : Nat) {s : String} {v : Val R}, (["A", "N", "ansatz", "trunc", "epsilon", "h_args", "t_args", "dt_args", "w_args", "opt_path_list"].map String.toList)[j]? = some s.toList →
      (inputsS A N env h t dt w ε E1 L1 L2)[j]? = some v → vars s.toList = some v := by
    intro j s v e1 e2
    rw [hvars]
    exact setAll_at (n := j) solver_inputs_nodup e1 e2
  have v4 : vars "trunc".toList = some (truncation env.res) := at_ 3 rfl rfl
  have v10 : vars "opt_path_list".toList = some (.list [.list E1, .list L1, .list L2]) := at_ 9 rfl rfl
  have nt : number "trunc".toList = Option.none := number_none (by decide)
  have no : number "opt_path_list".toList = Option.none := number_none (by decide)
  have hflag : (Spec.ResidualCall.flags env.res).lookup ((orderTags[k]?).getD "") = some (env.res.fl k) := by
    have : k ≤ 6 := by omega
    interval_cases k <;> rfl
  have hg : eval ⟨vars, []⟩ (.not (.attr (nameExpr "trunc") ((orderTags[k]?).getD "").toList)) = .ok (.bool (!env.res.fl k)) := by
    simp only [nameExpr, eval, nt, v4, truncation, String.ofList_toList, hflag]
  unfold solverBody solverGuard
  simp only [List.cons_append, List.nil_append, if_true]
  rw [exec_doc]
  cases hfl : env.res.fl k with
  | false =>
    rw [execAllS, execS, hg, hfl]
    simp only [Bool.not_false, if_true]
    rw [execAllS, execS_raise, exec]
    rfl
  | true =>
    rw [execAllS_cons (E' := ⟨vars, []⟩) (by rw [execS, hg, hfl]; simp only [Bool.not_true, execAllS])]
    simp only [Bool.not_true, Bool.false_eq_true, if_false]
    set names := ["opt_epsilon_path_list", "opt_linked_path_list", "opt_unlinked_path_list"].map String.toList with hnames
    have hnd : names.Nodup := by rw [hnames]; decide
    have ha : execS (PyIter.known (moduleAst n)) (callWithS other (moduleAst n) depth) ⟨vars, []⟩ (.assign names (nameExpr "opt_path_list")) =
        .ok (none, ⟨setAll vars names [.list E1, .list L1, .list L2], []⟩) := by
      rw [execS_assign rfl rfl, exec]
      simp only [nameExpr, evalTop, eval, no, v10, Except.map, hnames, List.map_cons, List.map_nil, itemsOf, List.length_cons, List.length_nil, if_true]
    rw [execAllS_cons ha]
    set vs := setAll vars names [.list E1, .list L1, .list L2] with hvs
    have w1 : vs "opt_epsilon_path_list".toList = some (.list E1) := setAll_at (n := 0) hnd rfl rfl
    have w2 : vs "opt_linked_path_list".toList = some (.list L1) := setAll_at (n := 1) hnd rfl rfl
    have w3 : vs "opt_unlinked_path_list".toList = some (.list L2) := setAll_at (n := 2) hnd rfl rfl
    have keep : ∀ {x : List Char} {v : Val R}, x ∉ names → vars x = some v → vs x = some v := by
      intro x v hx e
      rw [hvs, setAll_other hx, e]
    have hl : evalList ⟨vs, []⟩ (["A", "N", "ansatz", "trunc", "epsilon", "h_args", "t_args", "dt_args", "w_args"].map nameExpr) = .ok (inputs A N env h t dt w ε) :=
      evalList_names (.cons ⟨number_none (by decide), keep (by decide) (at_ 0 rfl rfl)⟩ (.cons ⟨number_none (by decide), keep (by decide) (at_ 1 rfl rfl)⟩
        (.cons ⟨number_none (by decide), keep (by decide) (at_ 2 rfl rfl)⟩ (.cons ⟨number_none (by decide), keep (by decide) (at_ 3 rfl rfl)⟩
          (.cons ⟨number_none (by decide), keep (by decide) (at_ 4 rfl rfl)⟩ (.cons ⟨number_none (by decide), keep (by decide) (at_ 5 rfl rfl)⟩
            (.cons ⟨number_none (by decide), keep (by decide) (at_ 6 rfl rfl)⟩ (.cons ⟨number_none (by decide), keep (by decide) (at_ 7 rfl rfl)⟩
              (.cons ⟨number_none (by decide), keep (by decide) (at_ 8 rfl rfl)⟩ .nil)))))))))
    have hi : iterCall (.call (nameExpr (dtFnName true k)) (solverArgs true k)) = none := by
      have : (dtFnName true k).toList ≠ "iter".toList := by
        intro e
        have h' : some '_' = "iter".toList.head? := by
          rw [← e]
          unfold dtFnName
          simp only [String.toList_append, List.append_assoc]
          rfl
        exact absurd h' (by decide)
      have hsa : solverArgs true k = nameExpr "A" :: (["N", "ansatz", "trunc", "epsilon", "h_args", "t_args", "dt_args", "w_args"].map nameExpr ++
          ["opt_epsilon_path_list", "opt_linked_path_list", "opt_unlinked_path_list"].map fun w => .index (nameExpr w) [natWord (k - 1)]) := rfl
      rw [hsa]
      unfold nameExpr
      simp only [iterCall, if_neg this]
    have hc : callable (PyIter.known (moduleAst n)) (.call (nameExpr (dtFnName true k)) (solverArgs true k)) = true := by
      unfold nameExpr callable
      exact known_of_mem (by rw [names_moduleAst]; exact nodup_fnNames n hn) (mem_dtFn_opt (n := n) (k := k) h1 hk)
    have hargs : evalList ⟨vs, []⟩ (solverArgs true k) = (match E1[k - 1]? with | none => .error .index | some v => .ok (inputs A N env h t dt w ε ++ [v, v1, v2])) := by
      have g2 := eval_index_list (R := R) (E := ⟨vs, []⟩) (w := "opt_linked_path_list") (number_none (by decide)) (l := L1) (i := k - 1) w2 hv1
      have g3 := eval_index_list (R := R) (E := ⟨vs, []⟩) (w := "opt_unlinked_path_list") (number_none (by decide)) (l := L2) (i := k - 1) w3 hv2
      have e : solverArgs true k = ["A", "N", "ansatz", "trunc", "epsilon", "h_args", "t_args", "dt_args", "w_args"].map nameExpr ++
        [.index (nameExpr "opt_epsilon_path_list") [natWord (k - 1)], .index (nameExpr "opt_linked_path_list") [natWord (k - 1)], .index (nameExpr "opt_unlinked_path_list") [natWord (k - 1)]] := rfl
      rw [e, evalList_ok_append hl]
      cases he : E1[k - 1]? with
      | none =>
        have g1 := eval_index_missing (R := R) (E := ⟨vs, []⟩) (w := "opt_epsilon_path_list") (number_none (by decide)) w1 he
        rw [evalList, g1]
        rfl
      | some v =>
        have g1 := eval_index_list (R := R) (E := ⟨vs, []⟩) (w := "opt_epsilon_path_list") (number_none (by decide)) w1 he
        rw [evalList, g1, evalList, g2, evalList, g3, evalList]
        rfl
    have hx : execS (PyIter.known (moduleAst n)) (callWithS other (moduleAst n) depth) ⟨vs, []⟩ (.assign [(dtString k).toList] (.call (nameExpr (dtFnName true k)) (solverArgs true k))) =
        match (match E1[k - 1]? with
          | none => Except.error PyErr.index
          | some v => callWithS other (moduleAst n) depth (dtFnName true k).toList (inputs A N env h t dt w ε ++ [v, v1, v2]) []) with
        | .error e => .error e
        | .ok r => .ok (none, ⟨Spec.PyRun.set vs (dtString k).toList r.1, r.2⟩) := by
      rw [execS_assign hi hc, exec, nameExpr, evalTop, hargs]
      cases E1[k - 1]? <;> rfl
    generalize (match E1[k - 1]? with
          | none => Except.error PyErr.index
          | some v => callWithS other (moduleAst n) depth (dtFnName true k).toList (inputs A N env h t dt w ε ++ [v, v1, v2]) []) = r at hx ⊢
    cases r with
    | error e => rw [execAllS, hx]
    | ok r =>
      rw [execAllS_cons hx, execAllS, execS_ret rfl, exec]
      simp only [nameExpr, evalTop, eval, number_dt, set_same, Except.map]
      rfl

/-- with all ranks up to the order, the optimised function does what the other function does -/
theorem call_solver_opt (hn : n ≤ 6) (h1 : 1 ≤ k) (hk : k ≤ n) (depth : Nat) {resFns : List TF.Residual.Fn}
    (hres : other ("residual_equations".toList ++ '.' :: (residualName k).toList) (Spec.ResidualCall.inputs A N env.res h w) [] =
      (runResidual env.res resFns k).map fun ls => (.ref 0, [tensor A N k (residualValue A N h w ls)])) (hfl : env.res.fl k = true → ∀ j, 1 ≤ j → j ≤ k → env.res.fl j = true) :
    Returns (callWithS other (moduleAst n) (depth + 3) (solverName true k).toList (inputs A N env h t dt w ε ++ [.list (pathLists A N n env.res.fl)]) [])
      ((runSolver DEinsum.ts env resFns ((range2 1 (n + 1)).map (linkedAt mkDs)) ((range2 1 (n + 1)).map (unlinkedAt mkDs)) ((range2 1 (n + 1)).map dtFnAt) (range2 1 (n + 1)) k).map
        fun r => tensor A N k (returned A N h t dt w ε r)) := by
  have hrs : runSolver DEinsum.ts env resFns ((range2 1 (n + 1)).map (linkedAt mkDs)) ((range2 1 (n + 1)).map (unlinkedAt mkDs)) ((range2 1 (n + 1)).map dtFnAt) (range2 1 (n + 1)) k =
      if !env.res.fl k then .error .exception
      else runFunction DEinsum.ts env resFns ((range2 1 (n + 1)).map (linkedAt mkDs)) ((range2 1 (n + 1)).map (unlinkedAt mkDs)) (dtFnAt k) := by
    unfold runSolver
    rw [List.getElem?_map, getElem_range2 h1 hk]
    rfl
  have hs := call_solver_start (other := other) (env := env) (A := A) (N := N) (h := h) (t := t) (dt := dt) (w := w) (ε := ε) (E1 := epsVals A N env.res.fl (range2 1 (n + 1))) hn h1 hk (depth + 2)
    (linked_result (A := A) (N := N) (fl := env.res.fl) h1 hk) (unlinked_result (A := A) (N := N) (fl := env.res.fl) h1 hk hn)
  unfold inputsS at hs
  rw [show pathLists (R := R) A N n env.res.fl = [.list (epsVals A N env.res.fl (range2 1 (n + 1))), .list (sideResult A N env.res.fl (linkedPathsAt n)),
    .list (sideResult A N env.res.fl (unlinkedPathsAt n))] from rfl, hs, hrs]
  cases hf : env.res.fl k with
  | false => exact rfl
  | true =>
    rw [epsVals_all h1 hk (hfl hf)]
    simp only [Bool.not_true, Bool.false_eq_true, if_false]
    exact call_dtFn_opt hn h1 hk depth hres (lists_for h1 hk fun j j1 j2 => hfl hf j j1 (by omega))

/-- without a rank below the order, the optimised function does not return -/
theorem call_solver_bad (hn : n ≤ 6) (h1 : 1 ≤ k) (hk : k ≤ n) (depth : Nat) {resFns : List TF.Residual.Fn}
    (hres : other ("residual_equations".toList ++ '.' :: (residualName k).toList) (Spec.ResidualCall.inputs A N env.res h w) [] =
      (runResidual env.res resFns k).map fun ls => (.ref 0, [tensor A N k (residualValue A N h w ls)])) {j : Nat} (hj1 : 1 ≤ j) (hjk : j ≤ k) (hj : env.res.fl j = false) :
    ∃ e, callWithS other (moduleAst n) (depth + 3) (solverName true k).toList (inputs A N env h t dt w ε ++ [.list (pathLists A N n env.res.fl)]) [] = .error e := by
  have hs := call_solver_start (other := other) (env := env) (A := A) (N := N) (h := h) (t := t) (dt := dt) (w := w) (ε := ε) (E1 := epsVals A N env.res.fl (range2 1 (n + 1))) hn h1 hk (depth + 2)
    (linked_result (A := A) (N := N) (fl := env.res.fl) h1 hk) (unlinked_result (A := A) (N := N) (fl := env.res.fl) h1 hk hn)
  unfold inputsS at hs
  rw [show pathLists (R := R) A N n env.res.fl = [.list (epsVals A N env.res.fl (range2 1 (n + 1))), .list (sideResult A N env.res.fl (linkedPathsAt n)),
    .list (sideResult A N env.res.fl (unlinkedPathsAt n))] from rfl, hs]
  cases hf : env.res.fl k with
  | false => exact ⟨_, rfl⟩
  | true =>
    simp only [Bool.not_true, Bool.false_eq_true, if_false]
    rcases epsVals_missing (R := R) (A := A) (N := N) h1 hk hj1 hjk hj with e | ⟨m, hm, e⟩
    · rw [e]
      exact ⟨_, rfl⟩
    · rw [e]
      exact call_dtFn_bad hn h1 hk depth hres (epsilonSubs m) (shapes_ne hm) (sideGet A N n env.res.fl k)

end

end TF.Dt
