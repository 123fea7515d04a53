import Verif.Lemmas.WIterRun

/-!
# Running the text of a generated W module: the optimised functions of the orders
-/

namespace TF.W

set_option maxRecDepth 10000

open TF.Py TF.Helper TF.Spec TF.Spec.Source TF.Spec.PyRun TF.Spec.PyIter TF.Spec.Tensor TF.Spec.WCall
open TF.Spec.W (Done Multiplies einsumValue added returned overFactorials)
open TF.Spec.ResidualCall (tensor)

variable {R : Type} [CommRing R] [Algebra Rat R]

theorem mem_vemx_opt {n k : Nat} (h1 : 1 ≤ k) (h2 : k ≤ n) : contributionsAst callReading .vemx true k (vemxAt (fun _ => Call.mk) k) ∈ moduleAst n := by
  have : k ∈ range2 1 (n + 1) := mem_range2.2 ⟨h1, by omega⟩
  have := List.mem_map_of_mem (f := fun k => contributionsAst callReading .vemx true k (vemxAt (fun _ => Call.mk) k)) this
  unfold moduleAst
  iterate 5 refine List.mem_append_left _ ?_
  exact List.mem_append_right _ this

theorem mem_vecc_opt {n k : Nat} (h1 : 1 ≤ k) (h2 : k ≤ n) : contributionsAst callReading .vecc true k (veccAt (fun _ => Call.mk) k) ∈ moduleAst n := by
  have : k ∈ range2 1 (n + 1) := mem_range2.2 ⟨h1, by omega⟩
  have := List.mem_map_of_mem (f := fun k => contributionsAst callReading .vecc true k (veccAt (fun _ => Call.mk) k)) this
  unfold moduleAst
  iterate 4 refine List.mem_append_left _ ?_
  exact List.mem_append_right _ this

theorem mem_wFn_opt {n k : Nat} (h1 : 1 ≤ k) (h2 : k ≤ n) : wFnAst true k ∈ moduleAst n := by
  have : k ∈ range2 1 (n + 1) := mem_range2.2 ⟨h1, by omega⟩
  have := List.mem_map_of_mem (f := wFnAst true) this
  unfold moduleAst
  iterate 3 refine List.mem_append_left _ ?_
  exact List.mem_append_right _ this

theorem mem_master_opt (n : Nat) : masterAst true ∈ moduleAst n := by
  have : masterAst true ∈ [masterAst true] := by simp
  unfold moduleAst
  iterate 2 refine List.mem_append_left _ ?_
  exact List.mem_append_right _ this

theorem mem_paths_vemx (n : Nat) : pathsAst .vemx (vemxPathsOf n) ∈ moduleAst n := by
  unfold moduleAst
  refine List.mem_append_left _ ?_
  exact List.mem_append_right _ (by simp)

theorem mem_paths_vecc (n : Nat) : pathsAst .vecc (veccPathsOf n) ∈ moduleAst n := by
  unfold moduleAst
  exact List.mem_append_right _ (by simp)

section
variable {A N k n i : Nat} {env : Spec.W.Env} {t : Nat → Arr R} {vars : List Char → Option (Val R)} {fs : Functions R} {known : List Char → Bool}

theorem known_of_mem {L : List Spec.Source.Stmt} (hn : (L.filterMap nameOf).Nodup) {f : List Char} {ps : List (List Char)} {b : List Spec.Source.Stmt} (h : .defn f ps b ∈ L) :
    PyIter.known L f = true := by
  unfold PyIter.known
  rw [lookup_of_nodup hn h]
  rfl

theorem call_vemx_opt (hn : n ≤ 6) (h2 : 2 ≤ k) (hk : k ≤ n) (ht : k ≤ env.tlen) (depth : Nat) {heap : List (NArr R)} {x : Arr R}
    (hx : heap[i]? = some ⟨A :: A :: List.replicate k N, x⟩) :
    callS (moduleAst n) (depth + 1) (contributionsName .vemx true k).toList [.ref i, amplitudes A N env t, truncation env, .list (pathVals A N env (mkE k) (linkedPartitions k))] heap =
      .ok (.none, heap.set i ⟨A :: A :: List.replicate k N, fun v => x v + added A N t (((linkedPartitions k).filter (live env.fl)).map (doneOf (mkE k))) v⟩) := by
  have hl := lookup_of_nodup (by rw [names_moduleAst]; exact nodup_fnNames n hn) (mem_vemx_opt (n := n) (k := k) (by omega) hk)
  have e : vemxAt (fun _ => Call.mk) k = ⟨range2 1 (k - 1 + 1), some ((linkedPartitions k).map (blk Call.mk))⟩ := by
    unfold vemxAt
    rw [if_neg (by omega), if_neg (by omega), show k - 1 + 1 = k by omega]
  rw [e] at hl
  refine call_parts_opt (m := k - 1) (fun _ => rfl) hl (globals_factorial n) (by omega) (by omega) ?_ hx
  intro p hp
  obtain ⟨h3, h4⟩ := linked_mem (k := k) (by omega) p hp
  have hg := good_blk einsumReading (mkE k) (k := k) (by omega) (by omega) h3 h4 fun c hc => good_einsum (by omega) (by omega) h3 c hc
  refine ⟨fun g hg' => hg.gate g hg', hg.pref, fun c hc => runs_mkE (by omega) (by omega) h3 (fun x hx => ?_) hc⟩
  have := part_linked h3 h4 hx
  omega

theorem call_vecc_opt (hn : n ≤ 6) (h2 : 4 ≤ k) (hk : k ≤ n) (ht : k ≤ env.tlen) (depth : Nat) {heap : List (NArr R)} {x : Arr R}
    (hx : heap[i]? = some ⟨A :: A :: List.replicate k N, x⟩) :
    callS (moduleAst n) (depth + 1) (contributionsName .vecc true k).toList [.ref i, amplitudes A N env t, truncation env, .list (pathVals A N env (mkE k) (unlinkedPartitions k))] heap =
      .ok (.none, heap.set i ⟨A :: A :: List.replicate k N, fun v => x v + added A N t (((unlinkedPartitions k).filter (live env.fl)).map (doneOf (mkE k))) v⟩) := by
  have hl := lookup_of_nodup (by rw [names_moduleAst]; exact nodup_fnNames n hn) (mem_vecc_opt (n := n) (k := k) (by omega) hk)
  have e : veccAt (fun _ => Call.mk) k = ⟨range2 1 (k - 2 + 1), some ((unlinkedPartitions k).map (blk Call.mk))⟩ := by
    unfold veccAt
    rw [if_neg (by omega), if_neg (by omega), show k - 2 + 1 = k - 1 by omega]
  rw [e] at hl
  refine call_parts_opt (m := k - 2) (fun _ => rfl) hl (globals_factorial n) (by omega) (by omega) ?_ hx
  intro p hp
  obtain ⟨h3, h4⟩ := unlinked_mem (k := k) (by omega) p hp
  have hg := good_blk einsumReading (mkE k) (k := k) (by omega) (by omega) h3 h4 fun c hc => good_einsum (by omega) (by omega) h3 c hc
  refine ⟨fun g hg' => hg.gate g hg', hg.pref, fun c hc => runs_mkE (by omega) (by omega) h3 (fun x hx => ?_) hc⟩
  have hp' := (unlinked_exact k (by omega) p).1 hp
  have := part_unlinked h2 hp'.1 hp'.2 hx
  omega

/-! ## The function of an order -/

theorem adds_veci_opt (sc : Scope A N k k env t i vars) (h2 : 2 ≤ k) (h6 : k ≤ 6) :
    AddsG known fs vars vars i (A :: A :: List.replicate k N)
      [.cond (Reading.gateExpr ((orderTags[k]?).getD "")) [.add (wName k).toList (.prod (prefTerm [k] (nameExpr (tString k))))] []] (added A N t (veciDone env k)) := by
  have hm : maxPart [k] = k := rfl
  have e1 : live env.fl [k] = env.fl k := by
    unfold live gateOf
    rw [hm, if_pos (by omega)]
    rfl
  have e2 : prefOf [k] = [k] := by
    unfold prefOf
    rw [hm, if_neg (by omega), if_neg (by omega)]
    rfl
  unfold veciDone
  rw [e1, e2]
  refine AddsG.branch (fun heap => eval_flag sc.truncation (by omega) h6 heap) ?_ ?_
  · intro hfl
    rw [if_pos hfl]
    have hp : plain vars (.prod (prefTerm [k] (nameExpr (tString k)))) = true := by
      have hd : plain vars (denomExpr [k]) = true := plain_denom sc.factorial (by simp)
      simp only [prefTerm, nameExpr, plain, plainL, hd, Bool.and_self]
    refine (AddsG.of (fun heap => execS_add hp) ((adds_array (k := k) (y := fun v => overFactorials [k] • t k v) sc.W fun heap => ?_))).cast (added_direct A N t [k] k).symm
    exact eval_pref sc.factorial heap (by simp) (x := tensor A N k (t k)) (by simp only [nameExpr, eval, number_t, sc.t k (by omega) (by omega)])
  · intro hfl
    rw [if_neg (by simp [hfl])]
    exact AddsG.nil.cast (added_nil A N t).symm

theorem adds_call_opt {f w : String} {p : Val R} {y : Arr R} (hf : known f.toList = true) (hW : vars (wName k).toList = some (.ref i)) (ht : vars "t_args".toList = some (amplitudes A N env t))
    (htr : vars "truncation".toList = some (truncation env)) (hw : number w.toList = none) (hp : vars w.toList = some p)
    (h : ∀ (heap : List (NArr R)) (x : Arr R), heap[i]? = some ⟨A :: A :: List.replicate k N, x⟩ →
      fs f.toList [.ref i, amplitudes A N env t, truncation env, p] heap = .ok (.none, heap.set i ⟨A :: A :: List.replicate k N, fun v => x v + y v⟩)) :
    AddsG known fs vars vars i (A :: A :: List.replicate k N)
      [.expr (.call (nameExpr f) [nameExpr (wName k), nameExpr "t_args", nameExpr "truncation", nameExpr w])] y := by
  refine AddsG.of (fun heap => execS_expr rfl hf) ?_
  intro heap x hx
  obtain ⟨l, hwl⟩ := wName_head k
  suffices hl : evalList ⟨vars, heap⟩ (([wName k, "t_args", "truncation", w] : List String).map nameExpr) = .ok [.ref i, amplitudes A N env t, truncation env, p] by
    have := exec_call (fs := fs) (f := f) hl (h heap x hx)
    simp only [List.map_cons, List.map_nil] at this
    rw [execAll_cons this, Spec.PyRun.execAll]
  exact evalList_names (.cons ⟨by rw [hwl]; exact number_none (by simp), hW⟩ (.cons ⟨number_none (by decide), ht⟩ (.cons ⟨number_none (by decide), htr⟩ (.cons ⟨hw, hp⟩ .nil))))

theorem adds_ansatz_opt (hn : n ≤ 6) (h2 : 2 ≤ k) (hk : k ≤ n) (ht : k ≤ env.tlen) (depth : Nat) (hW : vars (wName k).toList = some (.ref i))
    (hta : vars "t_args".toList = some (amplitudes A N env t)) (htr : vars "truncation".toList = some (truncation env)) (ha : vars "ansatz".toList = some (ansatz env))
    (hp1 : vars "vemx_opt_path_list".toList = some (.list (pathVals A N env (mkE k) (linkedPartitions k))))
    (hp2 : vars "vecc_opt_path_list".toList = some (.list (pathVals A N env (mkE k) (unlinkedPartitions k)))) :
    AddsG (PyIter.known (moduleAst n)) (callS (moduleAst n) (depth + 1)) vars vars i (A :: A :: List.replicate k N) [ansatzAst true k (decide (4 ≤ k))]
      (added A N t (mixedDone mkE env k ++ ccDone mkE env k)) := by
  have hnd : ((moduleAst n).filterMap nameOf).Nodup := by rw [names_moduleAst]; exact nodup_fnNames n hn
  have c1 : AddsG (PyIter.known (moduleAst n)) (callS (moduleAst n) (depth + 1)) vars vars i (A :: A :: List.replicate k N) [callAst .vemx true k]
      (added A N t (((linkedPartitions k).filter (live env.fl)).map (doneOf (mkE k)))) :=
    adds_call_opt (known_of_mem hnd (mem_vemx_opt (by omega) hk)) hW hta htr (number_none (by decide)) hp1 fun heap x hx => call_vemx_opt hn h2 hk ht depth hx
  unfold ansatzAst mixedDone ccDone
  refine AddsG.branch (fun heap => (eval_ansatz ha heap).1) ?_ ?_
  · intro hm
    simpa [hm] using c1
  · intro hm
    refine AddsG.branch (fun heap => (eval_ansatz ha heap).2) ?_ ?_
    · intro hc
      simp only [hm, hc, Bool.or_true, if_true, Bool.not_false, Bool.and_self]
      rw [added_append]
      refine AddsG.append (a := [callAst .vemx true k]) c1 ?_
      by_cases h4 : 4 ≤ k
      · rw [decide_eq_true h4, if_pos rfl]
        exact adds_call_opt (known_of_mem hnd (mem_vecc_opt (by omega) hk)) hW hta htr (number_none (by decide)) hp2 fun heap x hx => call_vecc_opt hn h4 hk ht depth hx
      · rw [decide_eq_false h4, if_neg (by simp), unlinked_lt (by omega)]
        exact AddsG.pass.cast (added_nil A N t).symm
    · intro hc
      simp only [hm, hc, Bool.or_self, Bool.false_eq_true, if_false, Bool.and_false]
      exact AddsG.nil.cast (added_nil A N t).symm

theorem callS_symmetrize (hn : n ≤ 6) (depth : Nat) {heap : List (NArr R)} {x : Arr R} (hx : heap[i]? = some ⟨A :: A :: List.replicate k N, x⟩) :
    callS (moduleAst n) (depth + 1) "symmetrize_tensor".toList [.num N, .ref i, .kw "order".toList (.num k)] heap = .ok (.arr ⟨A :: A :: List.replicate k N, symSum k x⟩, heap) := by
  rw [callS]
  simp only [lookup_none (l := moduleAst n) (by rw [names_moduleAst]; exact symmetrize_not_mem n hn), globals_symmetrize]
  have : "symmetrize_tensor".toList ≠ "log.warning".toList := by decide
  rw [if_neg (fun h => this h.1)]
  unfold callImported
  rw [if_neg (by simp), if_pos (by simp)]
  simp only [natural_nat, array, hx]
  rw [if_pos trivial, if_pos (by simp)]
  rfl

theorem known_symmetrize (n : Nat) : PyIter.known (moduleAst n) "symmetrize_tensor".toList = true := by
  unfold PyIter.known
  rw [globals_symmetrize]
  simp

theorem iterCall_symmetrize {args : List Expr} : iterCall (.call (nameExpr "symmetrize_tensor") args) = none := by
  have h : "symmetrize_tensor".toList ≠ "iter".toList := by decide
  simp only [nameExpr, iterCall, if_neg h]

theorem callable_symmetrize (n : Nat) {args : List Expr} : callable (PyIter.known (moduleAst n)) (.call (nameExpr "symmetrize_tensor") args) = true := by
  unfold nameExpr callable
  exact known_symmetrize n

/-- a call of the optimised function of an order -/
theorem call_wFn_opt (hn : n ≤ 6) (h1 : 1 ≤ k) (hk : k ≤ n) (depth : Nat) (heap : List (NArr R)) :
    callS (moduleAst n) (depth + 2) (wFnName true k).toList
        (inputs A N env t ++ [.list (pathVals A N env (mkE k) (linkedPartitions k)), .list (pathVals A N env (mkE k) (unlinkedPartitions k))]) heap =
      if env.tlen < k then .error .value else .ok (valueAt A N env t heap.length k, heap ++ [tensor A N k (addedAt A N env t k)]) := by
  have hl := lookup_of_nodup (by rw [names_moduleAst]; exact nodup_fnNames n hn) (mem_wFn_opt (n := n) (k := k) h1 hk)
  rw [callS]
  simp only [hl]
  rw [if_pos (by rfl)]
  set vars := setAll (globals (R := R) (moduleAst n)) ((wParams true).map String.toList)
    (inputs A N env t ++ [.list (pathVals A N env (mkE k) (linkedPartitions k)), .list (pathVals A N env (mkE k) (unlinkedPartitions k))]) with hvars
  have v1 : vars "A".toList = some (.num A) := by rw [hvars]; exact setAll_at (n := 0) (by decide) rfl rfl
  have v2 : vars "N".toList = some (.num N) := by rw [hvars]; exact setAll_at (n := 1) (by decide) rfl rfl
  have v3 : vars "t_args".toList = some (amplitudes A N env t) := by rw [hvars]; exact setAll_at (n := 2) (by decide) rfl rfl
  have v4 : vars "ansatz".toList = some (ansatz env) := by rw [hvars]; exact setAll_at (n := 3) (by decide) rfl rfl
  have v5 : vars "truncation".toList = some (truncation env) := by rw [hvars]; exact setAll_at (n := 4) (by decide) rfl rfl
  have v7 : vars "vemx_opt_path_list".toList = some (.list (pathVals A N env (mkE k) (linkedPartitions k))) := by rw [hvars]; exact setAll_at (n := 5) (by decide) rfl rfl
  have v8 : vars "vecc_opt_path_list".toList = some (.list (pathVals A N env (mkE k) (unlinkedPartitions k))) := by rw [hvars]; exact setAll_at (n := 6) (by decide) rfl rfl
  have v6 : vars "factorial".toList = some (.imported [.word "math".toList] "factorial".toList) := by
    rw [hvars, setAll_other (by decide), globals_factorial]
  unfold wBody
  simp only [List.cons_append, List.nil_append]
  rw [execAllS_cons (E' := ⟨vars, heap⟩) (by rw [execS, exec] <;> simp)]
  have hunpack : execS (PyIter.known (moduleAst n)) (callS (moduleAst n) (depth + 1)) ⟨vars, heap⟩ (unpackAst (range2 1 (k + 1))) =
      if k ≤ env.tlen then .ok (none, ⟨tVars vars A N env t k, heap⟩) else .error .value := by
    have := exec_unpack (fs := callS (moduleAst n) (depth + 1)) v3 heap k
    unfold unpackAst at this ⊢
    rw [execS, this] <;> simp
  by_cases ht : env.tlen < k
  · rw [execAllS, hunpack, if_neg (by omega), if_pos ht]
  rw [if_neg ht, execAllS_cons (E' := ⟨tVars vars A N env t k, heap⟩) (by rw [hunpack, if_pos (by omega)])]
  have a1 : number "A".toList = Option.none := number_none (by decide)
  have a2 : number "N".toList = Option.none := number_none (by decide)
  have hz := exec_zerosAt (fs := callS (moduleAst n) (depth + 1)) (vars := tVars vars A N env t k) (heap := heap) (ws := "A" :: "A" :: List.replicate k "N") (ns := A :: A :: List.replicate k N) (by simp)
    (by
      have hA := (tVars_other (A := A) (N := N) (env := env) (t := t) (m := k) (vars := vars) (w := "A".toList) (by decide) (by decide)).trans v1
      have hN := (tVars_other (A := A) (N := N) (env := env) (t := t) (m := k) (vars := vars) (w := "N".toList) (by decide) (by decide)).trans v2
      refine .cons ⟨a1, hA⟩ (.cons ⟨a1, hA⟩ ?_)
      rw [List.forall₂_iff_get]
      refine ⟨by simp, fun i h1 h2 => ?_⟩
      simp only [List.get_eq_getElem, List.getElem_replicate]
      exact ⟨a2, hN⟩) (wName k).toList
  rw [execAllS_cons (show execS _ _ _ (zeroW k) = _ from (execS_assign rfl rfl).trans hz)]
  set vars2 := Spec.PyRun.set (tVars vars A N env t k) (wName k).toList (.ref heap.length) with hvars2
  obtain ⟨l, hwl⟩ := wName_head k
  have keep : ∀ w : List Char, w.head? ≠ some 'W' → w.take 3 ≠ ['t', '_', 'i'] → w ≠ "unusedargs".toList → vars2 w = vars w := by
    intro w hw h1 h2
    rw [hvars2, set_other _ _ (by rintro rfl; rw [hwl] at hw; simp at hw), tVars_other h1 h2]
  have sc : Scope A N k k env t heap.length vars2 := by
    refine ⟨by rw [hvars2, set_same], (keep _ (by decide) (by decide) (by decide)).trans v5, fun n h1 h2 => ?_, (keep _ (by decide) (by decide) (by decide)).trans v6⟩
    rw [hvars2, set_other _ _ (by rw [hwl, tString_toList]; simp)]
    exact tVars_t (by omega) (by omega) h1 h2
  have hx : (heap ++ [(⟨A :: A :: List.replicate k N, fun _ => 0⟩ : NArr R)])[heap.length]? = some ⟨A :: A :: List.replicate k N, fun _ => 0⟩ := by simp
  have nW : number (wName k).toList = Option.none := by rw [hwl]; exact number_none (by simp)
  by_cases hk1 : k = 1
  · subst hk1
    rw [if_pos rfl]
    have hadd : AddsG (PyIter.known (moduleAst n)) (callS (moduleAst n) (depth + 1)) vars2 vars2 heap.length (A :: A :: List.replicate 1 N) [.add (wName 1).toList (nameExpr (tString 1))]
        (addedAt A N env t 1) := by
      refine (AddsG.of (fun heap => execS_add rfl)
        (adds_array (k := 1) (y := t 1) sc.W fun heap => by simp only [nameExpr, eval, number_t, sc.t 1 (by omega) (by omega)]; rfl)).cast ?_
      unfold addedAt mixedDone ccDone
      rw [linked_one, unlinked_lt (by omega)]
      have e1 : (veciDone env 1 : List (Done Einsum)) = [⟨[], some 1, []⟩] := rfl
      rw [e1]
      simp only [List.filter_nil, List.map_nil, ite_self, List.append_nil]
      rw [added_direct]
      funext v
      simp [overFactorials]
    rw [show ∀ a b : Spec.Source.Stmt, [a, b] = [a] ++ [b] from fun _ _ => rfl, execAllS_then (hadd _ _ hx), execAllS, execS_ret rfl, exec, set_last]
    simp only [nameExpr, evalTop, eval, nW, sc.W, Except.map, zero_add]
    rfl
  · rw [if_neg hk1]
    have h2 : 2 ≤ k := by omega
    have hadd := (adds_veci_opt (known := PyIter.known (moduleAst n)) (fs := callS (moduleAst n) (depth + 1)) sc h2 (by omega)).append
      (adds_ansatz_opt (A := A) (N := N) (i := heap.length) (env := env) (t := t) hn h2 hk (by omega) depth sc.W
      ((keep _ (by decide) (by decide) (by decide)).trans v3) sc.truncation ((keep _ (by decide) (by decide) (by decide)).trans v4)
      ((keep _ (by decide) (by decide) (by decide)).trans v7) ((keep _ (by decide) (by decide) (by decide)).trans v8))
    have e := hadd _ _ hx
    rw [← added_append] at e
    simp only [List.cons_append, List.nil_append] at e
    rw [show ∀ a b c d : Spec.Source.Stmt, [a, b, c, d] = [a, b] ++ [c, d] from fun _ _ _ _ => rfl, execAllS_then e, set_last]
    simp only [zero_add]
    have e2 : added A N t (veciDone env k ++ (mixedDone mkE env k ++ ccDone mkE env k)) = addedAt A N env t k := by unfold addedAt; rw [List.append_assoc]
    rw [e2]
    have hy : (heap ++ [(⟨A :: A :: List.replicate k N, addedAt A N env t k⟩ : NArr R)])[heap.length]? = some ⟨A :: A :: List.replicate k N, addedAt A N env t k⟩ := by simp
    have hs : execS (PyIter.known (moduleAst n)) (callS (moduleAst n) (depth + 1)) ⟨vars2, heap ++ [(⟨A :: A :: List.replicate k N, addedAt A N env t k⟩ : NArr R)]⟩ (symAst k) =
        .ok (none, ⟨Spec.PyRun.set vars2 "symmetric_w".toList (.arr (tensor A N k (symSum k (addedAt A N env t k)))),
          heap ++ [(⟨A :: A :: List.replicate k N, addedAt A N env t k⟩ : NArr R)]⟩) := by
      unfold symAst
      rw [execS_assign iterCall_symmetrize (callable_symmetrize n), exec]
      have vN := (keep "N".toList (by decide) (by decide) (by decide)).trans v2
      simp only [nameExpr, natWord, evalTop, evalList, eval, a2, vN, nW, sc.W, number_nat, Except.map, callS_symmetrize hn depth hy]
      rfl
    rw [execAllS_cons hs, execAllS, execS_ret rfl, exec]
    have ns : number "symmetric_w".toList = Option.none := number_none (by decide)
    simp only [nameExpr, evalTop, eval, ns, set_same, Except.map]
    unfold valueAt
    rw [if_neg hk1]
    rfl

end

end TF.W
