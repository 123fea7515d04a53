import Verif.Lemmas.DtSourceCall
import Verif.Lemmas.WIterPaths
import Verif.Spec.DtIter

/-!
# Running the text of a generated module of the amplitude derivatives: the optimised disconnected terms
-/

namespace TF.Dt

set_option maxRecDepth 10000

open TF.Py TF.Helper TF.W TF.Spec TF.Spec.Source TF.Spec.PyRun TF.Spec.PyIter TF.Spec.Tensor TF.Spec.DtCall TF.Spec.DtIter
open TF.Spec.Dt (MultipliesD einsumValue disconnected returned residualValue)
open TF.Spec.W (overFactorials)
open TF.Spec.ResidualCall (tensor truncation)

variable {R : Type} [CommRing R] [Algebra Rat R]

/-- the optimised expression of a product -/
def dExprOf (A N : Nat) (e : DEinsum) : Val R := .expression (subsText e.subs e.out) (e.ts.map fun o => A :: A :: List.replicate o.n N)

section
variable {A N k m n i : Nat} {t dt : Nat → Arr R} {vars : Vars R} {side : Side} {known : List Char → Bool} {fs other : Functions R}

omit [CommRing R] [Algebra Rat R] in
theorem itVars_dScope (sc : Scope A N m t dt side i vars) (l : List (Val R)) : Scope A N m t dt side i (itVars vars l) := by
  have h1 : side.array.toList ≠ itName := by cases side <;> decide
  have h2 : "factorial".toList ≠ itName := by decide
  have h3 : ∀ n, (tString n).toList ≠ itName := by
    intro n h
    rw [tString_toList] at h
    have h' : some 't' = itName.head? := congrArg List.head? h
    exact absurd h' (by decide)
  have h4 : ∀ n, (dtString n).toList ≠ itName := by
    intro n h
    rw [dtString_toList] at h
    have h' : some 'd' = itName.head? := congrArg List.head? h
    exact absurd h' (by decide)
  constructor
  · rw [itVars_other l h1]
    exact sc.array
  · intro n a b
    rw [itVars_other l (h3 n)]
    exact sc.t n a b
  · intro n a b
    rw [itVars_other l (h4 n)]
    exact sc.dt n a b
  · rw [itVars_other l h2]
    exact sc.factorial

theorem eval_dNext (sc : Scope A N m t dt side i vars) (heap : List (NArr R)) {e : DEinsum} (h : Runs k m e) (rest : List (Val R)) :
    evalS ⟨itVars vars (dExprOf A N e :: rest), heap⟩ (dCallExpr ⟨e.ts⟩) = .ok (.arr (tensor A N k (einsumValue A N t dt e)), itVars vars rest) := by
  obtain ⟨mid, vs, hm⟩ := h.multiplies
  have hl : evalList ⟨itVars vars rest, heap⟩ (e.ts.map fun o => nameExpr o.render) = .ok ((e.ts.map fun o => tensor A N o.n (if o.der then dt o.n else t o.n)).map .arr) := by
    have := evalList_names (vars := itVars vars rest) (heap := heap) (ws := e.ts.map Operand.render) (vs := (e.ts.map fun o => tensor A N o.n (if o.der then dt o.n else t o.n)).map .arr) (by
      rw [List.map_map, List.forall₂_map_left_iff, List.forall₂_map_right_iff]
      exact List.forall₂_same.2 fun o ho => operand_value (itVars_dScope sc rest) (h.names o ho).1 (h.names o ho).2)
    rw [List.map_map] at this
    exact this
  have he := einsum_arrays hm h.good A N (xs := e.ts.map fun o => if o.der then dt o.n else t o.n) (by simp)
  simp only [List.zipWith_map, List.zipWith_self, h.sum] at he
  have hc : dCallExpr ⟨e.ts⟩ = .call nextExpr (e.ts.map fun o => nameExpr o.render) := by
    unfold dCallExpr
    have := hm.chain_length
    cases hts : e.ts with
    | nil => rw [hts] at this; simp at this
    | cons n ts => rfl
  have hs : (e.ts.map fun o => tensor A N o.n (if o.der then dt o.n else t o.n)).map NArr.shape = e.ts.map fun o => A :: A :: List.replicate o.n N := by
    rw [List.map_map]
    rfl
  rw [hc, evalS]
  simp only [nextExpr, nameExpr, evalCall, if_true]
  unfold callNext
  have e2 : Spec.PyRun.set (itVars vars (dExprOf A N e :: rest)) "optimized_einsum".toList (.iter rest) = itVars vars rest := set_set _ _ _ _
  have e1 : itVars vars (dExprOf A N e :: rest) "optimized_einsum".toList = some (.iter (dExprOf A N e :: rest)) := itVars_same _
  simp only [nameExpr] at hl
  have e3 : applyExpression heap (dExprOf A N e) ((e.ts.map fun o => tensor A N o.n (if o.der then dt o.n else t o.n)).map .arr) = .ok (.arr (tensor A N k (einsumValue A N t dt e))) := by
    simp only [applyExpression, dExprOf, arrays_arr, hs, if_true, he, Except.map]
    rfl
  simp only [e1, e2, hl, e3, Except.map]

theorem addAll_dNext (sc : Scope A N m t dt side i vars) (heap : List (NArr R)) (rest : List (Val R)) : ∀ {l : List DEinsum} {y : Arr R}, (∀ e ∈ l, Runs k m e) →
    addAllS ⟨itVars vars (l.map (dExprOf A N) ++ rest), heap⟩ (.arr (tensor A N k y)) (l.map fun e => (false, dCallExpr ⟨e.ts⟩)) =
      .ok (.arr (tensor A N k fun v => y v + (l.map fun e => einsumValue A N t dt e v).sum), itVars vars rest)
  | [], y, _ => by simp [addAllS]
  | e :: l, y, h => by
    simp only [List.map_cons, List.cons_append, addAllS, eval_dNext sc heap (h e (by simp)), addVal, array, NArr.add, tensor, Except.map, if_true, Bool.false_eq_true, if_false]
    have := addAll_dNext sc heap rest (l := l) (y := fun v => y v + einsumValue A N t dt e v) fun e he => h e (by simp [he])
    simp only [tensor] at this
    rw [this]
    simp [add_assoc]

theorem eval_dSum_next (sc : Scope A N m t dt side i vars) (heap : List (NArr R)) (rest : List (Val R)) {l : List DEinsum} (hl : l ≠ []) (h : ∀ e ∈ l, Runs k m e) :
    evalS ⟨itVars vars (l.map (dExprOf A N) ++ rest), heap⟩ (dCallReading.sumExpr (l.map fun e => ⟨e.ts⟩)) =
      .ok (.arr (tensor A N k fun v => (l.map fun e => einsumValue A N t dt e v).sum), itVars vars rest) := by
  match l, hl with
  | [e], _ =>
    have : dCallReading.sumExpr [⟨e.ts⟩] = dCallExpr ⟨e.ts⟩ := rfl
    simp only [List.map_cons, List.map_nil, List.cons_append, List.nil_append]
    rw [this, eval_dNext sc heap (h e (by simp))]
    simp
  | e :: e' :: l, _ =>
    have : dCallReading.sumExpr ((e :: e' :: l).map fun e => ⟨e.ts⟩) = .sum ((false, dCallExpr ⟨e.ts⟩) :: (e' :: l).map fun e => (false, dCallExpr ⟨e.ts⟩)) := by
      unfold Reading.sumExpr
      simp only [List.map_cons, List.map_map]
      rfl
    rw [this, evalS, evalSumS, List.map_cons, List.cons_append, eval_dNext sc heap (h e (by simp))]
    simp only
    rw [addAll_dNext sc heap rest fun x hx => h x (by simp only [List.mem_cons] at hx ⊢; tauto)]
    rfl

/-- the expressions of the blocks -/
def blockVals (A N : Nat) (bs : List (DBlock DEinsum)) : List (Val R) := bs.flatMap fun b => b.items.map (dExprOf A N)

/-- the same block with calls of optimised expressions -/
def callBlock (b : DBlock DEinsum) : DBlock DCall := ⟨b.pref, b.items.map fun e => ⟨e.ts⟩⟩

theorem adds_dBlocks_opt (sc : Scope A N m t dt side i vars) (rest : List (Val R)) : ∀ {bs : List (DBlock DEinsum)}, (∀ b ∈ bs, b.pref ≠ [] ∧ b.items ≠ [] ∧ ∀ e ∈ b.items, Runs k m e) →
    AddsG known fs (itVars vars (blockVals A N bs ++ rest)) (itVars vars rest) i (A :: A :: List.replicate k N) ((bs.map callBlock).map (dAddAst dCallReading side)) (disconnected A N t dt bs)
  | [], _ => AddsG.nil.cast (by funext v; simp [disconnected])
  | b :: bs, h => by
    obtain ⟨h1, h2, h3⟩ := h b (by simp)
    have h0 : AddsG known fs (itVars vars (b.items.map (dExprOf A N) ++ (blockVals A N bs ++ rest))) (itVars vars (blockVals A N bs ++ rest)) i (A :: A :: List.replicate k N)
        [dAddAst dCallReading side (callBlock b)] fun v => overFactorials b.pref • (b.items.map fun e => einsumValue A N t dt e v).sum := by
      refine AddsG.add (itVars_dScope sc _).array (fun heap => rfl) fun heap => ?_
      exact evalS_pref (itVars_dScope sc _).factorial heap h1 (eval_dSum_next sc heap _ h2 h3)
    have e : blockVals (R := R) A N (b :: bs) ++ rest = b.items.map (dExprOf A N) ++ (blockVals A N bs ++ rest) := by simp [blockVals]
    rw [e]
    refine (h0.append (adds_dBlocks_opt (bs := bs) sc rest fun q hq => h q (List.mem_cons_of_mem _ hq))).cast ?_
    funext v
    simp [disconnected]

theorem callBlock_dblk (p : List Nat) : callBlock (dblk (mkDs k) p) = dblk mkCs p := by
  unfold callBlock dblk
  simp only [List.map_flatMap]
  congr 1
  refine List.flatMap_congr fun c _ => ?_
  unfold mkDs mkCs
  rw [List.map_map]
  rfl

theorem callBlocks (ps : List (List Nat)) : (ps.map (dblk (mkDs k))).map callBlock = ps.map (dblk mkCs) := by
  rw [List.map_map]
  exact List.map_congr_left fun p _ => callBlock_dblk p

/-! ## Finding the functions -/

theorem mem_side_opt (side : Side) (h1 : 1 ≤ k) (h2 : k ≤ n) : callSideAst side k ∈ moduleAst n := by
  have : k ∈ range2 1 (n + 1) := mem_range2.2 ⟨h1, by omega⟩
  unfold moduleAst
  cases side
  · have := List.mem_map_of_mem (f := callSideAst .linked) this
    iterate 7 refine List.mem_append_left _ ?_
    exact List.mem_append_right _ this
  · have := List.mem_map_of_mem (f := callSideAst .unlinked) this
    iterate 6 refine List.mem_append_left _ ?_
    exact List.mem_append_right _ this

theorem mem_dtFn_opt (h1 : 1 ≤ k) (h2 : k ≤ n) : dtFnAst true k ∈ moduleAst n := by
  have : k ∈ range2 1 (n + 1) := mem_range2.2 ⟨h1, by omega⟩
  have := List.mem_map_of_mem (f := dtFnAst true) this
  unfold moduleAst
  iterate 5 refine List.mem_append_left _ ?_
  exact List.mem_append_right _ this

theorem mem_solver_opt (h1 : 1 ≤ k) (h2 : k ≤ n) : solverAst true k ∈ moduleAst n := by
  have : k ∈ range2 1 (n + 1) := mem_range2.2 ⟨h1, by omega⟩
  have := List.mem_map_of_mem (f := solverAst true) this
  unfold moduleAst
  iterate 4 refine List.mem_append_left _ ?_
  exact List.mem_append_right _ this

theorem mem_masterPaths (n : Nat) : masterPathsAst ∈ moduleAst n := by
  unfold moduleAst
  iterate 3 refine List.mem_append_left _ ?_
  exact List.mem_append_right _ (by simp)

theorem mem_epsilonPaths (n : Nat) : epsilonPathsAst n ∈ moduleAst n := by
  unfold moduleAst
  iterate 2 refine List.mem_append_left _ ?_
  exact List.mem_append_right _ (by simp)

theorem mem_linkedPaths (n : Nat) : sidePathsAst .linked (linkedPathsAt n) ∈ moduleAst n := by
  unfold moduleAst
  refine List.mem_append_left _ ?_
  exact List.mem_append_right _ (by simp)

theorem mem_unlinkedPaths (n : Nat) : sidePathsAst .unlinked (unlinkedPathsAt n) ∈ moduleAst n := by
  unfold moduleAst
  exact List.mem_append_right _ (by simp)

/-- the names of the optimised functions -/
theorem undotted_opt : ∀ k ≤ 6, '.' ∉ (sideName .linked true k).toList ∧ '.' ∉ (sideName .unlinked true k).toList ∧ '.' ∉ (dtFnName true k).toList ∧ '.' ∉ (solverName true k).toList := by
  decide +kernel

/-- a call of a function of the module -/
theorem callWithS_eq (hn : n ≤ 6) {f : List Char} {ps : List (List Char)} {b : List Spec.Source.Stmt} (hm : .defn f ps b ∈ moduleAst n) (hd : '.' ∉ f) (depth : Nat) {args : List (Val R)}
    (hlen : ps.length = args.length) (heap : List (NArr R)) :
    callWithS other (moduleAst n) (depth + 1) f args heap =
      match execAllS (PyIter.known (moduleAst n)) (callWithS other (moduleAst n) depth) ⟨setAll (globals (moduleAst n)) ps args, heap⟩ b with
      | .error x => .error x
      | .ok (v, env) => .ok (v.getD .none, env.heap) := by
  have hl := lookup_of_nodup (by rw [names_moduleAst]; exact nodup_fnNames n hn) hm
  have hne : ¬ (f = "log.warning".toList ∧ (moduleAst n).any importsLog = true) := by
    rintro ⟨rfl, _⟩
    exact hd (by decide)
  rw [callWithS]
  simp only
  rw [if_neg hne, if_neg hd]
  simp only [hl]
  rw [if_pos hlen]
  rfl

theorem execS_unpack (E : Spec.PyRun.Env R) (ws : List (List Char)) (u : List Char) (e : Expr) : execS known fs E (.unpack ws u e) = exec fs E (.unpack ws u e) := by
  rw [execS] <;> simp

theorem call_side_opt (hn : n ≤ 6) (hf : side.first ≤ k) (hk : k ≤ n) (depth : Nat) (tr : Val R) (tlen dtlen : Nat) (heap : List (NArr R)) :
    callWithS other (moduleAst n) (depth + 1) (sideName side true k).toList
        [.num A, .num N, tr, amplitudes A N tlen t, amplitudes A N dtlen dt, .list (blockVals A N ((side.partitions k).map (dblk (mkDs k))))] heap =
      if tlen < k - 1 ∨ dtlen < k - 1 then .error .value
      else .ok (.ref heap.length, heap ++ [tensor A N k (disconnected A N t dt ((side.partitions k).map (dblk (mkDs k))))]) := by
  have h2 : 2 ≤ k := le_trans first_le hf
  have hdot : '.' ∉ (sideName side true k).toList := by
    have := undotted_opt k (by omega)
    cases side
    · exact this.1
    · exact this.2.1
  rw [callWithS_eq hn (mem_side_opt (n := n) (k := k) side (by omega) hk) hdot depth (by cases side <;> rfl)]
  generalize hpv : blockVals (R := R) A N ((side.partitions k).map (dblk (mkDs k))) = pv
  set vars := setAll (globals (R := R) (moduleAst n)) ((sideParams side true).map String.toList) [.num A, .num N, tr, amplitudes A N tlen t, amplitudes A N dtlen dt, .list pv] with hvars
  have hnd : ((sideParams side true).map String.toList).Nodup := by cases side <;> decide
  have v1 : vars "A".toList = some (.num A) := by rw [hvars]; exact setAll_at (n := 0) hnd rfl rfl
  have v2 : vars "N".toList = some (.num N) := by rw [hvars]; exact setAll_at (n := 1) hnd rfl rfl
  have v3 : vars "t_args".toList = some (.tuple (ampVals A N tlen t)) := by rw [hvars]; exact setAll_at (n := 3) hnd rfl rfl
  have v4 : vars "dt_args".toList = some (.tuple (ampVals A N dtlen dt)) := by rw [hvars]; exact setAll_at (n := 4) hnd rfl rfl
  have v6 : vars side.paths.toList = some (.list pv) := by rw [hvars]; exact setAll_at (n := 5) hnd (by cases side <;> rfl) rfl
  have v5 : vars "factorial".toList = some (.imported [.word "math".toList] "factorial".toList) := by
    rw [hvars, setAll_other (by cases side <;> decide), globals_factorial]
  unfold sideBody
  rw [sideAt_eq, if_neg (by omega)]
  simp only
  unfold sideStart
  obtain ⟨m, rfl⟩ : ∃ m, k = m + 1 := ⟨k - 1, by omega⟩
  simp only [List.cons_append, List.nil_append, if_true, Nat.add_sub_cancel]
  rw [exec_doc]
  have u1 := exec_unpackNames (fs := callWithS other (moduleAst n) depth) (src := "t_args") (number_none (by decide)) v3 heap (tNames m) "unusedargs".toList
  rw [length_tNames, length_ampVals] at u1
  have e1 : unpackAst (range2 1 (m + 1)) = .unpack (tNames m) "unusedargs".toList (nameExpr "t_args") := rfl
  have e2 : unpackDtAst (range2 1 (m + 1)) = .unpack (dNames m) "unusedargs".toList (nameExpr "dt_args") := rfl
  rw [e1, e2]
  by_cases ht : tlen < m
  · rw [execAllS, execS_unpack, u1, if_neg (by omega), if_pos (.inl ht)]
  rw [if_pos (by omega)] at u1
  rw [execAllS_cons ((execS_unpack _ _ _ _).trans u1)]
  have v4' : unpacked vars (tNames m) (ampVals A N tlen t) "dt_args".toList = some (.tuple (ampVals A N dtlen dt)) := by
    rw [unpacked_other (not_mem_tNames (by decide)) (by decide), v4]
  have e3 : Spec.PyRun.set (setAll vars (tNames m) (ampVals A N tlen t)) "unusedargs".toList (.list ((ampVals A N tlen t).drop m)) = unpacked vars (tNames m) (ampVals A N tlen t) := by
    unfold unpacked
    rw [length_tNames]
  rw [e3]
  have u2 := exec_unpackNames (fs := callWithS other (moduleAst n) depth) (src := "dt_args") (number_none (by decide)) v4' heap (dNames m) "unusedargs".toList
  rw [length_dNames, length_ampVals] at u2
  by_cases hdt : dtlen < m
  · rw [execAllS, execS_unpack, u2, if_neg (by omega), if_pos (.inr hdt)]
  rw [if_pos (by omega)] at u2
  rw [execAllS_cons ((execS_unpack _ _ _ _).trans u2), if_neg (by omega)]
  have e4 : Spec.PyRun.set (setAll (unpacked vars (tNames m) (ampVals A N tlen t)) (dNames m) (ampVals A N dtlen dt)) "unusedargs".toList (.list ((ampVals A N dtlen dt).drop m)) =
      dVars vars A N m tlen dtlen t dt := by
    unfold dVars unpacked
    rw [length_dNames]
  rw [e4]
  have a1 : number "A".toList = Option.none := number_none (by decide)
  have a2 : number "N".toList = Option.none := number_none (by decide)
  have keep : ∀ {w : List Char}, w.take 3 ≠ ['t', '_', 'i'] → w.take 4 ≠ ['d', 't', '_', 'i'] → w ≠ "unusedargs".toList → dVars vars A N m tlen dtlen t dt w = vars w :=
    fun h1 h2 h3 => dVars_other h1 h2 h3
  set dv := dVars vars A N m tlen dtlen t dt with hdv
  have hi : execS (PyIter.known (moduleAst n)) (callWithS other (moduleAst n) depth) ⟨dv, heap⟩ (.assign ["optimized_einsum".toList] (.call (nameExpr "iter") [nameExpr side.paths])) =
      .ok (none, ⟨itVars dv (pv ++ []), heap⟩) := by
    have hnp : number side.paths.toList = Option.none := by cases side <;> exact number_none (by decide)
    have v6' : dv side.paths.toList = some (.list pv) := (keep (by cases side <;> decide) (by cases side <;> decide) (by cases side <;> decide)).trans v6
    have e1 : iterCall (.call (nameExpr "iter") [nameExpr side.paths]) = some [nameExpr side.paths] := rfl
    rw [execS, e1]
    simp only [makeIter, nameExpr, evalList, eval, hnp, v6', Except.map, itemsOf, List.append_nil]
    rfl
  rw [execAllS_cons hi]
  have hz := exec_zerosAt (fs := callWithS other (moduleAst n) depth) (vars := itVars dv (pv ++ [])) (heap := heap) (ws := Residual.shapeAst (m + 1))
    (ns := A :: A :: List.replicate (m + 1) N) (by simp [Residual.shapeAst])
    (by
      have hA := (itVars_other (vars := dv) (pv ++ []) (w := "A".toList) (by decide)).trans ((keep (w := "A".toList) (by decide) (by decide) (by decide)).trans v1)
      have hN := (itVars_other (vars := dv) (pv ++ []) (w := "N".toList) (by decide)).trans ((keep (w := "N".toList) (by decide) (by decide) (by decide)).trans v2)
      refine .cons ⟨a1, hA⟩ (.cons ⟨a1, hA⟩ ?_)
      rw [List.forall₂_iff_get]
      refine ⟨by simp, fun i h1 h2 => ?_⟩
      simp only [List.get_eq_getElem, List.getElem_replicate]
      exact ⟨a2, hN⟩) side.array.toList
  rw [execAllS_cons ((execS_assign rfl rfl).trans hz)]
  have ei : Spec.PyRun.set (itVars dv (pv ++ [])) side.array.toList (.ref heap.length) = itVars (Spec.PyRun.set dv side.array.toList (.ref heap.length)) (pv ++ []) := by
    have hne : side.array.toList ≠ itName := by cases side <;> decide
    funext w
    unfold itVars Spec.PyRun.set
    by_cases h1 : w = side.array.toList
    · subst h1
      rw [if_pos rfl, if_neg hne, if_pos rfl]
    · rw [if_neg h1, if_neg h1]
  rw [ei]
  have sc : Scope A N m t dt side heap.length (Spec.PyRun.set dv side.array.toList (.ref heap.length)) := by
    have hs : ∀ l, side.array.toList ≠ 't' :: '_' :: l ∧ side.array.toList ≠ 'd' :: 't' :: '_' :: l := by
      intro l
      have h0 : side.array.toList.head? ≠ some 't' ∧ side.array.toList.head? ≠ some 'd' := by cases side <;> decide
      exact ⟨fun e => h0.1 (by rw [e]; rfl), fun e => h0.2 (by rw [e]; rfl)⟩
    refine ⟨set_same _ _ _, fun n h1 h2 => ?_, fun n h1 h2 => ?_, ?_⟩
    · rw [set_other _ _ (by rw [tString_toList]; exact (hs _).1.symm)]
      exact dVars_t (by omega) (by omega) h1 h2
    · rw [set_other _ _ (by rw [dtString_toList]; exact (hs _).2.symm)]
      exact dVars_dt (by omega) (by omega) h1 h2
    · rw [set_other _ _ (by cases side <;> decide), keep (by decide) (by decide) (by decide), v5]
  have hx : (heap ++ [(⟨A :: A :: List.replicate (m + 1) N, fun _ => 0⟩ : NArr R)])[heap.length]? = some ⟨A :: A :: List.replicate (m + 1) N, fun _ => 0⟩ := by simp
  have hadd := adds_dBlocks_opt (known := PyIter.known (moduleAst n)) (fs := callWithS other (moduleAst n) depth) (k := m + 1) sc []
    (runs_blocks (side := side) (k := m + 1) (by omega) (by omega)) _ _ hx
  rw [hpv, callBlocks] at hadd
  rw [execAllS_then hadd, set_last]
  have na : number side.array.toList = Option.none := by cases side <;> exact number_none (by decide)
  rw [execAllS, execS_ret rfl, exec]
  simp only [nameExpr, evalTop, eval, na, (itVars_dScope sc _).array, Except.map, zero_add]
  rfl

end

end TF.Dt
