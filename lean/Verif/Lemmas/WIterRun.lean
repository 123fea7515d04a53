import Verif.Lemmas.WSourceCall
import Verif.Lemmas.PyIter

/-!
# Running the text of a generated W module: the optimised functions that add contributions
-/

namespace TF.W

set_option maxRecDepth 10000

open TF.Py TF.Helper TF.Spec TF.Spec.Source TF.Spec.PyRun TF.Spec.PyIter TF.Spec.Tensor TF.Spec.WCall
open TF.Spec.W (Done Multiplies einsumValue added returned overFactorials)
open TF.Spec.ResidualCall (tensor)

variable {R : Type} [CommRing R] [Algebra Rat R]

/-- the optimised expression of a product -/
def exprOf (A N : Nat) (e : Einsum) : Val R := .expression (subsText e.subs e.out) (e.ts.map fun n => A :: A :: List.replicate n N)

/-- the variable of the iterator -/
def itName : List Char := "optimized_einsum".toList

/-- the variables while the expressions `l` are left -/
def itVars (vars : Vars R) (l : List (Val R)) : Vars R := Spec.PyRun.set vars itName (.iter l)

section
variable {A N k m i : Nat} {env : Spec.W.Env} {t : Nat → Arr R} {vars : Vars R}

omit [CommRing R] [Algebra Rat R] in
theorem itVars_other (l : List (Val R)) {w : List Char} (h : w ≠ itName) : itVars vars l w = vars w := set_other _ _ h

omit [CommRing R] [Algebra Rat R] in
theorem itVars_same (l : List (Val R)) : itVars vars l itName = some (.iter l) := set_same _ _ _

theorem itVars_scope (sc : Scope A N k m env t i vars) (l : List (Val R)) : Scope A N k m env t i (itVars vars l) := by
  obtain ⟨w, hw⟩ := wName_head k
  have h1 : (wName k).toList ≠ itName := by
    rw [hw]
    intro h
    have h' : some 'W' = itName.head? := congrArg List.head? h
    exact absurd h' (by decide)
  have h2 : "truncation".toList ≠ itName := by decide
  have h3 : "factorial".toList ≠ itName := by decide
  have h4 : ∀ n, (tString n).toList ≠ itName := by
    intro n h
    rw [tString_toList] at h
    have h' : some 't' = itName.head? := congrArg List.head? h
    exact absurd h' (by decide)
  constructor
  · rw [itVars_other l h1]
    exact sc.W
  · rw [itVars_other l h2]
    exact sc.truncation
  · intro n a b
    rw [itVars_other l (h4 n)]
    exact sc.t n a b
  · rw [itVars_other l h3]
    exact sc.factorial

theorem eval_next (sc : Scope A N k m env t i vars) (heap : List (NArr R)) {e : Einsum} (h : Runs k m e) (rest : List (Val R)) :
    evalS ⟨itVars vars (exprOf A N e :: rest), heap⟩ (callExpr ⟨e.ts⟩) = .ok (.arr (tensor A N k (einsumValue A N t e)), itVars vars rest) := by
  obtain ⟨mid, vs, hm⟩ := h.multiplies
  have hl : evalList ⟨itVars vars rest, heap⟩ (e.ts.map fun n => nameExpr (tString n)) = .ok ((e.ts.map fun n => tensor A N n (t n)).map .arr) := by
    have := evalList_names (vars := itVars vars rest) (heap := heap) (ws := e.ts.map tString) (vs := (e.ts.map fun n => tensor A N n (t n)).map .arr) (by
      rw [List.map_map, List.forall₂_map_left_iff, List.forall₂_map_right_iff]
      exact List.forall₂_same.2 fun n hn => ⟨number_t n, (itVars_scope sc rest).t n (h.names n hn).1 (h.names n hn).2⟩)
    rw [List.map_map] at this
    exact this
  have he := einsum_w hm h.good A N t
  rw [h.sum] at he
  have hc : callExpr ⟨e.ts⟩ = .call nextExpr (e.ts.map fun n => nameExpr (tString n)) := by
    unfold callExpr
    have := hm.chain_length
    cases hts : e.ts with
    | nil => rw [hts] at this; simp at this
    | cons n ts => rfl
  have hs : (e.ts.map fun n => tensor A N n (t n)).map NArr.shape = e.ts.map fun n => A :: A :: List.replicate n N := by
    rw [List.map_map]
    rfl
  rw [hc, evalS]
  simp only [nextExpr, nameExpr, evalCall, if_true]
  unfold callNext
  have e2 : Spec.PyRun.set (itVars vars (exprOf A N e :: rest)) "optimized_einsum".toList (.iter rest) = itVars vars rest := set_set _ _ _ _
  have e1 : itVars vars (exprOf A N e :: rest) "optimized_einsum".toList = some (.iter (exprOf A N e :: rest)) := itVars_same _
  simp only [nameExpr] at hl
  have e3 : applyExpression heap (exprOf A N e) ((e.ts.map fun n => tensor A N n (t n)).map .arr) = .ok (.arr (tensor A N k (einsumValue A N t e))) := by
    simp only [applyExpression, exprOf, arrays_arr, hs, if_true, he, Except.map]
  simp only [e1, e2, hl, e3, Except.map]

theorem addAll_next (sc : Scope A N k m env t i vars) (heap : List (NArr R)) (rest : List (Val R)) : ∀ {l : List Einsum} {y : Arr R}, (∀ e ∈ l, Runs k m e) →
    addAllS ⟨itVars vars (l.map (exprOf A N) ++ rest), heap⟩ (.arr (tensor A N k y)) (l.map fun e => (false, callExpr ⟨e.ts⟩)) =
      .ok (.arr (tensor A N k fun v => y v + (l.map fun e => einsumValue A N t e v).sum), itVars vars rest)
  | [], y, _ => by simp [addAllS]
  | e :: l, y, h => by
    simp only [List.map_cons, List.cons_append, addAllS, eval_next sc heap (h e (by simp)), addVal, array, NArr.add, tensor, Except.map, if_true, Bool.false_eq_true, if_false]
    have := addAll_next sc heap rest (l := l) (y := fun v => y v + einsumValue A N t e v) fun e he => h e (by simp [he])
    simp only [tensor] at this
    rw [this]
    simp [add_assoc]

theorem eval_sum_next (sc : Scope A N k m env t i vars) (heap : List (NArr R)) (rest : List (Val R)) {l : List Einsum} (hl : l ≠ []) (h : ∀ e ∈ l, Runs k m e) :
    evalS ⟨itVars vars (l.map (exprOf A N) ++ rest), heap⟩ (callReading.sumExpr (l.map fun e => ⟨e.ts⟩)) =
      .ok (.arr (tensor A N k fun v => (l.map fun e => einsumValue A N t e v).sum), itVars vars rest) := by
  match l, hl with
  | [e], _ =>
    have : callReading.sumExpr [⟨e.ts⟩] = callExpr ⟨e.ts⟩ := rfl
    simp only [List.map_cons, List.map_nil, List.cons_append, List.nil_append]
    rw [this, eval_next sc heap (h e (by simp))]
    simp
  | e :: e' :: l, _ =>
    have : callReading.sumExpr ((e :: e' :: l).map fun e => ⟨e.ts⟩) = .sum ((false, callExpr ⟨e.ts⟩) :: (e' :: l).map fun e => (false, callExpr ⟨e.ts⟩)) := by
      unfold Reading.sumExpr
      simp only [List.map_cons, List.map_map]
      rfl
    rw [this, evalS, evalSumS, List.map_cons, List.cons_append, eval_next sc heap (h e (by simp))]
    simp only
    rw [addAll_next sc heap rest fun x hx => h x (by simp only [List.mem_cons] at hx ⊢; tauto)]
    rfl

omit [CommRing R] [Algebra Rat R] in
theorem plain_fact (hf : vars "factorial".toList = some (.imported [.word "math".toList] "factorial".toList)) (n : Nat) : plain vars (factExpr n) = true := by
  simp only [factExpr, nameExpr, plain, hf]

omit [CommRing R] [Algebra Rat R] in
theorem plain_denom (hf : vars "factorial".toList = some (.imported [.word "math".toList] "factorial".toList)) {l : List Nat} (hl : l ≠ []) : plain vars (denomExpr l) = true := by
  match l, hl with
  | [n], _ => exact plain_fact hf n
  | n :: n' :: l, _ =>
    have e : denomExpr (n :: n' :: l) = .prod ((n :: n' :: l).map fun n => (false, factExpr n)) := rfl
    rw [e, plain]
    generalize n :: n' :: l = l
    induction l with
    | nil => rfl
    | cons n l ih => rw [List.map_cons, plainL, plain_fact hf, ih]; rfl

/-- `1/.. * e` -/
theorem evalS_pref (hf : vars "factorial".toList = some (.imported [.word "math".toList] "factorial".toList)) (heap : List (NArr R)) {l : List Nat} (hl : l ≠ []) {e : Expr} {x : NArr R} {v' : Vars R}
    (he : evalS ⟨vars, heap⟩ e = .ok (.arr x, v')) : evalS ⟨vars, heap⟩ (.prod (prefTerm l e)) = .ok (.arr (x.smul (overFactorials l)), v') := by
  have h1 : number "1".toList = some 1 := number_nat 1
  have hd : evalS ⟨vars, heap⟩ (denomExpr l) = .ok (.num ((l.map Nat.factorial).prod : Nat), vars) := by
    rw [evalS_plain (plain_denom hf hl), eval_denom hf heap hl]
    rfl
  have h2 : evalS ⟨vars, heap⟩ (.word "1".toList) = .ok (.num 1, vars) := by
    rw [evalS_plain rfl, eval, h1]
    rfl
  simp only [prefTerm, nameExpr]
  simp only [evalS, evalProdS, mulAllS]
  simp only [evalS] at h2
  simp only [h2, hd, he, mulVal, array, if_true, Bool.false_eq_true, if_false, if_neg (facts_ne l)]
  rfl

variable {known : List Char → Bool} {fs : Functions R}

/-- the expressions of the partitions that enter -/
def pathVals (A N : Nat) (env : Spec.W.Env) (f : List Nat → Einsum) (ps : List (List Nat)) : List (Val R) :=
  (ps.filter (live env.fl)).flatMap fun p => ((combinations p).map f).map (exprOf A N)

theorem adds_block_opt (sc : Scope A N k m env t i vars) {p : List Nat} (hg : ∀ g, gateOf p = some g → 1 ≤ g ∧ g ≤ 6) (hp : prefOf p ≠ []) {f : List Nat → Einsum}
    (hts : ∀ c, (f c).ts = c) (hf : ∀ c, c.Perm p → Runs k m (f c)) (rest : List (Val R)) :
    AddsG known fs (itVars vars (pathVals A N env f [p] ++ rest)) (itVars vars rest) i (A :: A :: List.replicate k N) [callReading.blockAst k (blk Call.mk p)]
      (added A N t (if live env.fl p then [doneOf f p] else [])) := by
  have hne : (combinations p).map f ≠ [] := by
    intro h
    have : p ∈ combinations p := mem_combinations.2 (List.Perm.refl p)
    rw [List.map_eq_nil_iff.1 h] at this
    simp at this
  have hruns : ∀ e ∈ (combinations p).map f, Runs k m e := by
    intro e he
    obtain ⟨c, hc, rfl⟩ := List.mem_map.1 he
    exact hf c (mem_combinations.1 hc)
  have hitems : (blk Call.mk p).items = ((combinations p).map f).map fun e => ⟨e.ts⟩ := by
    rw [List.map_map]
    refine List.map_congr_left fun c _ => ?_
    simp [hts]
  have hadd : AddsG known fs (itVars vars (((combinations p).map f).map (exprOf A N) ++ rest)) (itVars vars rest) i (A :: A :: List.replicate k N) [callReading.addAst k (blk Call.mk p)]
      (added A N t [doneOf f p]) := by
    refine (AddsG.add (y := fun v => overFactorials (prefOf p) • (((combinations p).map f).map fun e => einsumValue A N t e v).sum) (itVars_scope sc _).W (fun heap => rfl) fun heap => ?_).cast
      (added_items A N t (prefOf p) _).symm
    have := eval_sum_next sc heap rest hne hruns
    rw [← hitems] at this
    exact evalS_pref (itVars_scope sc _).factorial heap hp this
  unfold Reading.blockAst
  have eg : (blk Call.mk p).gate = gateOf p := rfl
  rw [eg]
  cases hgp : gateOf p with
  | none =>
    have hl : live env.fl p = true := by simp [live, hgp]
    have e : pathVals (R := R) A N env f [p] = ((combinations p).map f).map (exprOf A N) := by simp [pathVals, hl]
    rw [e, if_pos hl]
    exact hadd
  | some g =>
    obtain ⟨g1, g2⟩ := hg g hgp
    have hl : live env.fl p = env.fl g := by simp [live, hgp]
    refine AddsG.branch (fun heap => eval_flag (itVars_scope sc _).truncation g1 g2 heap) ?_ ?_
    · intro hfl
      have e : pathVals (R := R) A N env f [p] = ((combinations p).map f).map (exprOf A N) := by simp [pathVals, hl, hfl]
      rw [e, if_pos (hl.trans hfl)]
      exact hadd
    · intro hfl
      have e : pathVals (R := R) A N env f [p] = [] := by simp [pathVals, hl, hfl]
      rw [e, if_neg (by rw [hl, hfl]; simp), List.nil_append]
      exact AddsG.nil.cast (added_nil A N t).symm

theorem adds_blocks_opt (sc : Scope A N k m env t i vars) {f : List Nat → Einsum} (hts : ∀ c, (f c).ts = c) (rest : List (Val R)) : ∀ {ps : List (List Nat)},
    (∀ p ∈ ps, (∀ g, gateOf p = some g → 1 ≤ g ∧ g ≤ 6) ∧ prefOf p ≠ [] ∧ ∀ c, c.Perm p → Runs k m (f c)) →
    AddsG known fs (itVars vars (pathVals A N env f ps ++ rest)) (itVars vars rest) i (A :: A :: List.replicate k N) ((ps.map (blk Call.mk)).map (callReading.blockAst k))
      (added A N t ((ps.filter (live env.fl)).map (doneOf f)))
  | [], _ => AddsG.nil.cast (added_nil A N t).symm
  | p :: ps, h => by
    obtain ⟨h1, h2, h3⟩ := h p (by simp)
    have := (adds_block_opt (known := known) (fs := fs) sc h1 h2 hts h3 (pathVals A N env f ps ++ rest)).append (adds_blocks_opt (ps := ps) sc hts rest fun q hq => h q (List.mem_cons_of_mem _ hq))
    rw [← List.append_assoc] at this
    have e : pathVals (R := R) A N env f [p] ++ pathVals A N env f ps = pathVals A N env f (p :: ps) := by
      unfold pathVals
      rw [← List.flatMap_append, ← List.filter_append]
      rfl
    rw [e] at this
    refine this.cast ?_
    rw [← added_append]
    congr 1
    rw [List.filter_cons]
    split <;> rfl

/-! ## Calls -/

theorem opt_params_nodup (k : Nat) : (([wName k, "t_args", "truncation", "opt_path_list"] : List String).map String.toList).Nodup := by
  obtain ⟨l, hl⟩ := wName_head k
  simp [hl]

theorem call_parts_opt {L : List Spec.Source.Stmt} {fn : List Char} {g : List Nat → Einsum} {ps : List (List Nat)} {depth : Nat} (hts : ∀ c, (g c).ts = c)
    (hl : Spec.PyRun.lookup L fn = some ((contributionsParams true k).map String.toList,
      [.doc, unpackAst (range2 1 (m + 1))] ++ [iterAst] ++ (ps.map (blk Call.mk)).map (callReading.blockAst k) ++ [.ret none]))
    (hfac : globals (R := R) L "factorial".toList = some (.imported [.word "math".toList] "factorial".toList))
    (hm : m ≤ 8) (ht : m ≤ env.tlen)
    (hps : ∀ p ∈ ps, (∀ g, gateOf p = some g → 1 ≤ g ∧ g ≤ 6) ∧ prefOf p ≠ [] ∧ ∀ c, c.Perm p → Runs k m (g c))
    {heap : List (NArr R)} {x : Arr R} (hx : heap[i]? = some ⟨A :: A :: List.replicate k N, x⟩) :
    callS L (depth + 1) fn [.ref i, amplitudes A N env t, truncation env, .list (pathVals A N env g ps)] heap =
      .ok (.none, heap.set i ⟨A :: A :: List.replicate k N, fun v => x v + added A N t ((ps.filter (live env.fl)).map (doneOf g)) v⟩) := by
  rw [callS]
  simp only [hl]
  rw [if_pos (by rfl)]
  set vars := setAll (globals (R := R) L) ((contributionsParams true k).map String.toList) [.ref i, amplitudes A N env t, truncation env, .list (pathVals A N env g ps)] with hvars
  have ep : (contributionsParams true k).map String.toList = ([wName k, "t_args", "truncation", "opt_path_list"] : List String).map String.toList := rfl
  rw [ep] at hvars
  have v1 : vars (wName k).toList = some (.ref i) := by rw [hvars]; exact setAll_at (n := 0) (opt_params_nodup k) rfl rfl
  have v2 : vars "t_args".toList = some (amplitudes A N env t) := by rw [hvars]; exact setAll_at (n := 1) (opt_params_nodup k) rfl rfl
  have v3 : vars "truncation".toList = some (truncation env) := by rw [hvars]; exact setAll_at (n := 2) (opt_params_nodup k) rfl rfl
  have v5 : vars "opt_path_list".toList = some (.list (pathVals A N env g ps)) := by rw [hvars]; exact setAll_at (n := 3) (opt_params_nodup k) rfl rfl
  obtain ⟨l, hwl⟩ := wName_head k
  have v4 : vars "factorial".toList = some (.imported [.word "math".toList] "factorial".toList) := by
    rw [hvars, setAll_other (by simp [hwl]), hfac]
  have sc : Scope A N k m env t i (tVars vars A N env t m) :=
    ⟨(tVars_other (by rw [hwl]; simp) (by rw [hwl]; simp)).trans v1, (tVars_other (by decide) (by decide)).trans v3, fun n h1 h2 => tVars_t hm ht h1 h2,
      (tVars_other (by decide) (by decide)).trans v4⟩
  have v6 : tVars vars A N env t m "opt_path_list".toList = some (.list (pathVals A N env g ps)) := (tVars_other (by decide) (by decide)).trans v5
  simp only [List.cons_append, List.nil_append]
  rw [execAllS_cons (E' := ⟨vars, heap⟩) (by rw [execS, exec] <;> simp), execAllS_cons (E' := ⟨tVars vars A N env t m, heap⟩) (by
    have := exec_unpack (fs := callS L depth) v2 heap m
    rw [if_pos ht] at this
    unfold unpackAst at this ⊢
    rw [execS, this] <;> simp)]
  have hn : number "opt_path_list".toList = Option.none := number_none (by decide)
  have hi : execS (known L) (callS L depth) ⟨tVars vars A N env t m, heap⟩ iterAst = .ok (none, ⟨itVars (tVars vars A N env t m) (pathVals A N env g ps ++ []), heap⟩) := by
    unfold iterAst
    have e1 : iterCall (.call (nameExpr "iter") [nameExpr "opt_path_list"]) = some [nameExpr "opt_path_list"] := rfl
    rw [execS, e1]
    simp only [makeIter, nameExpr, evalList, eval, hn, v6, Except.map, itemsOf, List.append_nil]
    rfl
  rw [execAllS_cons hi, execAllS_then (adds_blocks_opt sc hts [] hps heap x hx), execAllS, execS, exec]
  · rfl
  all_goals simp

end

end TF.W
