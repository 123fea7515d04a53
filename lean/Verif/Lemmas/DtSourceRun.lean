import Verif.Lemmas.DtSourceFile
import Verif.Lemmas.WSourceCall
import Verif.Spec.DtCall
import Verif.Spec.DtValue

/-!
# Running the text of a generated module of the amplitude derivatives: the disconnected terms
-/

namespace TF.Dt

set_option maxRecDepth 10000

open TF.Py TF.Helper TF.W TF.Spec TF.Spec.Source TF.Spec.PyRun TF.Spec.Tensor TF.Spec.DtCall
open TF.Spec.Dt (MultipliesD einsumValue disconnected returned residualValue)
open TF.Spec.W (overFactorials)
open TF.Spec.ResidualCall (tensor truncation)

variable {R : Type} [CommRing R] [Algebra Rat R]

theorem dtString_toList (n : Nat) : (dtString n).toList = 'd' :: 't' :: '_' :: modeTags.take n := by
  unfold dtString
  rw [String.toList_append, tString_toList]
  rfl

theorem number_dt (n : Nat) : number (dtString n).toList = Option.none := by
  rw [dtString_toList]
  exact number_none (by decide)

/-! ## Unpacking -/

section
variable {A N k m n i : Nat} {t dt : Nat → Arr R} {vars : List Char → Option (Val R)} {fs : Functions R} {side : Side}

theorem exec_unpackNames {src : String} {vs : List (Val R)} (hn : number src.toList = Option.none) (hv : vars src.toList = some (.tuple vs)) (heap : List (NArr R)) (ws : List (List Char))
    (u : List Char) :
    exec fs ⟨vars, heap⟩ (.unpack ws u (nameExpr src)) =
      if ws.length ≤ vs.length then .ok (none, ⟨Spec.PyRun.set (setAll vars ws vs) u (.list (vs.drop ws.length)), heap⟩) else .error .value := by
  rw [exec]
  simp only [nameExpr, evalTop, eval, hn, hv, Except.map, itemsOf]

/-- the amplitudes as a list -/
def ampVals (A N len : Nat) (t : Nat → Arr R) : List (Val R) := (List.range len).map fun i => .arr (tensor A N (i + 1) (t (i + 1)))

omit [CommRing R] [Algebra Rat R] in
theorem length_ampVals (A N len : Nat) (t : Nat → Arr R) : (ampVals A N len t).length = len := by simp [ampVals]

omit [CommRing R] [Algebra Rat R] in
theorem ampVals_get {len : Nat} (h1 : 1 ≤ n) (h2 : n ≤ len) : (ampVals A N len t)[n - 1]? = some (.arr (tensor A N n (t n))) := by
  unfold ampVals
  rw [List.getElem?_map, List.getElem?_range (by omega)]
  simp only [Option.map_some]
  rw [show n - 1 + 1 = n by omega]

def dNames (m : Nat) : List (List Char) := (range2 1 (m + 1)).map fun n => (dtString n).toList

theorem length_dNames (m : Nat) : (dNames m).length = m := by simp [dNames, range2]

theorem not_mem_dNames {m : Nat} {w : List Char} (h : w.take 4 ≠ ['d', 't', '_', 'i']) : w ∉ dNames m := by
  unfold dNames
  intro hm
  obtain ⟨n, hn, rfl⟩ := List.mem_map.1 hm
  obtain ⟨n, rfl⟩ : ∃ k, n = k + 1 := ⟨n - 1, by have := (mem_range2.1 hn).1; omega⟩
  rw [dtString_toList] at h
  exact h rfl

theorem dNames_nodup : ∀ m ≤ 8, (dNames m).Nodup := by decide +kernel

theorem dNames_get (h1 : 1 ≤ n) (h2 : n ≤ m) : (dNames m)[n - 1]? = some (dtString n).toList := by
  unfold dNames
  rw [List.getElem?_map, getElem_range2 h1 h2]
  rfl

/-- the variables after the amplitudes have been unpacked -/
def unpacked (vars : List Char → Option (Val R)) (ws : List (List Char)) (vs : List (Val R)) : List Char → Option (Val R) :=
  Spec.PyRun.set (setAll vars ws vs) "unusedargs".toList (.list (vs.drop ws.length))

omit [CommRing R] [Algebra Rat R] in
theorem unpacked_other {ws : List (List Char)} {vs : List (Val R)} {w : List Char} (h : w ∉ ws) (h' : w ≠ "unusedargs".toList) : unpacked vars ws vs w = vars w := by
  unfold unpacked
  rw [set_other _ _ h', setAll_other h]

/-- the amplitudes and their derivatives of the orders up to `m` -/
def dVars (vars : List Char → Option (Val R)) (A N m tlen dtlen : Nat) (t dt : Nat → Arr R) : List Char → Option (Val R) :=
  unpacked (unpacked vars (tNames m) (ampVals A N tlen t)) (dNames m) (ampVals A N dtlen dt)

omit [CommRing R] [Algebra Rat R] in
theorem dVars_other {tlen dtlen : Nat} {w : List Char} (h : w.take 3 ≠ ['t', '_', 'i']) (h2 : w.take 4 ≠ ['d', 't', '_', 'i']) (h' : w ≠ "unusedargs".toList) :
    dVars vars A N m tlen dtlen t dt w = vars w := by
  unfold dVars
  rw [unpacked_other (not_mem_dNames h2) h', unpacked_other (not_mem_tNames h) h']

omit [CommRing R] [Algebra Rat R] in
theorem dVars_t {tlen dtlen : Nat} (hm : m ≤ 8) (ht : m ≤ tlen) (h1 : 1 ≤ n) (h2 : n ≤ m) :
    dVars vars A N m tlen dtlen t dt (tString n).toList = some (.arr (tensor A N n (t n))) := by
  unfold dVars
  rw [unpacked_other (not_mem_dNames (by rw [tString_toList]; simp)) (by rw [tString_toList]; simp)]
  unfold unpacked
  rw [set_other _ _ (by rw [tString_toList]; simp)]
  exact setAll_at (tNames_nodup m hm) (tNames_get h1 h2) (ampVals_get h1 (by omega))

omit [CommRing R] [Algebra Rat R] in
theorem dVars_dt {tlen dtlen : Nat} (hm : m ≤ 8) (ht : m ≤ dtlen) (h1 : 1 ≤ n) (h2 : n ≤ m) :
    dVars vars A N m tlen dtlen t dt (dtString n).toList = some (.arr (tensor A N n (dt n))) := by
  unfold dVars
  rw [unpacked, set_other _ _ (by rw [dtString_toList]; simp)]
  exact setAll_at (dNames_nodup m hm) (dNames_get h1 h2) (ampVals_get h1 (by omega))

/-! ## Products -/

/-- the variables of a function -/
structure Scope (A N m : Nat) (t dt : Nat → Arr R) (side : Side) (i : Nat) (vars : List Char → Option (Val R)) : Prop where
  array : vars side.array.toList = some (.ref i)
  t : ∀ n, 1 ≤ n → n ≤ m → vars (tString n).toList = some (.arr (tensor A N n (t n)))
  dt : ∀ n, 1 ≤ n → n ≤ m → vars (dtString n).toList = some (.arr (tensor A N n (dt n)))
  factorial : vars "factorial".toList = some (.imported [.word "math".toList] "factorial".toList)

/-- the einsum can be executed -/
structure Runs (k m : Nat) (e : DEinsum) : Prop where
  good : GoodEinsum e.subs e.out
  multiplies : ∃ mid vs, MultipliesD e mid vs
  sum : (e.ts.map Operand.n).sum = k
  names : ∀ o ∈ e.ts, 1 ≤ o.n ∧ o.n ≤ m

omit [CommRing R] [Algebra Rat R] in
theorem operand_value (sc : Scope A N m t dt side i vars) {o : Operand} (h1 : 1 ≤ o.n) (h2 : o.n ≤ m) :
    number o.render.toList = Option.none ∧ vars o.render.toList = some (.arr (tensor A N o.n (if o.der then dt o.n else t o.n))) := by
  obtain ⟨d, n⟩ := o
  cases d with
  | false =>
    have e : Operand.render ⟨false, n⟩ = tString n := by simp [Operand.render]
    rw [e]
    exact ⟨number_t n, sc.t n h1 h2⟩
  | true => exact ⟨number_dt n, sc.dt n h1 h2⟩

theorem eval_dEinsum (sc : Scope A N m t dt side i vars) (heap : List (NArr R)) {e : DEinsum} (h : Runs k m e) :
    eval ⟨vars, heap⟩ (dEinsumExpr e) = .ok (.arr (tensor A N k (einsumValue A N t dt e))) := by
  obtain ⟨mid, vs, hm⟩ := h.multiplies
  have hl : evalList ⟨vars, heap⟩ (e.ts.map fun o => nameExpr o.render) = .ok ((e.ts.map fun o => tensor A N o.n (if o.der then dt o.n else t o.n)).map .arr) := by
    have := evalList_names (vars := vars) (heap := heap) (ws := e.ts.map Operand.render) (vs := (e.ts.map fun o => tensor A N o.n (if o.der then dt o.n else t o.n)).map .arr) (by
      rw [List.map_map, List.forall₂_map_left_iff, List.forall₂_map_right_iff]
      exact List.forall₂_same.2 fun o ho => operand_value sc (h.names o ho).1 (h.names o ho).2)
    rw [List.map_map] at this
    exact this
  have := einsum_arrays hm h.good A N (xs := e.ts.map fun o => if o.der then dt o.n else t o.n) (by simp)
  simp only [List.zipWith_map, List.zipWith_self, h.sum] at this
  simp only [dEinsumExpr, nameExpr] at hl ⊢
  simp only [eval, evalList, hl, Except.map, if_true, callBuiltin, arrays_arr, Except.bind, this]
  rfl

theorem addAll_dEinsums (sc : Scope A N m t dt side i vars) (heap : List (NArr R)) : ∀ {l : List DEinsum} {y : Arr R}, (∀ e ∈ l, Runs k m e) →
    addAll ⟨vars, heap⟩ (.arr (tensor A N k y)) (l.map fun e => (false, dEinsumExpr e)) =
      .ok (.arr (tensor A N k fun v => y v + (l.map fun e => einsumValue A N t dt e v).sum))
  | [], y, _ => by simp [addAll]
  | e :: l, y, h => by
    simp only [List.map_cons, addAll, eval_dEinsum sc heap (h e (by simp)), addVal, array, NArr.add, tensor, Except.map, if_true, Bool.false_eq_true, if_false]
    have := addAll_dEinsums sc heap (l := l) (y := fun v => y v + einsumValue A N t dt e v) fun e he => h e (by simp [he])
    simp only [tensor] at this
    rw [this]
    simp [add_assoc]

theorem eval_dSum (sc : Scope A N m t dt side i vars) (heap : List (NArr R)) {l : List DEinsum} (hl : l ≠ []) (h : ∀ e ∈ l, Runs k m e) :
    eval ⟨vars, heap⟩ (dEinsumReading.sumExpr l) = .ok (.arr (tensor A N k fun v => (l.map fun e => einsumValue A N t dt e v).sum)) := by
  match l, hl with
  | [e], _ =>
    have : dEinsumReading.sumExpr [e] = dEinsumExpr e := rfl
    rw [this, eval_dEinsum sc heap (h e (by simp))]
    simp
  | e :: e' :: l, _ =>
    have : dEinsumReading.sumExpr (e :: e' :: l) = .sum ((false, dEinsumExpr e) :: (e' :: l).map fun e => (false, dEinsumExpr e)) := rfl
    rw [this, eval, evalSum, eval_dEinsum sc heap (h e (by simp))]
    simp only
    rw [addAll_dEinsums sc heap fun x hx => h x (by simp only [List.mem_cons] at hx ⊢; tauto)]
    rfl

theorem adds_dBlocks (sc : Scope A N m t dt side i vars) : ∀ {bs : List (DBlock DEinsum)}, (∀ b ∈ bs, b.pref ≠ [] ∧ b.items ≠ [] ∧ ∀ e ∈ b.items, Runs k m e) →
    Adds fs vars i (A :: A :: List.replicate k N) (bs.map (dAddAst dEinsumReading side)) (disconnected A N t dt bs)
  | [], _ => Adds.nil.cast (by funext v; simp [disconnected])
  | b :: bs, h => by
    obtain ⟨h1, h2, h3⟩ := h b (by simp)
    have h0 : Adds fs vars i (A :: A :: List.replicate k N) [dAddAst dEinsumReading side b] fun v => overFactorials b.pref • (b.items.map fun e => einsumValue A N t dt e v).sum :=
      adds_name sc.array fun heap => eval_pref sc.factorial heap h1 (eval_dSum sc heap h2 h3)
    refine (h0.append (adds_dBlocks (bs := bs) sc fun q hq => h q (List.mem_cons_of_mem _ hq))).cast ?_
    funext v
    simp [disconnected]

theorem runs_mkDs (hk1 : 1 ≤ k) (hk6 : k ≤ 6) {p : List Nat} (hp : IsPartition k p) (hne : p ≠ [k]) {c : List Nat} (hc : c.Perm p) {e : DEinsum} (he : e ∈ mkDs k c) : Runs k (k - 1) e := by
  obtain ⟨o, ho, rfl⟩ := List.mem_map.1 he
  obtain ⟨ho, _⟩ := (mem_marks c o).1 ho
  refine ⟨good_letters hk1 hk6 hp hc, ⟨midOf c.length, pops (modeTags.take k) c, ?_⟩, ?_, fun x hx => ?_⟩
  · unfold MultipliesD
    simp only []
    rw [ho]
    exact mkE_multiplies hk1 hk6 hp hc
  · simp only []
    rw [ho, hc.sum_nat, hp.sum_eq]
  · have : x.n ∈ c := ho ▸ List.mem_map_of_mem hx
    have hx' := hc.mem_iff.1 this
    exact ⟨hp.pos _ hx', part_linked hp hne hx'⟩

theorem runs_blocks (hk1 : 1 ≤ k) (hk6 : k ≤ 6) : ∀ b ∈ (side.partitions k).map (dblk (mkDs k)), b.pref ≠ [] ∧ b.items ≠ [] ∧ ∀ e ∈ b.items, Runs k (k - 1) e := by
  intro b hb
  obtain ⟨p, hp, rfl⟩ := List.mem_map.1 hb
  obtain ⟨h3, h4⟩ := side_mem hk1 hp
  have hg := good_dblk dEinsumReading (mkDs k) h3 h4 fun c hc => good_mkDs hk1 hk6 p h3 c hc
  refine ⟨hg.pref, hg.ne, fun e he => ?_⟩
  obtain ⟨c, hc, he⟩ := List.mem_flatMap.1 (show e ∈ (combinations p).flatMap (mkDs k) from he)
  exact runs_mkDs hk1 hk6 h3 h4 (mem_combinations.1 hc) he

/-! ## Finding the functions -/

/-- the names of the functions of a module -/
def fnNames (n : Nat) : List (List Char) :=
  (range2 1 (n + 1)).map (fun k => (sideName .linked false k).toList) ++ (range2 1 (n + 1)).map (fun k => (sideName .unlinked false k).toList) ++
  (range2 1 (n + 1)).map (fun k => (dtFnName false k).toList) ++ (range2 1 (n + 1)).map (fun k => (solverName false k).toList) ++
  (range2 1 (n + 1)).map (fun k => (sideName .linked true k).toList) ++ (range2 1 (n + 1)).map (fun k => (sideName .unlinked true k).toList) ++
  (range2 1 (n + 1)).map (fun k => (dtFnName true k).toList) ++ (range2 1 (n + 1)).map (fun k => (solverName true k).toList) ++
  ["compute_optimized_paths".toList] ++ ["compute_optimized_epsilon_paths".toList] ++ [(Side.pathsName .linked).toList] ++ [(Side.pathsName .unlinked).toList]

theorem names_moduleAst (n : Nat) : (moduleAst n).filterMap nameOf = fnNames n := by
  unfold moduleAst fnNames
  simp only [List.filterMap_append]
  rw [filterMap_named (a := einsumSideAst .linked) _ (g := fun k => (sideName .linked false k).toList) fun _ => rfl,
    filterMap_named (a := einsumSideAst .unlinked) _ (g := fun k => (sideName .unlinked false k).toList) fun _ => rfl,
    filterMap_named (a := dtFnAst false) _ (g := fun k => (dtFnName false k).toList) fun _ => rfl,
    filterMap_named (a := solverAst false) _ (g := fun k => (solverName false k).toList) fun _ => rfl,
    filterMap_named (a := callSideAst .linked) _ (g := fun k => (sideName .linked true k).toList) fun _ => rfl,
    filterMap_named (a := callSideAst .unlinked) _ (g := fun k => (sideName .unlinked true k).toList) fun _ => rfl,
    filterMap_named (a := dtFnAst true) _ (g := fun k => (dtFnName true k).toList) fun _ => rfl,
    filterMap_named (a := solverAst true) _ (g := fun k => (solverName true k).toList) fun _ => rfl]
  rfl

theorem nodup_fnNames : ∀ n ≤ 6, (fnNames n).Nodup := by decide +kernel

theorem symmetrize_not_mem : ∀ n ≤ 6, "symmetrize_tensor".toList ∉ fnNames n := by decide +kernel

theorem undotted_side : ∀ k ≤ 6, '.' ∉ (sideName .linked false k).toList ∧ '.' ∉ (sideName .unlinked false k).toList ∧ '.' ∉ (dtFnName false k).toList ∧ '.' ∉ (solverName false k).toList := by
  decide +kernel

omit [CommRing R] [Algebra Rat R] in
theorem globals_factorial (n : Nat) : globals (R := R) (moduleAst n) "factorial".toList = some (.imported [.word "math".toList] "factorial".toList) := by
  unfold globals moduleAst
  rw [if_neg (by decide)]
  simp only [List.append_assoc]
  rw [List.findSome?_append]
  rfl

omit [CommRing R] [Algebra Rat R] in
theorem globals_symmetrize (n : Nat) :
    globals (R := R) (moduleAst n) "symmetrize_tensor".toList = some (.imported [.sym '.', .word "symmetrize".toList] "symmetrize_tensor".toList) := by
  unfold globals moduleAst
  rw [if_neg (by decide)]
  simp only [List.append_assoc]
  rw [List.findSome?_append]
  rfl

omit [CommRing R] [Algebra Rat R] in
theorem globals_residual (n : Nat) : globals (R := R) (moduleAst n) "residual_equations".toList = some (.imported [.sym '.'] "residual_equations".toList) := by
  unfold globals moduleAst
  rw [if_neg (by decide)]
  simp only [List.append_assoc]
  rw [List.findSome?_append]
  rfl

theorem mem_side (side : Side) (h1 : 1 ≤ k) (h2 : k ≤ n) : einsumSideAst side k ∈ moduleAst n := by
  have : k ∈ range2 1 (n + 1) := mem_range2.2 ⟨h1, by omega⟩
  unfold moduleAst
  cases side
  · have := List.mem_map_of_mem (f := einsumSideAst .linked) this
    iterate 11 refine List.mem_append_left _ ?_
    exact List.mem_append_right _ this
  · have := List.mem_map_of_mem (f := einsumSideAst .unlinked) this
    iterate 10 refine List.mem_append_left _ ?_
    exact List.mem_append_right _ this

theorem mem_dtFn (h1 : 1 ≤ k) (h2 : k ≤ n) : dtFnAst false k ∈ moduleAst n := by
  have : k ∈ range2 1 (n + 1) := mem_range2.2 ⟨h1, by omega⟩
  have := List.mem_map_of_mem (f := dtFnAst false) this
  unfold moduleAst
  iterate 9 refine List.mem_append_left _ ?_
  exact List.mem_append_right _ this

theorem mem_solver (h1 : 1 ≤ k) (h2 : k ≤ n) : solverAst false k ∈ moduleAst n := by
  have : k ∈ range2 1 (n + 1) := mem_range2.2 ⟨h1, by omega⟩
  have := List.mem_map_of_mem (f := solverAst false) this
  unfold moduleAst
  iterate 8 refine List.mem_append_left _ ?_
  exact List.mem_append_right _ this

/-! ## The functions of the disconnected terms -/

variable {other : Functions R}

theorem first_le : 2 ≤ side.first := by cases side <;> decide

theorem call_side (hn : n ≤ 6) (hf : side.first ≤ k) (hk : k ≤ n) (depth : Nat) (tr : Val R) (tlen dtlen : Nat) (heap : List (NArr R)) :
    callWith other (moduleAst n) (depth + 1) (sideName side false k).toList [.num A, .num N, tr, amplitudes A N tlen t, amplitudes A N dtlen dt] heap =
      if tlen < k - 1 ∨ dtlen < k - 1 then .error .value
      else .ok (.ref heap.length, heap ++ [tensor A N k (disconnected A N t dt ((side.partitions k).map (dblk (mkDs k))))]) := by
  have h2 : 2 ≤ k := le_trans first_le hf
  have hl := lookup_of_nodup (by rw [names_moduleAst]; exact nodup_fnNames n hn) (mem_side (n := n) (k := k) side (by omega) hk)
  have hdot : '.' ∉ (sideName side false k).toList := by
    have := undotted_side k (by omega)
    cases side
    · exact this.1
    · exact this.2.1
  rw [callWith]
  simp only
  rw [if_neg hdot]
  simp only [hl]
  rw [if_pos (by rfl)]
  set vars := setAll (globals (R := R) (moduleAst n)) ((sideParams side false).map String.toList) [.num A, .num N, tr, amplitudes A N tlen t, amplitudes A N dtlen dt] with hvars
  have ep : (sideParams side false).map String.toList = ["A", "N", "trunc", "t_args", "dt_args"].map String.toList := rfl
  rw [ep] at hvars
  have v1 : vars "A".toList = some (.num A) := by rw [hvars]; exact setAll_at (n := 0) (by decide) rfl rfl
  have v2 : vars "N".toList = some (.num N) := by rw [hvars]; exact setAll_at (n := 1) (by decide) rfl rfl
  have v3 : vars "t_args".toList = some (.tuple (ampVals A N tlen t)) := by rw [hvars]; exact setAll_at (n := 3) (by decide) rfl rfl
  have v4 : vars "dt_args".toList = some (.tuple (ampVals A N dtlen dt)) := by rw [hvars]; exact setAll_at (n := 4) (by decide) rfl rfl
  have v5 : vars "factorial".toList = some (.imported [.word "math".toList] "factorial".toList) := by
    rw [hvars, setAll_other (by decide), globals_factorial]
  unfold sideBody
  rw [sideAt_eq, if_neg (by omega)]
  simp only
  unfold sideStart
  obtain ⟨m, rfl⟩ : ∃ m, k = m + 1 := ⟨k - 1, by omega⟩
  simp only [List.cons_append, List.nil_append, Bool.false_eq_true, if_false, Nat.add_sub_cancel]
  rw [execAll_cons (E' := ⟨vars, heap⟩) (by rw [exec])]
  have u1 := exec_unpackNames (fs := callWith other (moduleAst n) depth) (src := "t_args") (number_none (by decide)) v3 heap (tNames m) "unusedargs".toList
  rw [length_tNames, length_ampVals] at u1
  have e1 : unpackAst (range2 1 (m + 1)) = .unpack (tNames m) "unusedargs".toList (nameExpr "t_args") := rfl
  have e2 : unpackDtAst (range2 1 (m + 1)) = .unpack (dNames m) "unusedargs".toList (nameExpr "dt_args") := rfl
  rw [e1, e2]
  by_cases ht : tlen < m
  · rw [Spec.PyRun.execAll, u1, if_neg (by omega), if_pos (.inl ht)]
  rw [if_pos (by omega)] at u1
  rw [execAll_cons u1]
  have v4' : unpacked vars (tNames m) (ampVals A N tlen t) "dt_args".toList = some (.tuple (ampVals A N dtlen dt)) := by
    rw [unpacked_other (not_mem_tNames (by decide)) (by decide), v4]
  have e3 : Spec.PyRun.set (setAll vars (tNames m) (ampVals A N tlen t)) "unusedargs".toList (.list ((ampVals A N tlen t).drop m)) = unpacked vars (tNames m) (ampVals A N tlen t) := by
    unfold unpacked
    rw [length_tNames]
  rw [e3]
  have u2 := exec_unpackNames (fs := callWith other (moduleAst n) depth) (src := "dt_args") (number_none (by decide)) v4' heap (dNames m) "unusedargs".toList
  rw [length_dNames, length_ampVals] at u2
  by_cases hdt : dtlen < m
  · rw [Spec.PyRun.execAll, u2, if_neg (by omega), if_pos (.inr hdt)]
  rw [if_pos (by omega)] at u2
  rw [execAll_cons u2, if_neg (by omega)]
  have e4 : Spec.PyRun.set (setAll (unpacked vars (tNames m) (ampVals A N tlen t)) (dNames m) (ampVals A N dtlen dt)) "unusedargs".toList (.list ((ampVals A N dtlen dt).drop m)) =
      dVars vars A N m tlen dtlen t dt := by
    unfold dVars unpacked
    rw [length_dNames]
  rw [e4]
  have a1 : number "A".toList = Option.none := number_none (by decide)
  have a2 : number "N".toList = Option.none := number_none (by decide)
  have keep : ∀ {w : List Char}, w.take 3 ≠ ['t', '_', 'i'] → w.take 4 ≠ ['d', 't', '_', 'i'] → w ≠ "unusedargs".toList → dVars vars A N m tlen dtlen t dt w = vars w :=
    fun h1 h2 h3 => dVars_other h1 h2 h3
  have hz := exec_zerosAt (fs := callWith other (moduleAst n) depth) (vars := dVars vars A N m tlen dtlen t dt) (heap := heap) (ws := Residual.shapeAst (m + 1))
    (ns := A :: A :: List.replicate (m + 1) N) (by simp [Residual.shapeAst])
    (by
      have hA := (keep (w := "A".toList) (by decide) (by decide) (by decide)).trans v1
      have hN := (keep (w := "N".toList) (by decide) (by decide) (by decide)).trans v2
      refine .cons ⟨a1, hA⟩ (.cons ⟨a1, hA⟩ ?_)
      rw [List.forall₂_iff_get]
      refine ⟨by simp, fun i h1 h2 => ?_⟩
      simp only [List.get_eq_getElem, List.getElem_replicate]
      exact ⟨a2, hN⟩) side.array.toList
  rw [execAll_cons hz]
  have sc : Scope A N m t dt side heap.length (Spec.PyRun.set (dVars vars A N m tlen dtlen t dt) side.array.toList (.ref heap.length)) := by
    have hs : ∀ l, side.array.toList ≠ 't' :: '_' :: l ∧ side.array.toList ≠ 'd' :: 't' :: '_' :: l := by
      intro l
      have h0 : side.array.toList.head? ≠ some 't' ∧ side.array.toList.head? ≠ some 'd' := by cases side <;> decide
      exact ⟨fun e => h0.1 (by rw [e]; rfl), fun e => h0.2 (by rw [e]; rfl)⟩
    refine ⟨set_same _ _ _, fun n h1 h2 => ?_, fun n h1 h2 => ?_, ?_⟩
    · rw [set_other _ _ (by rw [tString_toList]; exact (hs _).1.symm)]
      exact dVars_t (by omega) (by omega) h1 h2
    · rw [set_other _ _ (by rw [dtString_toList]; exact (hs _).2.symm)]
      exact dVars_dt (by omega) (by omega) h1 h2
    · rw [set_other _ _ (by cases side <;> decide), keep (by decide) (by decide) (by decide), v5]
  have hx : (heap ++ [(⟨A :: A :: List.replicate (m + 1) N, fun _ => 0⟩ : NArr R)])[heap.length]? = some ⟨A :: A :: List.replicate (m + 1) N, fun _ => 0⟩ := by simp
  have hadd := adds_dBlocks (fs := callWith other (moduleAst n) depth) (k := m + 1) sc (runs_blocks (side := side) (k := m + 1) (by omega) (by omega)) _ _ hx
  rw [execAll_then hadd, set_last]
  have na : number side.array.toList = Option.none := by cases side <;> exact number_none (by decide)
  rw [Spec.PyRun.execAll, exec]
  simp only [nameExpr, evalTop, eval, na, sc.array, Except.map, zero_add]
  rfl

end

end TF.Dt
