import Verif.Lemmas.WSourceRun

/-!
# Running the text of a generated W module: calls
-/

namespace TF.W

set_option maxRecDepth 10000

open TF.Py TF.Helper TF.Spec TF.Spec.Source TF.Spec.PyRun TF.Spec.Tensor TF.Spec.WCall
open TF.Spec.W (Done Multiplies einsumValue added returned overFactorials)
open TF.Spec.ResidualCall (tensor)

variable {R : Type} [CommRing R] [Algebra Rat R]

/-! ## Finding the functions -/

/-- the name of a function -/
def nameOf : Spec.Source.Stmt → Option (List Char)
  | .defn f _ _ => some f
  | _ => none

theorem findSome_defn {f : List Char} {ps : List (List Char)} {b : List Spec.Source.Stmt} : ∀ {l : List Spec.Source.Stmt}, (l.filterMap nameOf).Nodup → .defn f ps b ∈ l →
    l.findSome? (definitionOf f) = some (ps, b)
  | [], _, h => by simp at h
  | s :: l, hn, h => by
    rw [List.findSome?_cons]
    cases hs : nameOf s with
    | none =>
      have e : definitionOf f s = none := by cases s <;> simp_all [nameOf, definitionOf]
      rw [e]
      refine findSome_defn (by simpa [List.filterMap_cons, hs] using hn) ?_
      rcases List.mem_cons.1 h with rfl | h
      · simp [nameOf] at hs
      · exact h
    | some g =>
      obtain ⟨ps', b', rfl⟩ : ∃ ps' b', s = .defn g ps' b' := by cases s <;> simp_all [nameOf]
      rw [List.filterMap_cons, hs] at hn
      by_cases hg : g = f
      · subst hg
        rcases List.mem_cons.1 h with h | h
        · injection h with _ h1 h2
          subst h1 h2
          simp [definitionOf]
        · exact absurd ((List.mem_filterMap (f := nameOf)).2 ⟨_, h, rfl⟩) (List.nodup_cons.1 hn).1
      · simp only [definitionOf, if_neg hg]
        refine findSome_defn (List.nodup_cons.1 hn).2 ?_
        rcases List.mem_cons.1 h with h | h
        · injection h with h1
          exact absurd h1.symm hg
        · exact h

theorem lookup_of_nodup {l : List Spec.Source.Stmt} {f : List Char} {ps : List (List Char)} {b : List Spec.Source.Stmt} (hn : (l.filterMap nameOf).Nodup) (h : .defn f ps b ∈ l) :
    Spec.PyRun.lookup l f = some (ps, b) := by
  refine findSome_defn ?_ (List.mem_reverse.2 h)
  rw [List.filterMap_reverse]
  exact List.nodup_reverse.2 hn

theorem lookup_none {l : List Spec.Source.Stmt} {f : List Char} (h : f ∉ l.filterMap nameOf) : Spec.PyRun.lookup l f = none := by
  unfold Spec.PyRun.lookup
  rw [List.findSome?_eq_none_iff]
  intro s hs
  cases s with
  | defn g ps b =>
    have : g ≠ f := fun e => h (List.mem_filterMap.2 ⟨_, List.mem_reverse.1 hs, by rw [e]; rfl⟩)
    simp [definitionOf, this]
  | _ => rfl

/-- the names of the functions of a module -/
def fnNames (n : Nat) : List (List Char) :=
  (range2 1 (n + 1)).map (fun k => (contributionsName .vemx false k).toList) ++ (range2 1 (n + 1)).map (fun k => (contributionsName .vecc false k).toList) ++
  (range2 1 (n + 1)).map (fun k => (wFnName false k).toList) ++ [(masterName false).toList] ++
  (range2 1 (n + 1)).map (fun k => (contributionsName .vemx true k).toList) ++ (range2 1 (n + 1)).map (fun k => (contributionsName .vecc true k).toList) ++
  (range2 1 (n + 1)).map (fun k => (wFnName true k).toList) ++ [(masterName true).toList] ++ [(pathsName .vemx).toList] ++ [(pathsName .vecc).toList]

theorem filterMap_named {a : Nat → Spec.Source.Stmt} {g : Nat → List Char} (l : List Nat) (h : ∀ k, nameOf (a k) = some (g k)) : (l.map a).filterMap nameOf = l.map g := by
  rw [List.filterMap_map]
  induction l with
  | nil => rfl
  | cons x l ih => simp [h]

theorem names_moduleAst (n : Nat) : (moduleAst n).filterMap nameOf = fnNames n := by
  unfold moduleAst fnNames
  simp only [List.filterMap_append]
  rw [filterMap_named _ (g := fun k => (contributionsName .vemx false k).toList) fun _ => rfl, filterMap_named _ (g := fun k => (contributionsName .vecc false k).toList) fun _ => rfl,
    filterMap_named _ (g := fun k => (wFnName false k).toList) fun _ => rfl, filterMap_named _ (g := fun k => (contributionsName .vemx true k).toList) fun _ => rfl,
    filterMap_named _ (g := fun k => (contributionsName .vecc true k).toList) fun _ => rfl, filterMap_named _ (g := fun k => (wFnName true k).toList) fun _ => rfl]
  rfl

theorem nodup_fnNames : ∀ n ≤ 6, (fnNames n).Nodup := by decide +kernel

theorem fn_not_mem : ∀ n ≤ 6, ∀ k ≤ 6, n < k → (wFnName false k).toList ∉ fnNames n := by decide +kernel

theorem symmetrize_not_mem : ∀ n ≤ 6, "symmetrize_tensor".toList ∉ fnNames n := by decide +kernel

omit [CommRing R] [Algebra Rat R] in
theorem globals_factorial (n : Nat) : globals (R := R) (moduleAst n) "factorial".toList = some (.imported [.word "math".toList] "factorial".toList) := by
  unfold globals moduleAst
  rw [if_neg (by decide)]
  simp only [List.append_assoc]
  rw [List.findSome?_append]
  rfl

omit [CommRing R] [Algebra Rat R] in
theorem globals_symmetrize (n : Nat) :
    globals (R := R) (moduleAst n) "symmetrize_tensor".toList = some (.imported [.sym '.', .word "symmetrize".toList] "symmetrize_tensor".toList) := by
  unfold globals moduleAst
  rw [if_neg (by decide)]
  simp only [List.append_assoc]
  rw [List.findSome?_append]
  rfl

theorem mem_vemx {n k : Nat} (h1 : 1 ≤ k) (h2 : k ≤ n) : contributionsAst einsumReading .vemx false k (vemxAt mkE k) ∈ moduleAst n := by
  have : k ∈ range2 1 (n + 1) := mem_range2.2 ⟨h1, by omega⟩
  have := List.mem_map_of_mem (f := fun k => contributionsAst einsumReading .vemx false k (vemxAt mkE k)) this
  unfold moduleAst
  iterate 9 refine List.mem_append_left _ ?_
  exact List.mem_append_right _ this

theorem mem_vecc {n k : Nat} (h1 : 1 ≤ k) (h2 : k ≤ n) : contributionsAst einsumReading .vecc false k (veccAt mkE k) ∈ moduleAst n := by
  have : k ∈ range2 1 (n + 1) := mem_range2.2 ⟨h1, by omega⟩
  have := List.mem_map_of_mem (f := fun k => contributionsAst einsumReading .vecc false k (veccAt mkE k)) this
  unfold moduleAst
  iterate 8 refine List.mem_append_left _ ?_
  exact List.mem_append_right _ this

theorem mem_wFn {n k : Nat} (h1 : 1 ≤ k) (h2 : k ≤ n) : wFnAst false k ∈ moduleAst n := by
  have : k ∈ range2 1 (n + 1) := mem_range2.2 ⟨h1, by omega⟩
  have := List.mem_map_of_mem (f := wFnAst false) this
  unfold moduleAst
  iterate 7 refine List.mem_append_left _ ?_
  exact List.mem_append_right _ this

theorem mem_master (n : Nat) : masterAst false ∈ moduleAst n := by
  have : masterAst false ∈ [masterAst false] := by simp
  unfold moduleAst
  iterate 6 refine List.mem_append_left _ ?_
  exact List.mem_append_right _ this

/-! ## The amplitudes -/

/-- the amplitudes that are passed to a function -/
def tVals (A N : Nat) (env : Spec.W.Env) (t : Nat → Arr R) : List (Val R) := (List.range env.tlen).map fun i => .arr (tensor A N (i + 1) (t (i + 1)))

def tNames (m : Nat) : List (List Char) := (range2 1 (m + 1)).map fun n => (tString n).toList

theorem length_tNames (m : Nat) : (tNames m).length = m := by simp [tNames, range2]

theorem not_mem_tNames {m : Nat} {w : List Char} (h : w.take 3 ≠ ['t', '_', 'i']) : w ∉ tNames m := by
  unfold tNames
  intro hm
  obtain ⟨n, hn, rfl⟩ := List.mem_map.1 hm
  obtain ⟨n, rfl⟩ : ∃ k, n = k + 1 := ⟨n - 1, by have := (mem_range2.1 hn).1; omega⟩
  rw [tString_toList] at h
  exact h rfl

theorem tNames_nodup : ∀ m ≤ 8, (tNames m).Nodup := by decide +kernel

theorem tNames_get {m n : Nat} (h1 : 1 ≤ n) (h2 : n ≤ m) : (tNames m)[n - 1]? = some (tString n).toList := by
  unfold tNames
  rw [List.getElem?_map, getElem_range2 h1 h2]
  rfl

/-- the variables after the amplitudes have been unpacked -/
def tVars (vars : List Char → Option (Val R)) (A N : Nat) (env : Spec.W.Env) (t : Nat → Arr R) (m : Nat) : List Char → Option (Val R) :=
  Spec.PyRun.set (setAll vars (tNames m) (tVals A N env t)) "unusedargs".toList (.list ((tVals A N env t).drop m))

section
variable {A N k m n i : Nat} {env : Spec.W.Env} {t : Nat → Arr R} {vars : List Char → Option (Val R)} {fs : Functions R}

omit [CommRing R] [Algebra Rat R] in
theorem tVars_other {w : List Char} (h : w.take 3 ≠ ['t', '_', 'i']) (h' : w ≠ "unusedargs".toList) : tVars vars A N env t m w = vars w := by
  unfold tVars
  rw [set_other _ _ h', setAll_other (not_mem_tNames h)]

omit [CommRing R] [Algebra Rat R] in
theorem tVars_t (hm : m ≤ 8) (ht : m ≤ env.tlen) (h1 : 1 ≤ n) (h2 : n ≤ m) : tVars vars A N env t m (tString n).toList = some (.arr (tensor A N n (t n))) := by
  unfold tVars
  rw [set_other _ _ (by rw [tString_toList]; simp)]
  refine setAll_at (tNames_nodup m hm) (tNames_get h1 h2) ?_
  unfold tVals
  rw [List.getElem?_map, List.getElem?_range (by omega)]
  simp only [Option.map_some]
  rw [show n - 1 + 1 = n by omega]

theorem exec_unpack (hv : vars "t_args".toList = some (amplitudes A N env t)) (heap : List (NArr R)) (m : Nat) :
    exec fs ⟨vars, heap⟩ (unpackAst (range2 1 (m + 1))) = if m ≤ env.tlen then .ok (none, ⟨tVars vars A N env t m, heap⟩) else .error .value := by
  have a : number "t_args".toList = Option.none := number_none (by decide)
  have e : amplitudes A N env t = .tuple (tVals A N env t) := rfl
  unfold unpackAst
  rw [exec]
  simp only [nameExpr, evalTop, eval, a, hv, e, Except.map, itemsOf]
  have h1 : ((range2 1 (m + 1)).map fun n => (tString n).toList) = tNames m := rfl
  have h2 : (tVals A N env t).length = env.tlen := by simp [tVals]
  rw [h1, length_tNames, h2]
  rfl

/-! ## The functions that add contributions -/

theorem wName_head (k : Nat) : ∃ l, (wName k).toList = 'W' :: l := ⟨_, by simp [wName, String.toList_append]; rfl⟩

theorem params_nodup (k : Nat) : (([wName k, "t_args", "truncation"] : List String).map String.toList).Nodup := by
  obtain ⟨l, hl⟩ := wName_head k
  simp [hl]

theorem call_parts {L : List Spec.Source.Stmt} {f : List Char} {g : List Nat → Einsum} {ps : List (List Nat)} {depth : Nat}
    (hl : Spec.PyRun.lookup L f = some ((contributionsParams false k).map String.toList,
      [.doc, unpackAst (range2 1 (m + 1))] ++ [] ++ (ps.map (blk g)).map (einsumReading.blockAst k) ++ [.ret none]))
    (hfac : globals (R := R) L "factorial".toList = some (.imported [.word "math".toList] "factorial".toList))
    (hm : m ≤ 8) (ht : m ≤ env.tlen)
    (hps : ∀ p ∈ ps, (∀ g, gateOf p = some g → 1 ≤ g ∧ g ≤ 6) ∧ prefOf p ≠ [] ∧ ∀ c, c.Perm p → Runs k m (g c))
    {heap : List (NArr R)} {x : Arr R} (hx : heap[i]? = some ⟨A :: A :: List.replicate k N, x⟩) :
    call L (depth + 1) f [.ref i, amplitudes A N env t, truncation env] heap =
      .ok (.none, heap.set i ⟨A :: A :: List.replicate k N, fun v => x v + added A N t ((ps.filter (live env.fl)).map (doneOf g)) v⟩) := by
  rw [call]
  simp only [hl]
  rw [if_pos (by rfl)]
  set vars := setAll (globals (R := R) L) ((contributionsParams false k).map String.toList) [.ref i, amplitudes A N env t, truncation env] with hvars
  have ep : (contributionsParams false k).map String.toList = ([wName k, "t_args", "truncation"] : List String).map String.toList := rfl
  rw [ep] at hvars
  have v1 : vars (wName k).toList = some (.ref i) := by rw [hvars]; exact setAll_at (n := 0) (params_nodup k) rfl rfl
  have v2 : vars "t_args".toList = some (amplitudes A N env t) := by rw [hvars]; exact setAll_at (n := 1) (params_nodup k) rfl rfl
  have v3 : vars "truncation".toList = some (truncation env) := by rw [hvars]; exact setAll_at (n := 2) (params_nodup k) rfl rfl
  obtain ⟨l, hwl⟩ := wName_head k
  have v4 : vars "factorial".toList = some (.imported [.word "math".toList] "factorial".toList) := by
    rw [hvars, setAll_other (by simp [hwl]), hfac]
  have sc : Scope A N k m env t i (tVars vars A N env t m) :=
    ⟨(tVars_other (by rw [hwl]; simp) (by rw [hwl]; simp)).trans v1, (tVars_other (by decide) (by decide)).trans v3, fun n h1 h2 => tVars_t hm ht h1 h2,
      (tVars_other (by decide) (by decide)).trans v4⟩
  simp only [List.cons_append, List.nil_append]
  rw [execAll_cons (E' := ⟨vars, heap⟩) (by rw [exec]), execAll_cons (E' := ⟨tVars vars A N env t m, heap⟩) (by rw [exec_unpack v2, if_pos ht])]
  rw [execAll_then (adds_blocks sc hps heap x hx), Spec.PyRun.execAll, exec]
  rfl

theorem runs_mkE (hk1 : 1 ≤ k) (hk6 : k ≤ 6) {p : List Nat} (hp : IsPartition k p) (hle : ∀ x ∈ p, x ≤ m) {c : List Nat} (hc : c.Perm p) : Runs k m (mkE k c) :=
  ⟨good_letters hk1 hk6 hp hc, ⟨_, _, mkE_multiplies hk1 hk6 hp hc⟩, (hc.sum_nat).trans hp.sum_eq, fun x hx => ⟨hp.pos x (hc.mem_iff.1 hx), hle x (hc.mem_iff.1 hx)⟩⟩

theorem call_vemx_text (hn : n ≤ 6) (h2 : 2 ≤ k) (hk : k ≤ n) (ht : k ≤ env.tlen) (depth : Nat) {heap : List (NArr R)} {x : Arr R}
    (hx : heap[i]? = some ⟨A :: A :: List.replicate k N, x⟩) :
    call (moduleAst n) (depth + 1) (contributionsName .vemx false k).toList [.ref i, amplitudes A N env t, truncation env] heap =
      .ok (.none, heap.set i ⟨A :: A :: List.replicate k N, fun v => x v + added A N t (((linkedPartitions k).filter (live env.fl)).map (doneOf (mkE k))) v⟩) := by
  have hl := lookup_of_nodup (by rw [names_moduleAst]; exact nodup_fnNames n hn) (mem_vemx (n := n) (k := k) (by omega) hk)
  have e : vemxAt mkE k = ⟨range2 1 (k - 1 + 1), some ((linkedPartitions k).map (blk (mkE k)))⟩ := by
    unfold vemxAt
    rw [if_neg (by omega), if_neg (by omega), show k - 1 + 1 = k by omega]
  rw [e] at hl
  refine call_parts (m := k - 1) hl (globals_factorial n) (by omega) (by omega) ?_ hx
  intro p hp
  obtain ⟨h3, h4⟩ := linked_mem (k := k) (by omega) p hp
  have hg := good_blk einsumReading (mkE k) (k := k) (by omega) (by omega) h3 h4 fun c hc => good_einsum (by omega) (by omega) h3 c hc
  refine ⟨fun g hg' => hg.gate g hg', hg.pref, fun c hc => runs_mkE (by omega) (by omega) h3 (fun x hx => ?_) hc⟩
  have := part_linked h3 h4 hx
  omega

theorem call_vecc_text (hn : n ≤ 6) (h2 : 4 ≤ k) (hk : k ≤ n) (ht : k ≤ env.tlen) (depth : Nat) {heap : List (NArr R)} {x : Arr R}
    (hx : heap[i]? = some ⟨A :: A :: List.replicate k N, x⟩) :
    call (moduleAst n) (depth + 1) (contributionsName .vecc false k).toList [.ref i, amplitudes A N env t, truncation env] heap =
      .ok (.none, heap.set i ⟨A :: A :: List.replicate k N, fun v => x v + added A N t (((unlinkedPartitions k).filter (live env.fl)).map (doneOf (mkE k))) v⟩) := by
  have hl := lookup_of_nodup (by rw [names_moduleAst]; exact nodup_fnNames n hn) (mem_vecc (n := n) (k := k) (by omega) hk)
  have e : veccAt mkE k = ⟨range2 1 (k - 2 + 1), some ((unlinkedPartitions k).map (blk (mkE k)))⟩ := by
    unfold veccAt
    rw [if_neg (by omega), if_neg (by omega), show k - 2 + 1 = k - 1 by omega]
  rw [e] at hl
  refine call_parts (m := k - 2) hl (globals_factorial n) (by omega) (by omega) ?_ hx
  intro p hp
  obtain ⟨h3, h4⟩ := unlinked_mem (k := k) (by omega) p hp
  have hg := good_blk einsumReading (mkE k) (k := k) (by omega) (by omega) h3 h4 fun c hc => good_einsum (by omega) (by omega) h3 c hc
  refine ⟨fun g hg' => hg.gate g hg', hg.pref, fun c hc => runs_mkE (by omega) (by omega) h3 (fun x hx => ?_) hc⟩
  have hp' := (unlinked_exact k (by omega) p).1 hp
  have := part_unlinked h2 hp'.1 hp'.2 hx
  omega

end

/-! ## The function of an order -/

/-- the array an order adds up -/
def addedAt (A N : Nat) (env : Spec.W.Env) (t : Nat → Arr R) (k : Nat) : Arr R := added A N t (veciDone env k ++ mixedDone mkE env k ++ ccDone mkE env k)

/-- the value the function of an order returns if its array is the one with the number `p` -/
def valueAt (A N : Nat) (env : Spec.W.Env) (t : Nat → Arr R) (p k : Nat) : Val R := if k = 1 then .ref p else .arr (tensor A N k (symSum k (addedAt A N env t k)))

section
variable {A N k n i : Nat} {env : Spec.W.Env} {t : Nat → Arr R} {vars : List Char → Option (Val R)} {fs : Functions R}

theorem call_symmetrize (hn : n ≤ 6) (depth : Nat) {heap : List (NArr R)} {x : Arr R} (hx : heap[i]? = some ⟨A :: A :: List.replicate k N, x⟩) :
    call (moduleAst n) (depth + 1) "symmetrize_tensor".toList [.num N, .ref i, .kw "order".toList (.num k)] heap = .ok (.arr ⟨A :: A :: List.replicate k N, symSum k x⟩, heap) := by
  rw [call]
  simp only [lookup_none (l := moduleAst n) (by rw [names_moduleAst]; exact symmetrize_not_mem n hn), globals_symmetrize]
  unfold callImported
  rw [if_neg (by simp), if_pos (by simp)]
  simp only [natural_nat, array, hx]
  rw [if_pos trivial, if_pos (by simp)]
  rfl

theorem adds_veci (sc : Scope A N k k env t i vars) (h2 : 2 ≤ k) (h6 : k ≤ 6) :
    Adds fs vars i (A :: A :: List.replicate k N) [.cond (Reading.gateExpr ((orderTags[k]?).getD "")) [.add (wName k).toList (.prod (prefTerm [k] (nameExpr (tString k))))] []]
      (added A N t (veciDone env k)) := by
  have hm : maxPart [k] = k := rfl
  have e1 : live env.fl [k] = env.fl k := by
    unfold live gateOf
    rw [hm, if_pos (by omega)]
    rfl
  have e2 : prefOf [k] = [k] := by
    unfold prefOf
    rw [hm, if_neg (by omega), if_neg (by omega)]
    rfl
  unfold veciDone
  rw [e1, e2]
  refine Adds.branch (fun heap => eval_flag sc.truncation (by omega) h6 heap) ?_ ?_
  · intro hfl
    rw [if_pos hfl]
    refine (adds_array (k := k) (y := fun v => overFactorials [k] • t k v) sc.W fun heap => ?_).cast (added_direct A N t [k] k).symm
    exact eval_pref sc.factorial heap (by simp) (x := tensor A N k (t k)) (by simp only [nameExpr, eval, number_t, sc.t k (by omega) (by omega)])
  · intro hfl
    rw [if_neg (by simp [hfl])]
    exact Adds.nil.cast (added_nil A N t).symm

theorem adds_call {f : String} {y : Arr R} (hW : vars (wName k).toList = some (.ref i)) (ht : vars "t_args".toList = some (amplitudes A N env t))
    (htr : vars "truncation".toList = some (truncation env))
    (h : ∀ (heap : List (NArr R)) (x : Arr R), heap[i]? = some ⟨A :: A :: List.replicate k N, x⟩ →
      fs f.toList [.ref i, amplitudes A N env t, truncation env] heap = .ok (.none, heap.set i ⟨A :: A :: List.replicate k N, fun v => x v + y v⟩)) :
    Adds fs vars i (A :: A :: List.replicate k N) [.expr (.call (nameExpr f) [nameExpr (wName k), nameExpr "t_args", nameExpr "truncation"])] y := by
  intro heap x hx
  obtain ⟨l, hwl⟩ := wName_head k
  suffices hl : evalList ⟨vars, heap⟩ (([wName k, "t_args", "truncation"] : List String).map nameExpr) = .ok [.ref i, amplitudes A N env t, truncation env] by
    have := exec_call (fs := fs) (f := f) hl (h heap x hx)
    simp only [List.map_cons, List.map_nil] at this
    rw [execAll_cons this, Spec.PyRun.execAll]
  exact evalList_names (.cons ⟨by rw [hwl]; exact number_none (by simp), hW⟩ (.cons ⟨number_none (by decide), ht⟩ (.cons ⟨number_none (by decide), htr⟩ .nil)))

theorem eval_ansatz (ha : vars "ansatz".toList = some (ansatz env)) (heap : List (NArr R)) :
    eval ⟨vars, heap⟩ (.attr (nameExpr "ansatz") "VE_MIXED".toList) = .ok (.bool env.mixed) ∧ eval ⟨vars, heap⟩ (.attr (nameExpr "ansatz") "VECC".toList) = .ok (.bool env.cc) := by
  have hn : number "ansatz".toList = Option.none := number_none (by decide)
  have e1 : [("VE_MIXED", env.mixed), ("VECC", env.cc)].lookup "VE_MIXED" = some env.mixed := rfl
  have e2 : [("VE_MIXED", env.mixed), ("VECC", env.cc)].lookup "VECC" = some env.cc := rfl
  constructor
  · simp only [nameExpr, eval, hn, ha, TF.Spec.WCall.ansatz, String.ofList_toList, e1]
  · simp only [nameExpr, eval, hn, ha, TF.Spec.WCall.ansatz, String.ofList_toList, e2]

theorem adds_ansatz (hn : n ≤ 6) (h2 : 2 ≤ k) (hk : k ≤ n) (ht : k ≤ env.tlen) (depth : Nat) (hW : vars (wName k).toList = some (.ref i))
    (hta : vars "t_args".toList = some (amplitudes A N env t)) (htr : vars "truncation".toList = some (truncation env)) (ha : vars "ansatz".toList = some (ansatz env)) :
    Adds (call (moduleAst n) (depth + 1)) vars i (A :: A :: List.replicate k N) [ansatzAst false k (decide (4 ≤ k))] (added A N t (mixedDone mkE env k ++ ccDone mkE env k)) := by
  have c1 : Adds (call (moduleAst n) (depth + 1)) vars i (A :: A :: List.replicate k N) [callAst .vemx false k]
      (added A N t (((linkedPartitions k).filter (live env.fl)).map (doneOf (mkE k)))) :=
    adds_call hW hta htr fun heap x hx => call_vemx_text hn h2 hk ht depth hx
  unfold ansatzAst mixedDone ccDone
  refine Adds.branch (fun heap => (eval_ansatz ha heap).1) ?_ ?_
  · intro hm
    simpa [hm] using c1
  · intro hm
    refine Adds.branch (fun heap => (eval_ansatz ha heap).2) ?_ ?_
    · intro hc
      simp only [hm, hc, Bool.or_true, if_true, Bool.not_false, Bool.and_self]
      rw [added_append]
      refine Adds.append (a := [callAst .vemx false k]) c1 ?_
      by_cases h4 : 4 ≤ k
      · rw [decide_eq_true h4, if_pos rfl]
        exact adds_call hW hta htr fun heap x hx => call_vecc_text hn h4 hk ht depth hx
      · rw [decide_eq_false h4, if_neg (by simp), unlinked_lt (by omega)]
        exact Adds.pass.cast (added_nil A N t).symm
    · intro hc
      simp only [hm, hc, Bool.or_self, Bool.false_eq_true, if_false, Bool.and_false]
      exact Adds.nil.cast (added_nil A N t).symm

theorem set_last (heap : List (NArr R)) (x y : NArr R) : (heap ++ [x]).set heap.length y = heap ++ [y] := by
  rw [List.set_append_right _ _ (by omega)]
  simp

/-- a call of the function of an order -/
theorem call_wFn (hn : n ≤ 6) (h1 : 1 ≤ k) (hk : k ≤ n) (depth : Nat) (heap : List (NArr R)) :
    call (moduleAst n) (depth + 2) (wFnName false k).toList (inputs A N env t) heap =
      if env.tlen < k then .error .value else .ok (valueAt A N env t heap.length k, heap ++ [tensor A N k (addedAt A N env t k)]) := by
  have hl := lookup_of_nodup (by rw [names_moduleAst]; exact nodup_fnNames n hn) (mem_wFn (n := n) (k := k) h1 hk)
  rw [call]
  simp only [hl]
  rw [if_pos (by rfl)]
  set vars := setAll (globals (R := R) (moduleAst n)) ((wParams false).map String.toList) (inputs A N env t) with hvars
  have v1 : vars "A".toList = some (.num A) := by rw [hvars]; exact setAll_at (n := 0) (by decide) rfl rfl
  have v2 : vars "N".toList = some (.num N) := by rw [hvars]; exact setAll_at (n := 1) (by decide) rfl rfl
  have v3 : vars "t_args".toList = some (amplitudes A N env t) := by rw [hvars]; exact setAll_at (n := 2) (by decide) rfl rfl
  have v4 : vars "ansatz".toList = some (ansatz env) := by rw [hvars]; exact setAll_at (n := 3) (by decide) rfl rfl
  have v5 : vars "truncation".toList = some (truncation env) := by rw [hvars]; exact setAll_at (n := 4) (by decide) rfl rfl
  have v6 : vars "factorial".toList = some (.imported [.word "math".toList] "factorial".toList) := by
    rw [hvars, setAll_other (by decide), globals_factorial]
  unfold wBody
  simp only [List.cons_append, List.nil_append]
  rw [execAll_cons (E' := ⟨vars, heap⟩) (by rw [exec])]
  by_cases ht : env.tlen < k
  · rw [Spec.PyRun.execAll, exec_unpack v3, if_neg (by omega), if_pos ht]
  rw [if_neg ht, execAll_cons (E' := ⟨tVars vars A N env t k, heap⟩) (by rw [exec_unpack v3, if_pos (by omega)])]
  have a1 : number "A".toList = Option.none := number_none (by decide)
  have a2 : number "N".toList = Option.none := number_none (by decide)
  have hz := exec_zerosAt (fs := call (moduleAst n) (depth + 1)) (vars := tVars vars A N env t k) (heap := heap) (ws := "A" :: "A" :: List.replicate k "N") (ns := A :: A :: List.replicate k N) (by simp)
    (by
      have hA := (tVars_other (A := A) (N := N) (env := env) (t := t) (m := k) (vars := vars) (w := "A".toList) (by decide) (by decide)).trans v1
      have hN := (tVars_other (A := A) (N := N) (env := env) (t := t) (m := k) (vars := vars) (w := "N".toList) (by decide) (by decide)).trans v2
      refine .cons ⟨a1, hA⟩ (.cons ⟨a1, hA⟩ ?_)
      rw [List.forall₂_iff_get]
      refine ⟨by simp, fun i h1 h2 => ?_⟩
      simp only [List.get_eq_getElem, List.getElem_replicate]
      exact ⟨a2, hN⟩) (wName k).toList
  rw [execAll_cons (show exec _ _ (zeroW k) = _ from hz)]
  set vars2 := Spec.PyRun.set (tVars vars A N env t k) (wName k).toList (.ref heap.length) with hvars2
  obtain ⟨l, hwl⟩ := wName_head k
  have keep : ∀ w : List Char, w.head? ≠ some 'W' → w.take 3 ≠ ['t', '_', 'i'] → w ≠ "unusedargs".toList → vars2 w = vars w := by
    intro w hw h1 h2
    rw [hvars2, set_other _ _ (by rintro rfl; rw [hwl] at hw; simp at hw), tVars_other h1 h2]
  have sc : Scope A N k k env t heap.length vars2 := by
    refine ⟨by rw [hvars2, set_same], (keep _ (by decide) (by decide) (by decide)).trans v5, fun n h1 h2 => ?_, (keep _ (by decide) (by decide) (by decide)).trans v6⟩
    rw [hvars2, set_other _ _ (by rw [hwl, tString_toList]; simp)]
    exact tVars_t (by omega) (by omega) h1 h2
  have hx : (heap ++ [(⟨A :: A :: List.replicate k N, fun _ => 0⟩ : NArr R)])[heap.length]? = some ⟨A :: A :: List.replicate k N, fun _ => 0⟩ := by simp
  have nW : number (wName k).toList = Option.none := by rw [hwl]; exact number_none (by simp)
  by_cases hk1 : k = 1
  · subst hk1
    rw [if_pos rfl]
    have hadd : Adds (call (moduleAst n) (depth + 1)) vars2 heap.length (A :: A :: List.replicate 1 N) [.add (wName 1).toList (nameExpr (tString 1))] (addedAt A N env t 1) := by
      refine (adds_array (k := 1) (y := t 1) sc.W fun heap => by simp only [nameExpr, eval, number_t, sc.t 1 (by omega) (by omega)]; rfl).cast ?_
      unfold addedAt mixedDone ccDone
      rw [linked_one, unlinked_lt (by omega)]
      have e1 : (veciDone env 1 : List (Done Einsum)) = [⟨[], some 1, []⟩] := rfl
      rw [e1]
      simp only [List.filter_nil, List.map_nil, ite_self, List.append_nil]
      rw [added_direct]
      funext v
      simp [overFactorials]
    rw [show ∀ a b : Spec.Source.Stmt, [a, b] = [a] ++ [b] from fun _ _ => rfl, execAll_then (hadd _ _ hx), Spec.PyRun.execAll, exec, set_last]
    simp only [nameExpr, evalTop, eval, nW, sc.W, Except.map, zero_add]
    rfl
  · rw [if_neg hk1]
    have h2 : 2 ≤ k := by omega
    have hadd := (adds_veci (fs := call (moduleAst n) (depth + 1)) sc h2 (by omega)).append (adds_ansatz (A := A) (N := N) (i := heap.length) (env := env) (t := t) hn h2 hk (by omega) depth sc.W
      ((keep _ (by decide) (by decide) (by decide)).trans v3) sc.truncation ((keep _ (by decide) (by decide) (by decide)).trans v4))
    have e := hadd _ _ hx
    rw [← added_append] at e
    simp only [List.cons_append, List.nil_append] at e
    rw [show ∀ a b c d : Spec.Source.Stmt, [a, b, c, d] = [a, b] ++ [c, d] from fun _ _ _ _ => rfl, execAll_then e, set_last]
    simp only [zero_add]
    have e2 : added A N t (veciDone env k ++ (mixedDone mkE env k ++ ccDone mkE env k)) = addedAt A N env t k := by unfold addedAt; rw [List.append_assoc]
    rw [e2]
    have hy : (heap ++ [(⟨A :: A :: List.replicate k N, addedAt A N env t k⟩ : NArr R)])[heap.length]? = some ⟨A :: A :: List.replicate k N, addedAt A N env t k⟩ := by simp
    have hs : exec (call (moduleAst n) (depth + 1)) ⟨vars2, heap ++ [(⟨A :: A :: List.replicate k N, addedAt A N env t k⟩ : NArr R)]⟩ (symAst k) =
        .ok (none, ⟨Spec.PyRun.set vars2 "symmetric_w".toList (.arr (tensor A N k (symSum k (addedAt A N env t k)))),
          heap ++ [(⟨A :: A :: List.replicate k N, addedAt A N env t k⟩ : NArr R)]⟩) := by
      unfold symAst
      rw [exec]
      have vN := (keep "N".toList (by decide) (by decide) (by decide)).trans v2
      simp only [nameExpr, natWord, evalTop, evalList, eval, a2, vN, nW, sc.W, number_nat, Except.map, call_symmetrize hn depth hy]
      rfl
    rw [execAll_cons hs, Spec.PyRun.execAll, exec]
    have ns : number "symmetric_w".toList = Option.none := number_none (by decide)
    simp only [nameExpr, evalTop, eval, ns, set_same, Except.map]
    unfold valueAt
    rw [if_neg hk1]
    rfl

end

end TF.W
