import Verif.Lemmas.FullCC.SourceRun

/-!
# Calling the functions of the text of a generated full-CC module
-/

namespace TF.CC

set_option maxRecDepth 10000

open TF.Py TF.Spec TF.Spec.CCRun TF.Spec.Tensor TF.Tensor TF.Spec.PyRun TF.Spec.CCCall
open TF.Spec.Source (Expr nameExpr)
open TF.ETPy (importAst)

variable {R : Type} [CommRing R] [Algebra Rat R]

/-! ## Finding the functions -/

/-- the module as statements -/
noncomputable def moduleAst (F : List OmegaCode) : List Spec.Source.Stmt := importAst ++ (taggedDefs F).map defAst

theorem lookup_tagged (f : String) {b : Body} : ∀ {D : List ((String × Body) × String)}, ((D.map Prod.fst).find? fun d => d.1 == f).map Prod.snd = some b →
    ∃ tag, (D.map defAst).findSome? (definitionOf f.toList) = some ((defParams tag b).map String.toList, defBody tag b)
  | [], h => by simp at h
  | d :: D, h => by
    rw [List.map_cons, List.findSome?_cons]
    rw [List.map_cons, List.find?_cons] at h
    by_cases hf : d.1.1 = f
    · have h' : (d.1.1 == f) = true := by simpa using hf
      rw [h'] at h
      simp only [Option.map_some, Option.some.injEq] at h
      refine ⟨d.2, ?_⟩
      simp only [defAst, definitionOf, hf, if_true, h]
    · have h' : (d.1.1 == f) = false := by simpa using hf
      have h'' : d.1.1.toList ≠ f.toList := fun e => hf (String.toList_injective e)
      rw [h'] at h
      obtain ⟨tag, h⟩ := lookup_tagged f (D := D) h
      refine ⟨tag, ?_⟩
      simp only [defAst, definitionOf, if_neg h'']
      exact h

/-- the definition a name means -/
theorem lookup_text {F : List OmegaCode} {f : String} {b : Body} (h : Spec.CCRun.lookup (moduleDefs F) f = some b) :
    ∃ tag, Spec.PyRun.lookup (moduleAst F) f.toList = some ((defParams tag b).map String.toList, defBody tag b) := by
  unfold Spec.CCRun.lookup at h
  rw [← taggedDefs_defs, ← List.map_reverse] at h
  obtain ⟨tag, h⟩ := lookup_tagged f h
  refine ⟨tag, ?_⟩
  unfold Spec.PyRun.lookup moduleAst
  rw [List.reverse_append, List.findSome?_append, ← List.map_reverse, h]
  rfl

omit [CommRing R] [Algebra Rat R] in
theorem module_factorial (F : List OmegaCode) : globals (R := R) (moduleAst F) "factorial".toList = some (.imported [.word "math".toList] "factorial".toList) := by
  unfold globals moduleAst
  rw [if_neg (by decide), List.findSome?_append]
  rfl

/-! ## Functions with terms -/

/-- the arguments of a function with terms -/
def addArgs (A N : Nat) (env : Caller) (h t : Nat × Nat → Arr R) (i : Nat) : List (Val R) :=
  [.ref i, ansatz env, truncation env, argument A N env.h h, argument A N env.t t]

theorem addParams_nodup : (addParams.map String.toList).Nodup := by decide

section
variable {A N n i : Nat} {env : Caller} {h t : Nat × Nat → Arr R} {F : List OmegaCode}

omit [CommRing R] [Algebra Rat R] in
theorem scope_add (F : List OmegaCode) (A N : Nat) (env : Caller) (h t : Nat × Nat → Arr R) (i : Nat) :
    Scope A N env h t i (setAll (globals (moduleAst F)) (addParams.map String.toList) (addArgs A N env h t i)) where
  tensor := setAll_at (n := 0) addParams_nodup rfl rfl
  ansatz := setAll_at (n := 1) addParams_nodup rfl rfl
  truncation := setAll_at (n := 2) addParams_nodup rfl rfl
  h_args := setAll_at (n := 3) addParams_nodup rfl rfl
  t_args := setAll_at (n := 4) addParams_nodup rfl rfl
  factorial := by rw [setAll_other (by decide), module_factorial]

theorem eval_ground {vars : List Char → Option (Val R)} (sc : Scope A N env h t i vars) (heap : List (NArr R)) :
    eval ⟨vars, heap⟩ (.attr (nameExpr "ansatz") "ground_state".toList) = .ok (.bool env.ground) := by
  have hn : number "ansatz".toList = Option.none := number_none (by decide)
  simp only [nameExpr, eval, hn, sc.ansatz, CCCall.ansatz, String.ofList_toList]
  rfl

/-- a call of a function with terms -/
theorem call_add {f : String} {p : Program Einsum} (hf : Spec.CCRun.lookup (moduleDefs F) f = some (.add p)) (hg : env.ground = true)
    (hp : GoodProgram (GoodSum A N n env h t) p) (ha : ∀ a ∈ p.adds, a.1 + a.2 = n ∧ env.h a = true) (depth : Nat) {heap : List (NArr R)} {y : Arr R}
    (hi : heap[i]? = some ⟨A :: A :: List.replicate n N, y⟩) :
    call (moduleAst F) (depth + 1) f.toList (addArgs A N env h t i) heap =
      .ok (.none, heap.set i ⟨A :: A :: List.replicate n N, fun v => y v + returned A N h t (addsOf env.fl p) v⟩) := by
  obtain ⟨tag, hl⟩ := lookup_text hf
  rw [call]
  simp only [hl]
  have sc := scope_add F A N env h t i
  have h1 := adds_program (fs := call (moduleAst F) depth) sc hp ha heap y hi
  have hc : exec (call (moduleAst F) depth) ⟨setAll (globals (moduleAst F)) (addParams.map String.toList) (addArgs A N env h t i), heap⟩
      (groundAst (progAst (groupAst einsumReading) p)) = .ok (none, ⟨setAll (globals (moduleAst F)) (addParams.map String.toList) (addArgs A N env h t i),
        heap.set i ⟨A :: A :: List.replicate n N, fun v => y v + returned A N h t (addsOf env.fl p) v⟩⟩) := by
    rw [groundAst, exec, eval_ground sc heap, hg]
    exact h1
  have hb : execAll (call (moduleAst F) depth) ⟨setAll (globals (moduleAst F)) (addParams.map String.toList) (addArgs A N env h t i), heap⟩ (defBody tag (.add p)) =
      .ok (some .none, ⟨setAll (globals (moduleAst F)) (addParams.map String.toList) (addArgs A N env h t i),
        heap.set i ⟨A :: A :: List.replicate n N, fun v => y v + returned A N h t (addsOf env.fl p) v⟩⟩) := by
    show execAll _ _ [.doc, _, .ret none] = _
    have h1 : ∀ E : Env R, exec (call (moduleAst F) depth) E .doc = .ok (none, E) := fun E => by rw [exec]
    have h2 : ∀ E : Env R, exec (call (moduleAst F) depth) E (.ret none) = .ok (some .none, E) := fun E => by rw [exec]
    simp only [execAll, h1, h2, hc]
  have hlen : ((defParams tag (.add p)).map String.toList).length = (addArgs A N env h t i).length := rfl
  have he : (defParams tag (.add p)).map String.toList = addParams.map String.toList := rfl
  rw [if_pos hlen, he, hb]
  rfl

/-- without the ground state -/
theorem call_add_hot {f : String} {p : Program Einsum} (hf : Spec.CCRun.lookup (moduleDefs F) f = some (.add p)) (hg : env.ground = false) (depth : Nat) (heap : List (NArr R)) :
    call (moduleAst F) (depth + 1) f.toList (addArgs A N env h t i) heap = .error .notImplemented := by
  obtain ⟨tag, hl⟩ := lookup_text hf
  rw [call]
  simp only [hl]
  have sc := scope_add F A N env h t i
  have hlen : ((defParams tag (.add p)).map String.toList).length = (addArgs A N env h t i).length := rfl
  have he : (defParams tag (.add p)).map String.toList = addParams.map String.toList := rfl
  have hc : exec (call (moduleAst F) depth) ⟨setAll (globals (moduleAst F)) (addParams.map String.toList) (addArgs A N env h t i), heap⟩
      (groundAst (progAst (groupAst einsumReading) p)) = .error .notImplemented := by
    rw [groundAst, exec, eval_ground sc heap, hg]
    simp only
    rw [execAll, hotAst, exec]
    rfl
  have hb : execAll (call (moduleAst F) depth) ⟨setAll (globals (moduleAst F)) (addParams.map String.toList) (addArgs A N env h t i), heap⟩ (defBody tag (.add p)) =
      .error .notImplemented := by
    show execAll _ _ [.doc, _, .ret none] = _
    have h1 : ∀ E : Env R, exec (call (moduleAst F) depth) E .doc = .ok (none, E) := fun E => by rw [exec]
    simp only [execAll, h1, hc]
  rw [if_pos hlen, he, hb]

/-! ## The function that returns the array -/

/-- the variables at the beginning -/
noncomputable def startVars (F : List OmegaCode) (A N : Nat) (env : Caller) (h t : Nat × Nat → Arr R) : List Char → Option (Val R) :=
  setAll (globals (moduleAst F)) ((["A", "N", "ansatz", "truncation", "h_args", "t_args"] : List String).map String.toList) (inputs A N env h t)

theorem start_nodup : ((["A", "N", "ansatz", "truncation", "h_args", "t_args"] : List String).map String.toList).Nodup := by decide

theorem exec_confirm {fs : Functions R} {vars : List Char → Option (Val R)} {heap : List (NArr R)} (hv : vars "truncation".toList = some (truncation env)) :
    exec fs ⟨vars, heap⟩ confirmAst = if env.singles = true then .ok (none, ⟨vars, heap⟩) else .error .exception := by
  have hne : "truncation".toList ≠ "np".toList := by decide
  have hm : (methods env).lookup ("confirm_at_least_" ++ "singles") = some (if env.singles = true then .ok () else .error .exception) := rfl
  have h1 : evalTop fs ⟨vars, heap⟩ (.call (.attr (nameExpr "truncation") ("confirm_at_least_" ++ "singles").toList) []) =
      if env.singles = true then .ok (.none, heap) else .error .exception := by
    simp only [evalTop, nameExpr, eval, evalList, hv, hne, false_and, if_false]
    simp only [CCCall.truncation, callMethod, String.ofList_toList, hm]
    cases env.singles <;> rfl
  rw [confirmAst, exec, h1]
  cases env.singles <;> rfl

theorem exec_new {fs : Functions R} {vars : List Char → Option (Val R)} {heap : List (NArr R)} (hA : vars "A".toList = some (.num A))
    (hN : vars "N".toList = some (.num N)) (n : Nat) (w : List Char) :
    exec fs ⟨vars, heap⟩ (.assign [w] (newExpr n)) = .ok (none, ⟨Spec.PyRun.set vars w (.ref heap.length), heap ++ [⟨A :: A :: List.replicate n N, fun _ => 0⟩]⟩) := by
  have a0 : number "A".toList = Option.none := number_none (by decide)
  have n0 : number "N".toList = Option.none := number_none (by decide)
  obtain ⟨v, h1, h2⟩ := eval_names (vars := vars) (heap := heap) (ws := "A" :: "A" :: List.replicate n "N") (ns := A :: A :: List.replicate n N) (by simp) (by
    refine .cons ⟨a0, hA⟩ (.cons ⟨a0, hA⟩ ?_)
    clear hA
    induction n with
    | zero => exact .nil
    | succ n ih => exact .cons ⟨n0, hN⟩ ih)
  have e : Spec.Source.group (("A" :: "A" :: List.replicate n "N").map nameExpr) = shapeExpr n := by
    simp [Spec.Source.group, shapeExpr]
  rw [e] at h1
  have h3 : shapeArg [.kw "shape".toList (shapeExpr n), .kw "dtype".toList (nameExpr "complex")] = some (shapeExpr n) := by simp [shapeArg]
  have h4 : evalTop fs ⟨vars, heap⟩ (newExpr n) = .ok (.ref heap.length, heap ++ [⟨A :: A :: List.replicate n N, fun _ => 0⟩]) := by
    simp only [newExpr, evalTop, nameExpr] at h1 h3 ⊢
    simp only [and_self, if_true, h3, h1, h2]
  rw [exec, h4]

omit [CommRing R] [Algebra Rat R] in
theorem scope_call (F : List OmegaCode) (A N : Nat) (env : Caller) (h t : Nat × Nat → Arr R) :
    List.Forall₂ (fun (w : String) v => number w.toList = none ∧ Spec.PyRun.set (startVars F A N env h t) "R".toList (.ref 0) w.toList = some v) addParams (addArgs A N env h t 0) := by
  have o : ∀ {w : List Char} {v : Val R}, w ≠ "R".toList → startVars F A N env h t w = some v → Spec.PyRun.set (startVars F A N env h t) "R".toList (.ref 0) w = some v :=
    fun hw hv => by rw [set_other _ _ hw, hv]
  refine .cons ⟨number_none (by decide), by rw [set_same]⟩ (.cons ⟨number_none (by decide), o (by decide) ?_⟩ (.cons ⟨number_none (by decide), o (by decide) ?_⟩
    (.cons ⟨number_none (by decide), o (by decide) ?_⟩ (.cons ⟨number_none (by decide), o (by decide) ?_⟩ .nil))))
  · exact setAll_at (n := 2) start_nodup rfl rfl
  · exact setAll_at (n := 3) start_nodup rfl rfl
  · exact setAll_at (n := 4) start_nodup rfl rfl
  · exact setAll_at (n := 5) start_nodup rfl rfl

theorem exec_call_error {fs : Functions R} {E : Env R} {f : String} {ws : List String} {vs : List (Val R)} {x : PyErr}
    (h : evalList E (ws.map nameExpr) = .ok vs) (h' : fs f.toList vs E.heap = .error x) :
    exec fs E (callAst f ws) = .error x := by
  have : evalTop fs E (.call (nameExpr f) (ws.map nameExpr)) = .error x := by
    unfold nameExpr at h ⊢
    simp only [evalTop, h, h']
  rw [callAst, exec, this]

theorem module_numpy (F : List OmegaCode) : (moduleAst F).any importsNumpy = true := by
  unfold moduleAst
  rw [List.any_append]
  have : importAst.any importsNumpy = true := rfl
  rw [this, Bool.true_or]

/-- a call of the function that returns the array -/
theorem call_amplitude {f f0 f1 f2 : String} {p0 p1 p2 : Program Einsum} (hf : Spec.CCRun.lookup (moduleDefs F) f = some (.amplitude n [f0, f1, f2]))
    (h0 : Spec.CCRun.lookup (moduleDefs F) f0 = some (.add p0)) (h1 : Spec.CCRun.lookup (moduleDefs F) f1 = some (.add p1))
    (h2 : Spec.CCRun.lookup (moduleDefs F) f2 = some (.add p2)) :
    (env.singles = false → callArray (moduleAst F) 2 f.toList (inputs A N env h t) = .error .exception) ∧
    (env.singles = true → env.ground = false → callArray (moduleAst F) 2 f.toList (inputs A N env h t) = .error .notImplemented) ∧
    (env.singles = true → env.ground = true → (∀ p ∈ [p0, p1, p2], GoodProgram (GoodSum A N n env h t) p ∧ ∀ a ∈ p.adds, a.1 + a.2 = n ∧ env.h a = true) →
      callArray (moduleAst F) 2 f.toList (inputs A N env h t) =
        .ok ⟨A :: A :: List.replicate n N, returned A N h t (addsOf env.fl p0 ++ (addsOf env.fl p1 ++ addsOf env.fl p2))⟩) := by
  obtain ⟨tag, hl⟩ := lookup_text hf
  have hlen : ((defParams tag (.amplitude n [f0, f1, f2])).map String.toList).length = (inputs A N env h t).length := rfl
  have he : setAll (globals (moduleAst F)) ((defParams tag (.amplitude n [f0, f1, f2])).map String.toList) (inputs A N env h t) = startVars F A N env h t := rfl
  have hbody : defBody tag (.amplitude n [f0, f1, f2]) =
      [.doc, confirmAst, .assign ["R".toList] (newExpr n), callAst f0 addParams, callAst f1 addParams, callAst f2 addParams, .ret (some (nameExpr "R"))] := rfl
  have hdoc : ∀ E : Env R, exec (call (moduleAst F) 1) E .doc = .ok (none, E) := fun E => by rw [exec]
  have v1 : startVars F A N env h t "A".toList = some (.num A) := setAll_at (n := 0) start_nodup rfl rfl
  have v2 : startVars F A N env h t "N".toList = some (.num N) := setAll_at (n := 1) start_nodup rfl rfl
  have v3 : startVars F A N env h t "truncation".toList = some (truncation env) := setAll_at (n := 3) start_nodup rfl rfl
  have sc := scope_call F A N env h t
  unfold callArray
  rw [if_pos (module_numpy F), call]
  simp only [hl]
  rw [if_pos hlen, he, hbody, execAll_cons (hdoc _), execAll, exec_confirm v3]
  refine ⟨fun hs => by rw [hs]; rfl, fun hs hg => ?_, fun hs hg hp => ?_⟩
  · rw [hs, if_pos rfl]
    simp only
    rw [execAll_cons (exec_new v1 v2 n _)]
    simp only [List.length_nil, List.nil_append]
    rw [execAll, exec_call_error (evalList_names sc) (call_add_hot h0 hg 0 _)]
  · rw [hs, if_pos rfl]
    simp only
    have c0 := call_add (i := 0) (f := f0) (n := n) (A := A) (N := N) (h := h) (t := t) h0 hg (hp p0 (by simp)).1 (hp p0 (by simp)).2 0
      (heap := [⟨A :: A :: List.replicate n N, fun _ => 0⟩]) (y := fun _ => 0) rfl
    have c1 := call_add (i := 0) (f := f1) (n := n) (A := A) (N := N) (h := h) (t := t) h1 hg (hp p1 (by simp)).1 (hp p1 (by simp)).2 0
      (heap := [⟨A :: A :: List.replicate n N, fun v => 0 + returned A N h t (addsOf env.fl p0) v⟩]) rfl
    have c2 := call_add (i := 0) (f := f2) (n := n) (A := A) (N := N) (h := h) (t := t) h2 hg (hp p2 (by simp)).1 (hp p2 (by simp)).2 0
      (heap := [⟨A :: A :: List.replicate n N, fun v => 0 + returned A N h t (addsOf env.fl p0) v + returned A N h t (addsOf env.fl p1) v⟩]) rfl
    rw [execAll_cons (exec_new v1 v2 n _)]
    unfold callAst
    simp only [List.length_nil, List.nil_append]
    rw [execAll_cons (exec_call (evalList_names sc) c0)]
    simp only [List.set_cons_zero]
    rw [execAll_cons (exec_call (evalList_names sc) c1)]
    simp only [List.set_cons_zero]
    rw [execAll_cons (exec_call (evalList_names sc) c2)]
    simp only [List.set_cons_zero]
    have hR : number "R".toList = Option.none := number_none (by decide)
    have hv : Spec.PyRun.set (startVars F A N env h t) "R".toList (.ref 0) "R".toList = some (.ref 0) := set_same _ _ _
    rw [execAll, exec]
    simp only [nameExpr, evalTop, eval, hR, hv, Except.map]
    simp only [Option.getD_some, array, List.getElem?_cons_zero]
    rw [returned_append, returned_append]
    simp only [zero_add, add_assoc]

end

omit [Algebra Rat R] in
/-- the sums of a generated program can be computed -/
theorem goodSum_of {so : SetOrder Nat} {sol : SetOrder (List T)} {hMax cc smax omegaMax : Nat} (hcc : 1 ≤ cc) (hcc' : cc ≤ 6) (hH : hMax ≤ 5) (hS : smax ≤ 6)
    (hP : omegaMax ≤ 6) {omega : Op} (ho : omega ∈ omegaOps cc omegaMax) {L : List Term} (hL : termsFor sol true true hMax cc smax omega = .ok L)
    {l : List Term} (hl : ∀ t ∈ l, t ∈ L) {p : Program Einsum} (hp : writeDefault so hMax cc l = .ok p) {env : Caller} (hfull : FullArgs hMax cc env)
    (A N : Nat) (h t : Nat × Nat → Arr R) :
    GoodProgram (GoodSum A N (omega.m + omega.n) env h t) p ∧ ∀ a ∈ p.adds, a.1 + a.2 = omega.m + omega.n ∧ env.h a = true := by
  constructor
  · refine good_of_write hp hH hcc' fun x hx hz is hi => ?_
    have hfit := fitsCode_of_generated sol true true hMax cc smax omegaMax hcc (by omega) hS hP omega ho L hL x (hl x hx) hz
    have hg := (good_items hfit so).1 is hi
    obtain ⟨es, e1, _, e3⟩ := einsums_wellformed x hfit
    rw [hi] at e1
    cases e1
    obtain ⟨d1, d2, _, _, d5, _⟩ := term_data sol true true hMax cc smax hcc omega L hL x (hl x hx)
    obtain ⟨n1, n2⟩ := term_ts_ne_nil sol true true hMax cc smax hcc omega L hL x (hl x hx)
    refine ⟨hg.pref, hg.ne, fun e he => ?_, fun e he => ?_⟩
    · obtain ⟨mid, vh, order, hE⟩ := e3 e he
      obtain ⟨_, w2, w3⟩ := word_items hfit hi e he
      rw [← d1, ← d2]
      exact runs_of hE w2 w3 A N h t
    · obtain ⟨mid, vh, order, hE⟩ := e3 e he
      rcases n2 with n2 | ⟨_, n2⟩
      · exact absurd n2 hfit.hasT
      constructor
      · rw [hE.h_key]; exact hfull.1 _ _ d5
      · intro k hk
        rw [hE.t_keys] at hk
        obtain ⟨x', hx', rfl⟩ := List.mem_map.1 hk
        have hxt : x'.1 ∈ x.ts := hE.operands.subset (List.mem_map_of_mem hx')
        obtain ⟨r1, r2, r3⟩ := n2 x'.1 hxt
        obtain ⟨r3, r4⟩ := r3 rfl
        unfold ampRank at r1 r2
        have : x'.1.n_h + x'.1.n_o = 0 := by omega
        rw [this]
        exact hfull.2 _ (by omega) (by omega)
  · intro a ha
    obtain ⟨h1, _⟩ := every_term_emitted_partial so hMax cc l p hp
    rw [h1] at ha
    obtain ⟨x, hx, rfl⟩ := List.mem_map.1 ha
    obtain ⟨hx, hz⟩ := List.mem_filter.1 hx
    obtain ⟨d1, d2, _, _, d5, _, ⟨q1, q2, q3, q4⟩, _⟩ := term_data sol true true hMax cc smax hcc omega L hL x (hl x hx)
    have hz' : x.ts = [⟨0, 0, 0, 0⟩] := by simpa [onlyH] using hz
    rw [hz'] at q1 q2 q3 q4
    simp only [List.map_cons, List.map_nil, List.sum_cons, List.sum_nil] at q1 q2 q3 q4
    exact ⟨by simp only []; omega, hfull.1 _ _ d5⟩

end TF.CC
