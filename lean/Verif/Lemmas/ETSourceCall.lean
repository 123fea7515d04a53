import Verif.Lemmas.ETSourceRun
import Verif.Props.ETValue

/-!
# Calling the functions of the text of a generated e^T module
-/

namespace TF.ETPy

open TF.Py TF.Spec.ETPy TF.Spec.ETRun TF.Spec.Tensor TF.Tensor TF.Spec.PyRun TF.Spec.ETCall TF.Spec.Source
open TF.CC (Op HOp nm)
open TF.ET (Mode)

variable {R : Type} [CommRing R] [Algebra Rat R]

/-! ## Names -/

def defParams (mode : Mode) : Body → List (List Char)
  | .terms args paths _ _ => tensor mode :: (("ansatz" :: "truncation" :: (args ++ orPath paths "opt_einsum")).map String.toList)
  | .amplitude args paths _ _ _ => ("A" :: "N" :: "ansatz" :: "truncation" :: (args ++ orPath paths "opt_paths")).map String.toList

def defBody (mode : Mode) : Body → List Spec.Source.Stmt
  | .terms _ _ g x => [.doc, .cond (.attr (nameExpr "ansatz") "ground_state".toList) (partAst mode g) (elseAst mode x), .ret none]
  | .amplitude args paths confirms axes calls =>
      (.doc :: ((confirms.map fun c => .expr (.call (.attr (nameExpr "truncation") ("confirm_at_least_" ++ c).toList) [])) ++
        (.assign [(masterTensor mode).toList] (zerosExpr axes) ::
          ((if paths then [.assign ["optimized_HZ_paths".toList, "optimized_eT_HZ_paths".toList] (nameExpr "opt_paths")] else []) ++
            (List.zipWith (callAst mode args paths) calls ["optimized_HZ_paths", "optimized_eT_HZ_paths"] ++
              [.ret (some (nameExpr (masterTensor mode)))])))))

theorem defAst_eq (mode : Mode) (d : String × Body) : defAst mode d = .defn d.1.toList (defParams mode d.2) (defBody mode d.2) := by
  obtain ⟨f, b⟩ := d
  cases b <;> rfl

/-- the definition a name means -/
theorem lookup_file (mode : Mode) (D : List (String × Body)) (f : String) :
    Spec.PyRun.lookup (importAst ++ D.map (defAst mode)) f.toList = (Spec.ETRun.lookup D f).map fun b => (defParams mode b, defBody mode b) := by
  unfold Spec.PyRun.lookup Spec.ETRun.lookup
  rw [List.reverse_append, List.findSome?_append, ← List.map_reverse]
  have h0 : importAst.reverse.findSome? (definitionOf f.toList) = none := rfl
  rw [h0, Option.or_none]
  induction D.reverse with
  | nil => rfl
  | cons d D ih =>
    rw [List.map_cons, List.findSome?_cons, defAst_eq, List.find?_cons]
    by_cases h : d.1 = f
    · simp [h, definitionOf]
    · have h' : d.1.toList ≠ f.toList := fun e => h (String.toList_injective e)
      have h'' : (d.1 == f) = false := by simpa using h
      simp only [definitionOf, if_neg h', h'']
      exact ih

/-! ## Functions with terms -/

/-- the arguments of a function with terms -/
def termsArgs (mode : Mode) (A N : Nat) (env : Caller) (args : String → Nat × Nat → Arr R) (i : Nat) (path : Option (Val R)) : List (Val R) :=
  .ref i :: ansatz env :: truncation env :: ((argNames mode).map (argument A N env args) ++ path.toList)

omit [CommRing R] [Algebra Rat R] in
theorem scope_terms (base : List Char → Option (Val R)) (mode : Mode) (A N : Nat) (env : Caller) (args : String → Nat × Nat → Arr R) (i : Nat) (path : Option (Val R)) :
    Scope mode A N env args i (setAll base
      (tensor mode :: (("ansatz" :: "truncation" :: (argNames mode ++ orPath path.isSome "opt_einsum")).map String.toList)) (termsArgs mode A N env args i path)) := by
  cases mode <;> cases path <;>
  · refine ⟨?_, ?_, ?_, ?_⟩
    · simp [setAll, Spec.PyRun.set, termsArgs, tensor, argNames, orPath]
    · simp [setAll, Spec.PyRun.set, termsArgs, tensor, argNames, orPath]
    · simp [setAll, Spec.PyRun.set, termsArgs, tensor, argNames, orPath]
    · simp [setAll, Spec.PyRun.set, termsArgs, tensor, argNames, orPath]

theorem length_terms (mode : Mode) (A N : Nat) (env : Caller) (args : String → Nat × Nat → Arr R) (i : Nat) (path : Option (Val R)) :
    (tensor mode :: (("ansatz" :: "truncation" :: (argNames mode ++ orPath path.isSome "opt_einsum")).map String.toList)).length =
      (termsArgs mode A N env args i path).length := by
  cases mode <;> cases path <;> rfl

theorem eval_ground {mode : Mode} {A N i : Nat} {env : Caller} {args : String → Nat × Nat → Arr R} {vars : List Char → Option (Val R)}
    (sc : Scope mode A N env args i vars) (heap : List (NArr R)) :
    eval ⟨vars, heap⟩ (.attr (nameExpr "ansatz") "ground_state".toList) = .ok (.bool env.ground) := by
  have hn : number "ansatz".toList = Option.none := number_none (by decide)
  simp only [nameExpr, eval, hn, sc.ansatz, TF.Spec.ETCall.ansatz, String.ofList_toList]
  rfl

theorem exec_body {fs : Functions R} {E E' : Env R} {s : Spec.Source.Stmt} (h : exec fs E s = .ok (none, E')) :
    execAll fs E [.doc, s, .ret none] = .ok (some .none, E') := by
  have h1 : exec fs E .doc = .ok (none, E) := by rw [exec]
  have h2 : exec fs E' (.ret none) = .ok (some .none, E') := by rw [exec]
  simp only [execAll, h1, h, h2]

/-- a call of a function with terms -/
theorem call_terms {mode : Mode} {A N n : Nat} {env : Caller} {args : String → Nat × Nat → Arr R} {D : List (String × Body)} {f : String} {path : Option (Val R)}
    {g : Part} {x : Option Part} (hf : Spec.ETRun.lookup D f = some (.terms (argNames mode) path.isSome g x)) {p : Part}
    (hp : (if env.ground = true then some g else x) = some p) (ht0 : ∀ l, p = .code l → ∀ b ∈ l, ∀ q ∈ b.ts, q.1 ≠ 0)
    (hl : AllGood mode A N n env args (statements p)) (hs : ShapePart p) (depth i : Nat) (heap : List (NArr R)) (y : Arr R)
    (hi : heap[i]? = some ⟨A :: List.replicate n N, y⟩) :
    call (importAst ++ D.map (defAst mode)) (depth + 1) f.toList (termsArgs mode A N env args i path) heap =
      .ok (.none, heap.set i ⟨A :: List.replicate n N, fun v => y v + TF.Spec.ETValue.returned A N args (runPart env p) v⟩) := by
  rw [call]
  simp only [lookup_file, hf]
  simp only [Option.map_some, defParams, defBody]
  rw [if_pos (length_terms mode A N env args i path)]
  have sc := scope_terms (globals (importAst ++ D.map (defAst mode))) mode A N env args i path
  have h1 := adds_part (fs := call (importAst ++ D.map (defAst mode)) depth) sc ht0 hl hs heap y hi
  have hcond : exec (call (importAst ++ D.map (defAst mode)) depth) ⟨setAll (globals (importAst ++ D.map (defAst mode)))
      (tensor mode :: (("ansatz" :: "truncation" :: (argNames mode ++ orPath path.isSome "opt_einsum")).map String.toList)) (termsArgs mode A N env args i path), heap⟩
      (.cond (.attr (nameExpr "ansatz") "ground_state".toList) (partAst mode g) (elseAst mode x)) =
      .ok (Option.none, ⟨setAll (globals (importAst ++ D.map (defAst mode)))
      (tensor mode :: (("ansatz" :: "truncation" :: (argNames mode ++ orPath path.isSome "opt_einsum")).map String.toList)) (termsArgs mode A N env args i path),
        heap.set i ⟨A :: List.replicate n N, fun v => y v + TF.Spec.ETValue.returned A N args (runPart env p) v⟩⟩) := by
    rw [exec, eval_ground sc heap]
    cases hgr : env.ground with
    | true =>
      rw [hgr, if_pos rfl] at hp
      injection hp with hp
      subst hp
      exact h1
    | false =>
      rw [hgr, if_neg (by decide)] at hp
      subst hp
      exact h1
  rw [exec_body hcond]
  rfl

/-! ## The function that returns the array -/

theorem confirm_lookup (env : Caller) {s : String} (h : s ∈ orderNames) :
    (methods env).lookup ("confirm_at_least_" ++ s) = some (if env.confirm s = true then .ok () else .error .exception) := by
  simp only [orderNames, List.mem_cons, List.not_mem_nil, or_false] at h
  rcases h with rfl | rfl | rfl | rfl | rfl | rfl <;> rfl

theorem exec_confirms {fs : Functions R} {vars : List Char → Option (Val R)} {heap : List (NArr R)} {env : Caller} (hv : vars "truncation".toList = some (truncation env)) :
    ∀ {l : List String}, (∀ s ∈ l, s ∈ orderNames) → l.all env.confirm = true →
    execAll fs ⟨vars, heap⟩ (l.map fun c => .expr (.call (.attr (nameExpr "truncation") ("confirm_at_least_" ++ c).toList) [])) = .ok (none, ⟨vars, heap⟩)
  | [], _, _ => rfl
  | s :: l, h, hc => by
    rw [List.all_cons, Bool.and_eq_true] at hc
    rw [List.map_cons, execAll, exec]
    have hne : "truncation".toList ≠ "np".toList := by decide
    have h1 : evalTop fs ⟨vars, heap⟩ (.call (.attr (nameExpr "truncation") ("confirm_at_least_" ++ s).toList) []) = .ok (.none, heap) := by
      simp only [evalTop, nameExpr, eval, evalList, if_neg hne, hv, hne, false_and, if_false]
      simp only [TF.Spec.ETCall.truncation, callMethod, String.ofList_toList, confirm_lookup env (h s (by simp)), hc.1]
      rfl
    rw [h1]
    exact exec_confirms hv (fun x hx => h x (by simp [hx])) hc.2

/-- the arguments of the two calls -/
def pathOf (paths : Option (Val R × Val R)) (second : Bool) : Option (Val R) := paths.map fun p => if second then p.2 else p.1

/-- the variables of the function that returns the array, before the calls -/
structure MasterScope (mode : Mode) (A N : Nat) (env : Caller) (args : String → Nat × Nat → Arr R) (paths : Option (Val R × Val R)) (vars : List Char → Option (Val R)) : Prop where
  first : List.Forall₂ (fun w v => number w.toList = none ∧ vars w.toList = some v)
    (masterTensor mode :: "ansatz" :: "truncation" :: (argNames mode ++ orPath paths.isSome "optimized_HZ_paths")) (termsArgs mode A N env args 0 (pathOf paths false))
  second : List.Forall₂ (fun w v => number w.toList = none ∧ vars w.toList = some v)
    (masterTensor mode :: "ansatz" :: "truncation" :: (argNames mode ++ orPath paths.isSome "optimized_eT_HZ_paths")) (termsArgs mode A N env args 0 (pathOf paths true))

/-- the variables of the function that returns the array, at the beginning -/
def masterVars (base : List Char → Option (Val R)) (mode : Mode) (A N : Nat) (env : Caller) (args : String → Nat × Nat → Arr R) (paths : Option (Val R × Val R)) : List Char → Option (Val R) :=
  setAll base (("A" :: "N" :: "ansatz" :: "truncation" :: (argNames mode ++ orPath paths.isSome "opt_paths")).map String.toList)
    (inputs mode A N env args (paths.map fun p => [p.1, p.2]))

/-- and before the calls -/
def callVars (base : List Char → Option (Val R)) (mode : Mode) (A N : Nat) (env : Caller) (args : String → Nat × Nat → Arr R) (paths : Option (Val R × Val R)) : List Char → Option (Val R) :=
  match paths with
  | none => Spec.PyRun.set (masterVars base mode A N env args paths) (masterTensor mode).toList (.ref 0)
  | some p => setAll (Spec.PyRun.set (masterVars base mode A N env args paths) (masterTensor mode).toList (.ref 0)) ["optimized_HZ_paths".toList, "optimized_eT_HZ_paths".toList] [p.1, p.2]

omit [CommRing R] [Algebra Rat R] in
theorem masterScope (base : List Char → Option (Val R)) (mode : Mode) (A N : Nat) (env : Caller) (args : String → Nat × Nat → Arr R) (paths : Option (Val R × Val R)) :
    MasterScope mode A N env args paths (callVars base mode A N env args paths) := by
  have e1 : number "R".toList = Option.none := number_none (by decide)
  have e2 : number "dz".toList = Option.none := number_none (by decide)
  have e3 : number "ansatz".toList = Option.none := number_none (by decide)
  have e4 : number "truncation".toList = Option.none := number_none (by decide)
  have e5 : number "t_args".toList = Option.none := number_none (by decide)
  have e6 : number "h_args".toList = Option.none := number_none (by decide)
  have e7 : number "z_args".toList = Option.none := number_none (by decide)
  have e8 : number "t_conj".toList = Option.none := number_none (by decide)
  have e9 : number "dT".toList = Option.none := number_none (by decide)
  have e10 : number "dz_args".toList = Option.none := number_none (by decide)
  have e11 : number "optimized_HZ_paths".toList = Option.none := number_none (by decide)
  have e12 : number "optimized_eT_HZ_paths".toList = Option.none := number_none (by decide)
  cases mode <;> cases paths <;> constructor
  all_goals
    simp only [masterTensor, argNames, orPath, termsArgs, pathOf, Option.isSome_none, Option.isSome_some, Bool.false_eq_true, if_false, if_true, List.append_nil, List.cons_append,
      List.nil_append, List.map_cons, List.map_nil, Option.map_none, Option.map_some, Option.toList_none, Option.toList_some, List.forall₂_cons, List.forall₂_nil_left_iff, and_true,
      e1, e2, e3, e4, e5, e6, e7, e8, e9, e10, e11, e12, true_and]
    simp [callVars, masterVars, setAll, Spec.PyRun.set, inputs, masterTensor, argNames, orPath]

omit [CommRing R] [Algebra Rat R] in
theorem masterVars_eq (base : List Char → Option (Val R)) (mode : Mode) (A N : Nat) (env : Caller) (args : String → Nat × Nat → Arr R) (paths : Option (Val R × Val R)) :
    masterVars base mode A N env args paths "A".toList = some (.num A) ∧ masterVars base mode A N env args paths "N".toList = some (.num N) ∧
    masterVars base mode A N env args paths "truncation".toList = some (truncation env) ∧
    ∀ p, paths = some p → Spec.PyRun.set (masterVars base mode A N env args paths) (masterTensor mode).toList (.ref 0) "opt_paths".toList = some (.tuple [p.1, p.2]) := by
  cases mode <;> cases paths <;> simp [masterVars, setAll, Spec.PyRun.set, inputs, masterTensor, argNames, orPath]

/-- the array returned by the text -/
theorem call_source {gs : Bool} {mode : Mode} {hMax cc K pMax : Nat} (hcc1 : 1 ≤ cc) (hcc : cc ≤ 6) (hK : 1 ≤ K) {m : Module}
    (hm : module gs mode hMax cc 1 K pMax = .ok m) {f : Fns} (hf : f ∈ m.default) {env : Caller}
    (hc : (orderNames.take (max 1 f.omega.n)).all env.confirm = true) (hg : env.ground = true ∨ gs = false) (hfull : FullArgs mode hMax cc env)
    (paths : Option (Val R × Val R)) (A N : Nat) (args : String → Nat × Nat → Arr R) :
    callArray (importAst ++ (moduleDefs mode m).map (defAst mode)) 2 ("compute_m0_n" ++ toString f.omega.n ++ "_amplitude" ++ (if paths.isSome then "_optimized" else "")).toList
      (inputs mode A N env args (paths.map fun p => [p.1, p.2])) = .ok ⟨A :: List.replicate f.omega.n N, TF.Spec.ETValue.returned A N args (addedBy env f.ground)⟩ := by
  obtain ⟨s1, s2, s3⟩ := module_facts hcc hK hm
  let base : List Char → Option (Val R) := globals (importAst ++ (moduleDefs mode m).map (defAst mode))
  obtain ⟨f1, f2, f3, f4, f5, f6⟩ := s3 f hf
  obtain ⟨l1, l2, l3⟩ := lookups (mode := mode) s1 s2 hf paths.isSome
  have hsh := ((goodFns hcc1 hcc hK hm).1 f hf).2
  have hgood : AllGood mode A N f.omega.n env args (statements f.ground.1) ∧ AllGood mode A N f.omega.n env args (statements f.ground.2) := by
    have key : ∀ e ∈ allStatements f.ground, GoodEntry e ∧ Good mode A N f.omega.n env args e.code := by
      intro e he
      have hop : ∀ o ∈ e.code.operands, o.name ∈ argNames mode ∧ env.has o.name (o.m, o.n) = true := fun o ho =>
        ⟨(operands_of hcc1 hcc hK hm hf he ho).1, (operands_of hcc1 hcc hK hm hf he ho).2 env hfull⟩
      have hat : ∃ k, EntryAt mode hMax cc f.omega k e := by
        obtain ⟨g, hg, rfl⟩ := (module_iff hK).1 hm
        obtain ⟨p, hp, rfl⟩ := List.mem_map.1 hf
        have hpm := mem_projections hp
        obtain ⟨_, _, t1, t2⟩ := statements_parts hpm.1 (by omega) hcc hcc1 (hg p hp)
        rcases List.mem_append.1 he with he | he
        · exact ⟨0, (t1 e).1 he⟩
        · obtain ⟨k, _, h⟩ := (t2 e).1 he
          exact ⟨k, h⟩
      obtain ⟨k, hat⟩ := hat
      refine ⟨goodEntry_of hat, ?_, hop⟩
      obtain ⟨h, hh, z, hz, c, hc, _, rfl⟩ := hat
      have hzn := (TF.ET.groundZ cc).n z hz
      have n := nums_of_facts (contraction_facts f1 hzn hc)
      exact runs_codeOf f1 hzn n (capacity hcc (TF.ET.mem_taking.1 hh).1 hz n) (by omega) A N args
    exact ⟨fun e he => key e (List.mem_append.2 (.inl he)), fun e he => key e (List.mem_append.2 (.inr he))⟩
  have hsel : ∀ p : Part × Part → Part, (if env.ground = true then some (p f.ground) else f.excited.map p) = some (p f.ground) := by
    intro p
    rcases hg with h | h
    · rw [if_pos h]
    · rw [f4, h]
      simp
  have hadd : addedBy env f.ground = runPart env f.ground.1 ++ runPart env f.ground.2 := by
    rw [runPart_eq env _ f5, runPart_eq env _ f6]
    simp [addedBy, allStatements]
  have hnp : (importAst ++ (moduleDefs mode m).map (defAst mode)).any importsNumpy = true := by
    rw [List.any_append]
    have : importAst.any importsNumpy = true := rfl
    rw [this, Bool.true_or]
  have ename : "compute_m0_n" ++ toString f.omega.n ++ "_amplitude" ++ (if paths.isSome then "_optimized" else "") = nm false (f.omega.m, f.omega.n) (aSuf paths.isSome) := by
    rw [f1]
    apply String.toList_injective
    cases paths <;> simp [nm, aSuf]
  obtain ⟨v1, v2, v3, v4⟩ := masterVars_eq base mode A N env args paths
  have hms := masterScope base mode A N env args paths
  have hp1 : ∀ b, (pathOf paths b).isSome = paths.isSome := by intro b; cases paths <;> rfl
  have c1 := call_terms (path := pathOf paths false) (n := f.omega.n) (A := A) (N := N) (args := args) (env := env) (mode := mode) (by rw [hp1]; exact l1) (hsel Prod.fst) f5 hgood.1 hsh.1 0 0
    [⟨A :: List.replicate f.omega.n N, fun _ => 0⟩] _ rfl
  have c2 := call_terms (path := pathOf paths true) (n := f.omega.n) (A := A) (N := N) (args := args) (env := env) (mode := mode) (by rw [hp1]; exact l2) (hsel Prod.snd) f6 hgood.2 hsh.2 0 0
    [⟨A :: List.replicate f.omega.n N, fun v => 0 + TF.Spec.ETValue.returned A N args (runPart env f.ground.1) v⟩] _ rfl
  have hlen : (defParams mode (.amplitude (argNames mode) paths.isSome (confirms f.omega) f.omega.rank
      [nm (isRhs mode) (f.omega.m, f.omega.n) (tSuf mode paths.isSome false), nm (isRhs mode) (f.omega.m, f.omega.n) (tSuf mode paths.isSome true)])).length =
      (inputs mode A N env args (paths.map fun p => [p.1, p.2])).length := by
    cases mode <;> cases paths <;> rfl
  have hbody : execAll (call (importAst ++ (moduleDefs mode m).map (defAst mode)) 1) ⟨masterVars base mode A N env args paths, []⟩
      (defBody mode (.amplitude (argNames mode) paths.isSome (confirms f.omega) f.omega.rank
        [nm (isRhs mode) (f.omega.m, f.omega.n) (tSuf mode paths.isSome false), nm (isRhs mode) (f.omega.m, f.omega.n) (tSuf mode paths.isSome true)])) =
      .ok (some (.ref 0), ⟨callVars base mode A N env args paths, [⟨A :: List.replicate f.omega.n N, TF.Spec.ETValue.returned A N args (addedBy env f.ground)⟩]⟩) := by
    unfold defBody
    rw [execAll_cons (E' := ⟨masterVars base mode A N env args paths, []⟩) (by rw [exec])]
    rw [execAll_then (exec_confirms v3 (fun s hs => by rw [confirms_eq f1 f3] at hs; exact List.mem_of_mem_take hs) (by rw [confirms_eq f1 f3]; exact hc))]
    rw [execAll_cons (exec_zeros v1 v2 f.omega.rank _), f2]
    rw [execAll_then (E' := ⟨callVars base mode A N env args paths, [⟨A :: List.replicate f.omega.n N, fun _ => 0⟩]⟩) (by
      cases hpa : paths with
      | none =>
        simp only [Option.isSome_none, Bool.false_eq_true, if_false, execAll, callVars]
        rfl
      | some p =>
        simp only [Option.isSome_some, if_true]
        have h4 := v4 p hpa
        rw [hpa] at h4
        have hn : number "opt_paths".toList = Option.none := number_none (by decide)
        rw [execAll, exec]
        simp only [nameExpr, evalTop, eval, hn, List.length_nil, h4, Except.map, List.length_cons, if_true, execAll, callVars]
        rfl)]
    rw [List.zipWith_cons_cons, List.zipWith_cons_cons, List.zipWith_nil_left, List.cons_append, List.cons_append, List.nil_append]
    unfold callAst
    rw [execAll_cons (exec_call (evalList_names hms.first) c1)]
    simp only [List.set_cons_zero]
    rw [execAll_cons (exec_call (evalList_names hms.second) c2)]
    have hR : number (masterTensor mode).toList = Option.none := by cases mode <;> exact number_none (by decide)
    have hv : callVars base mode A N env args paths (masterTensor mode).toList = some (.ref 0) := by
      have := hms.first
      simp only [termsArgs, List.forall₂_cons] at this
      exact this.1.2
    rw [execAll, exec]
    simp only [nameExpr, evalTop, eval, hR, hv, Except.map, List.set_cons_zero]
    rw [hadd, returned_append]
    simp only [zero_add]
  unfold callArray
  rw [if_pos hnp, ename, call]
  simp only [lookup_file, l3, Option.map_some]
  rw [if_pos hlen]
  have hv0 : setAll base (defParams mode (.amplitude (argNames mode) paths.isSome (confirms f.omega) f.omega.rank
      [nm (isRhs mode) (f.omega.m, f.omega.n) (tSuf mode paths.isSome false), nm (isRhs mode) (f.omega.m, f.omega.n) (tSuf mode paths.isSome true)]))
      (inputs mode A N env args (paths.map fun p => [p.1, p.2])) = masterVars base mode A N env args paths := rfl
  rw [hv0, hbody]
  rfl

end TF.ETPy
