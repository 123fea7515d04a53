import Verif.Lemmas.DtSourceRun

/-!
# Running the text of a generated module of the amplitude derivatives: the functions of the orders
-/

namespace TF.Dt

set_option maxRecDepth 10000

open TF.Py TF.Helper TF.W TF.Spec TF.Spec.Source TF.Spec.PyRun TF.Spec.Tensor TF.Spec.DtCall
open TF.Spec.Dt (MultipliesD einsumValue disconnected returned residualValue runResidual runFunction runSolver Result)
open TF.Spec.W (overFactorials Multiplies)
open TF.Spec.ResidualCall (tensor truncation hamiltonian wOperator)

variable {R : Type} [CommRing R] [Algebra Rat R]

/-! ## Subtracting -/

/-- the statements subtract `y` from the first array; they may create other arrays -/
def Subs (fs : Functions R) (vars : List Char → Option (Val R)) (S : List Nat) (ss : List Spec.Source.Stmt) (y : Arr R) : Prop :=
  ∀ (x : Arr R) (rest : List (NArr R)), ∃ rest', Spec.PyRun.execAll fs ⟨vars, ⟨S, x⟩ :: rest⟩ ss = .ok (none, ⟨vars, ⟨S, fun v => x v - y v⟩ :: rest'⟩)

/-- the statements raise an exception -/
def Raises (fs : Functions R) (vars : List Char → Option (Val R)) (S : List Nat) (ss : List Spec.Source.Stmt) (e : PyErr) : Prop :=
  ∀ (x : Arr R) (rest : List (NArr R)), Spec.PyRun.execAll fs ⟨vars, ⟨S, x⟩ :: rest⟩ ss = .error e

section
variable {fs : Functions R} {vars : List Char → Option (Val R)} {S : List Nat}

theorem Subs.cast {ss : List Spec.Source.Stmt} {y y' : Arr R} (h : Subs fs vars S ss y) (e : y = y') : Subs fs vars S ss y' := e ▸ h

theorem Subs.nil : Subs fs vars S [] fun _ => 0 := by
  intro x rest
  refine ⟨rest, ?_⟩
  simp [Spec.PyRun.execAll]

theorem Subs.pass : Subs fs vars S [.pass] fun _ => 0 := by
  intro x rest
  refine ⟨rest, ?_⟩
  rw [execAll_cons (E' := ⟨vars, ⟨S, x⟩ :: rest⟩) (by rw [exec])]
  simp [Spec.PyRun.execAll]

theorem Subs.append {a b : List Spec.Source.Stmt} {y z : Arr R} (h : Subs fs vars S a y) (h' : Subs fs vars S b z) : Subs fs vars S (a ++ b) fun v => y v + z v := by
  intro x rest
  obtain ⟨r1, e1⟩ := h x rest
  obtain ⟨r2, e2⟩ := h' (fun v => x v - y v) r1
  refine ⟨r2, ?_⟩
  rw [execAll_then e1, e2]
  simp [sub_sub]

theorem Subs.branch {c : Expr} {b : Bool} {body orelse : List Spec.Source.Stmt} {y : Arr R} (hc : ∀ heap, eval ⟨vars, heap⟩ c = .ok (.bool b))
    (ht : b = true → Subs fs vars S body y) (hf : b = false → Subs fs vars S orelse y) : Subs fs vars S [.cond c body orelse] y := by
  intro x rest
  cases b with
  | true =>
    obtain ⟨r, e⟩ := ht rfl x rest
    refine ⟨r, ?_⟩
    rw [Spec.PyRun.execAll, exec, hc]
    simp only [e, Spec.PyRun.execAll]
  | false =>
    obtain ⟨r, e⟩ := hf rfl x rest
    refine ⟨r, ?_⟩
    rw [Spec.PyRun.execAll, exec, hc]
    simp only [e, Spec.PyRun.execAll]

theorem Raises.left {a b : List Spec.Source.Stmt} {e : PyErr} (h : Raises fs vars S a e) : Raises fs vars S (a ++ b) e := by
  intro x rest
  rw [execAll_append, h]

theorem Raises.branch {c : Expr} {b : Bool} {body orelse : List Spec.Source.Stmt} {e : PyErr} (hc : ∀ heap, eval ⟨vars, heap⟩ c = .ok (.bool b))
    (ht : b = true → Raises fs vars S body e) (hf : b = false → Raises fs vars S orelse e) : Raises fs vars S [.cond c body orelse] e := by
  intro x rest
  rw [Spec.PyRun.execAll, exec, hc]
  cases b with
  | true => simp only [ht rfl x rest]
  | false => simp only [hf rfl x rest]

omit [Algebra Rat R] in
theorem sub_eq [Algebra Rat R] (a b : R) : a + (-1 : Rat) • b = a - b := by rw [neg_smul, one_smul, sub_eq_add_neg]

end

section
variable {A N k n : Nat} {env : Spec.Dt.Env} {h : Nat × Nat → Arr R} {t dt w : Nat → Arr R} {ε : Arr R} {vars : List Char → Option (Val R)} {fs other : Functions R}

/-- the variables of the function of an order -/
structure FnScope (A N k : Nat) (env : Spec.Dt.Env) (t dt w : Nat → Arr R) (ε : Arr R) (vars : List Char → Option (Val R)) : Prop where
  a : vars "A".toList = some (.num A)
  modes : vars "N".toList = some (.num N)
  ansatz : vars "ansatz".toList = some (ansatz env)
  trunc : vars "trunc".toList = some (truncation env.res)
  epsilon : vars "epsilon".toList = some (.arr ⟨[A, A], ε⟩)
  tArgs : vars "t_args".toList = some (amplitudes A N env.tlen t)
  dtArgs : vars "dt_args".toList = some (amplitudes A N env.dtlen dt)
  wk : vars (wString k).toList = some (wOperator A N env.res w k)
  residual : vars "residual".toList = some (.ref 0)
  factorial : vars "factorial".toList = some (.imported [.word "math".toList] "factorial".toList)

/-! ## Epsilon -/

omit [CommRing R] [Algebra Rat R] in
theorem einsum_congr [CommRing R] {s s' : List Char} (e : subscripts s = subscripts s') (ops : List (NArr R)) : Spec.PyRun.einsum s ops = Spec.PyRun.einsum s' ops := by
  unfold Spec.PyRun.einsum
  rw [e]

theorem epsilon_multiplies (h6 : k ≤ 6) :
    Multiplies ⟨(epsilonPath k).subs, (epsilonPath k).out, [k, 0]⟩ ['c'] [modeTags.take k, []] := by
  refine ⟨rfl, rfl, ?_, ?_, ?_⟩
  · simp only [List.map_cons, List.map_nil, List.length_take, List.length_nil]
    rw [show modeTags.length = 8 from rfl, Nat.min_eq_left (by omega)]
  · simp [epsilonPath]
  · have : (['a', 'b'] ++ ['c'] ++ modeTags).Nodup := by decide
    refine List.Nodup.sublist ?_ this
    simp only [List.flatten_cons, List.flatten_nil, List.append_nil]
    exact List.Sublist.append (List.Sublist.refl _) (List.take_sublist _ _)

theorem subscripts_epsilon : ∀ k ≤ 6, subscripts (epsilonSubs k) = some ((epsilonPath k).subs, (epsilonPath k).out) := by decide +kernel

theorem good_epsilon : ∀ k ≤ 6, (∀ s ∈ (epsilonPath k).subs, ∀ c ∈ s, isWord c = true) ∧ ∀ c ∈ (epsilonPath k).out, isWord c = true := by decide +kernel

omit [Algebra Rat R] in
theorem einsum_epsilonSubs (h6 : k ≤ 6) (A N : Nat) (w ε : Arr R) :
    Spec.PyRun.einsum (epsilonSubs k) [tensor A N k w, ⟨[A, A], ε⟩] = .ok (tensor A N k (Spec.Tensor.einsum A N ((epsilonPath k).subs.zip [w, ε]) (epsilonPath k).out)) := by
  have hg : GoodEinsum (epsilonPath k).subs (epsilonPath k).out := ⟨(good_epsilon k h6).1, (good_epsilon k h6).2⟩
  have h1 := einsum_arrays (epsilon_multiplies h6) hg A N (xs := [w, ε]) rfl
  rw [einsum_congr ((subscripts_epsilon k h6).trans (subscripts_subsText hg (by simp [epsilonPath])).symm)]
  exact h1

theorem wString_toList (n : Nat) : (wString n).toList = 'w' :: '_' :: modeTags.take n := by simp [wString, String.toList_append]

theorem number_w (n : Nat) : number (wString n).toList = Option.none := by
  rw [wString_toList]
  exact number_none (by decide)

theorem evalList_epsilon {v : Val R} (hw : vars (wString k).toList = some v) (hε : vars "epsilon".toList = some (.arr ⟨[A, A], ε⟩)) (heap : List (NArr R)) :
    evalList ⟨vars, heap⟩ [.str (epsilonSubs k), nameExpr (wString k), nameExpr "epsilon"] = .ok [.str (epsilonSubs k), v, .arr ⟨[A, A], ε⟩] := by
  have a1 := number_w k
  have a2 : number "epsilon".toList = Option.none := number_none (by decide)
  simp only [nameExpr, evalList, eval, a1, a2, hw, hε, Except.map]

theorem eval_epsilonExpr {v : Val R} (hw : vars (wString k).toList = some v) (hε : vars "epsilon".toList = some (.arr ⟨[A, A], ε⟩)) (heap : List (NArr R)) :
    eval ⟨vars, heap⟩ (epsilonExpr false k) = (arrays heap [v, .arr ⟨[A, A], ε⟩]).bind fun xs => (Spec.PyRun.einsum (epsilonSubs k) xs).map .arr := by
  have e : epsilonExpr false k = .call (.attr (nameExpr "np") "einsum".toList) [.str (epsilonSubs k), nameExpr (wString k), nameExpr "epsilon"] := rfl
  rw [e, nameExpr, eval, evalList_epsilon hw hε]
  simp only [callBuiltin, if_true]

theorem evalTop_epsilon (sc : FnScope A N k env t dt w ε vars) (heap : List (NArr R)) {r : Except PyErr (NArr R)}
    (he : eval ⟨vars, heap⟩ (epsilonExpr false k) = r.map .arr) :
    evalTop fs ⟨vars, heap⟩ (.prod [(false, nameExpr "1"), (true, factExpr k), (false, epsilonExpr false k)]) =
      r.map fun x => (.arr (x.smul (1 / (k.factorial : Rat))), heap) := by
  have h1 : number "1".toList = some 1 := number_nat 1
  have hfac : ((k.factorial : Nat) : Rat) ≠ 0 := by exact_mod_cast Nat.factorial_ne_zero k
  have hf := eval_fact sc.factorial heap k
  have e1 : mulVal heap true (.num 1) (.num (k.factorial : Rat)) = (.ok (.num (1 / (k.factorial : Rat))) : Except PyErr (Val R)) := by
    simp only [mulVal, if_true, if_neg hfac]
  have e2 : ∀ x : NArr R, mulVal heap false (.num (1 / (k.factorial : Rat))) (.arr x) = .ok (.arr (x.smul (1 / (k.factorial : Rat)))) := fun x => rfl
  rw [evalTop, eval, evalProd, nameExpr, eval]
  · simp only [h1]
    rw [mulAll, hf]
    simp only [e1]
    rw [mulAll, he]
    cases r with
    | error e => rfl
    | ok x =>
      simp only [Except.map, e2]
      rw [mulAll]
  all_goals (intros; exact Expr.noConfusion ‹_›)

theorem exec_epsilon (sc : FnScope A N k env t dt w ε vars) (h6 : k ≤ 6) (x : Arr R) (rest : List (NArr R)) :
    exec fs ⟨vars, tensor A N k x :: rest⟩ (epsilonAst false k) =
      if env.res.present k = true then
        .ok (none, ⟨vars, tensor A N k (fun v => x v - (1 / (k.factorial : Rat)) • Spec.Tensor.einsum A N ((epsilonPath k).subs.zip [w k, ε]) (epsilonPath k).out v) :: rest⟩)
      else .error .type := by
  have hw := sc.wk
  unfold wOperator at hw
  rw [epsilonAst, exec]
  by_cases hp : env.res.present k = true
  · rw [if_pos hp] at hw ⊢
    have ht := evalTop_epsilon (fs := fs) sc (tensor A N k x :: rest) (r := .ok (tensor A N k (Spec.Tensor.einsum A N ((epsilonPath k).subs.zip [w k, ε]) (epsilonPath k).out))) (by
      rw [eval_epsilonExpr hw sc.epsilon]
      show (Spec.PyRun.einsum (epsilonSubs k) [tensor A N k (w k), ⟨[A, A], ε⟩]).map Val.arr = _
      rw [einsum_epsilonSubs h6])
    simp only [sc.residual, ht, Except.map]
    simp only [NArr.smul, tensor, NArr.add, array, List.getElem?_cons_zero, List.set_cons_zero, sub_eq, if_true]
  · rw [if_neg hp] at hw ⊢
    have ht := evalTop_epsilon (fs := fs) sc (tensor A N k x :: rest) (r := .error .type) (by
      rw [eval_epsilonExpr hw sc.epsilon]
      rfl)
    simp only [sc.residual, ht, Except.map]

/-! ## The disconnected terms -/

theorem disconnected_append (A N : Nat) (t dt : Nat → Arr R) (a b : List (DBlock DEinsum)) :
    disconnected A N t dt (a ++ b) = fun v => disconnected A N t dt a v + disconnected A N t dt b v := by
  funext v
  simp [disconnected]

theorem disconnected_nil (A N : Nat) (t dt : Nat → Arr R) : disconnected A N t dt [] = fun _ => 0 := by
  funext v
  simp [disconnected]

theorem evalList_side (sc : FnScope A N k env t dt w ε vars) (side : Side) (heap : List (NArr R)) :
    evalList ⟨vars, heap⟩ ((sideParams side false).map nameExpr) = .ok [.num A, .num N, truncation env.res, amplitudes A N env.tlen t, amplitudes A N env.dtlen dt] :=
  evalList_names (.cons ⟨number_none (by decide), sc.a⟩ (.cons ⟨number_none (by decide), sc.modes⟩ (.cons ⟨number_none (by decide), sc.trunc⟩ (.cons ⟨number_none (by decide), sc.tArgs⟩
    (.cons ⟨number_none (by decide), sc.dtArgs⟩ .nil)))))

theorem evalTop_side (sc : FnScope A N k env t dt w ε vars) {side : Side} (hn : n ≤ 6) (hf : side.first ≤ k) (hk : k ≤ n) (depth : Nat) (heap : List (NArr R)) :
    evalTop (callWith other (moduleAst n) (depth + 1)) ⟨vars, heap⟩ (.call (nameExpr (sideName side false k)) ((sideParams side false).map nameExpr)) =
      if env.tlen < k - 1 ∨ env.dtlen < k - 1 then .error .value
      else .ok (.ref heap.length, heap ++ [tensor A N k (disconnected A N t dt ((side.partitions k).map (dblk (mkDs k))))]) := by
  rw [nameExpr, evalTop, evalList_side sc]
  exact call_side hn hf hk depth _ _ _ heap

theorem subs_side (sc : FnScope A N k env t dt w ε vars) {side : Side} (hn : n ≤ 6) (hf : side.first ≤ k) (hk : k ≤ n) (hl : ¬ (env.tlen < k - 1 ∨ env.dtlen < k - 1)) (depth : Nat) :
    Subs (callWith other (moduleAst n) (depth + 1)) vars (A :: A :: List.replicate k N) [subtractAst side false k]
      (disconnected A N t dt ((side.partitions k).map (dblk (mkDs k)))) := by
  intro x rest
  refine ⟨rest ++ [tensor A N k (disconnected A N t dt ((side.partitions k).map (dblk (mkDs k))))], ?_⟩
  have e := evalTop_side (other := other) sc hn hf hk depth (⟨A :: A :: List.replicate k N, x⟩ :: rest)
  rw [if_neg hl] at e
  rw [Spec.PyRun.execAll, subtractAst, exec]
  simp only [sc.residual, e, List.cons_append, List.length_cons, array, List.getElem?_cons_zero, List.getElem?_cons_succ]
  rw [List.getElem?_append_right (le_refl _), Nat.sub_self]
  simp only [List.getElem?_cons_zero, NArr.smul, tensor, NArr.add, if_true, List.set_cons_zero, sub_eq, Spec.PyRun.execAll]

theorem raises_side (sc : FnScope A N k env t dt w ε vars) {side : Side} (hn : n ≤ 6) (hf : side.first ≤ k) (hk : k ≤ n) (hl : env.tlen < k - 1 ∨ env.dtlen < k - 1) (depth : Nat) :
    Raises (callWith other (moduleAst n) (depth + 1)) vars (A :: A :: List.replicate k N) [subtractAst side false k] .value := by
  intro x rest
  have e := evalTop_side (other := other) sc hn hf hk depth (⟨A :: A :: List.replicate k N, x⟩ :: rest)
  rw [if_pos hl] at e
  rw [Spec.PyRun.execAll, subtractAst, exec]
  simp only [sc.residual, e]

theorem eval_ansatz (ha : vars "ansatz".toList = some (ansatz env)) (heap : List (NArr R)) :
    eval ⟨vars, heap⟩ (ansatzExpr "VECI") = .ok (.bool env.veci) ∧ eval ⟨vars, heap⟩ (ansatzExpr "VE_MIXED") = .ok (.bool env.mixed) ∧
      eval ⟨vars, heap⟩ (ansatzExpr "VECC") = .ok (.bool env.cc) := by
  have hn : number "ansatz".toList = Option.none := number_none (by decide)
  have e1 : [("VECI", env.veci), ("VE_MIXED", env.mixed), ("VECC", env.cc)].lookup "VECI" = some env.veci := rfl
  have e2 : [("VECI", env.veci), ("VE_MIXED", env.mixed), ("VECC", env.cc)].lookup "VE_MIXED" = some env.mixed := rfl
  have e3 : [("VECI", env.veci), ("VE_MIXED", env.mixed), ("VECC", env.cc)].lookup "VECC" = some env.cc := rfl
  refine ⟨?_, ?_, ?_⟩
  · simp only [ansatzExpr, nameExpr, eval, hn, ha, TF.Spec.DtCall.ansatz, String.ofList_toList, e1]
  · simp only [ansatzExpr, nameExpr, eval, hn, ha, TF.Spec.DtCall.ansatz, String.ofList_toList, e2]
  · simp only [ansatzExpr, nameExpr, eval, hn, ha, TF.Spec.DtCall.ansatz, String.ofList_toList, e3]

theorem subs_ansatz (sc : FnScope A N k env t dt w ε vars) (hn : n ≤ 6) (h1 : 1 ≤ k) (hk : k ≤ n) (depth : Nat)
    (hd : ¬ (disc env k = true ∧ (env.tlen < k - 1 ∨ env.dtlen < k - 1))) :
    Subs (callWith other (moduleAst n) (depth + 1)) vars (A :: A :: List.replicate k N) [ansatzAst false k]
      (disconnected A N t dt (linkedDone mkDs env k ++ unlinkedDone mkDs env k)) := by
  have hz : ∀ {y : Arr R}, y = (fun _ => 0) → Subs (callWith other (moduleAst n) (depth + 1)) vars (A :: A :: List.replicate k N) [.pass] y := fun e => Subs.pass.cast e.symm
  unfold ansatzAst
  refine Subs.branch (fun heap => (eval_ansatz sc.ansatz heap).1) ?_ ?_
  · intro hv
    refine hz ?_
    simp only [linkedDone, unlinkedDone, hv]
    exact disconnected_nil A N t dt
  intro hv
  refine Subs.branch (fun heap => (eval_ansatz sc.ansatz heap).2.1) ?_ ?_
  · intro hm
    have e : linkedDone mkDs env k ++ unlinkedDone mkDs env k = (linkedPartitions k).map (dblk (mkDs k)) := by simp [linkedDone, unlinkedDone, hv, hm]
    rw [e]
    unfold mixedAst
    by_cases h2 : k < 2
    · obtain rfl : k = 1 := by omega
      rw [if_pos h2, linked_one]
      exact hz (disconnected_nil A N t dt)
    · rw [if_neg h2]
      have hl : ¬ (env.tlen < k - 1 ∨ env.dtlen < k - 1) := fun hl => hd ⟨by simp [disc, hv, hm]; omega, hl⟩
      exact subs_side (side := .linked) sc hn (by show 2 ≤ k; omega) hk hl depth
  intro hm
  refine Subs.branch (fun heap => (eval_ansatz sc.ansatz heap).2.2) ?_ ?_
  · intro hc
    have e : linkedDone mkDs env k ++ unlinkedDone mkDs env k = (linkedPartitions k).map (dblk (mkDs k)) ++ (unlinkedPartitions k).map (dblk (mkDs k)) := by
      simp [linkedDone, unlinkedDone, hv, hm, hc]
    rw [e]
    unfold ccAst
    by_cases h2 : k < 2
    · obtain rfl : k = 1 := by omega
      rw [if_pos h2, linked_one, unlinked_lt (by omega)]
      exact hz (disconnected_nil A N t dt)
    · rw [if_neg h2]
      have hl : ¬ (env.tlen < k - 1 ∨ env.dtlen < k - 1) := fun hl => hd ⟨by simp [disc, hv, hc]; omega, hl⟩
      rw [disconnected_append]
      refine Subs.append (a := [subtractAst .linked false k]) (subs_side (side := .linked) sc hn (by show 2 ≤ k; omega) hk hl depth) ?_
      by_cases h4 : k < 4
      · rw [if_pos h4, unlinked_lt h4]
        exact hz (disconnected_nil A N t dt)
      · rw [if_neg h4]
        exact subs_side (side := .unlinked) sc hn (by show 4 ≤ k; omega) hk hl depth
  · intro hc
    refine Subs.nil.cast ?_
    simp only [linkedDone, unlinkedDone, hv, hm, hc]
    exact disconnected_nil A N t dt

theorem raises_ansatz (sc : FnScope A N k env t dt w ε vars) (hn : n ≤ 6) (hk : k ≤ n) (depth : Nat) (hd : disc env k = true)
    (hl : env.tlen < k - 1 ∨ env.dtlen < k - 1) :
    Raises (callWith other (moduleAst n) (depth + 1)) vars (A :: A :: List.replicate k N) [ansatzAst false k] .value := by
  have h2 : 2 ≤ k := by
    unfold disc at hd
    simp at hd
    exact hd.2
  have hr := raises_side (other := other) (side := .linked) sc hn h2 hk hl depth
  unfold ansatzAst
  refine Raises.branch (fun heap => (eval_ansatz sc.ansatz heap).1) ?_ ?_
  · intro hv
    simp [disc, hv] at hd
  intro hv
  refine Raises.branch (fun heap => (eval_ansatz sc.ansatz heap).2.1) ?_ ?_
  · intro hm
    rw [mixedAst, if_neg (by omega)]
    exact hr
  intro hm
  refine Raises.branch (fun heap => (eval_ansatz sc.ansatz heap).2.2) ?_ ?_
  · intro hc
    rw [ccAst, if_neg (by omega)]
    exact Raises.left (a := [subtractAst .linked false k]) hr
  · intro hc
    simp [disc, hv, hm, hc] at hd

/-! ## The function of an order -/

theorem call_symmetrize (hn : n ≤ 6) (depth : Nat) (x : Arr R) (rest : List (NArr R)) :
    callWith other (moduleAst n) (depth + 1) "symmetrize_tensor".toList [.num N, .ref 0, .kw "order".toList (.num k)] (tensor A N k x :: rest) =
      .ok (.arr (tensor A N k (symSum k x)), tensor A N k x :: rest) := by
  rw [callWith]
  simp only
  rw [if_neg (by decide)]
  simp only [lookup_none (l := moduleAst n) (by rw [names_moduleAst]; exact symmetrize_not_mem n hn), globals_symmetrize]
  unfold callImported
  rw [if_neg (by simp), if_pos (by simp)]
  simp only [natural_nat, array, List.getElem?_cons_zero]
  rw [if_pos trivial, if_pos (by simp [tensor])]
  rfl

/-- a call returns the array, or raises the exception -/
def Returns (x : Except PyErr (Val R × List (NArr R))) (y : Except PyErr (NArr R)) : Prop :=
  match y with
  | .error e => x = .error e
  | .ok a => ∃ heap, x = .ok (.arr a, heap)

def wNames (m : Nat) : List (List Char) := (range2 1 (m + 1)).map fun n => (wString n).toList

theorem length_wNames (m : Nat) : (wNames m).length = m := by simp [wNames, range2]

theorem not_mem_wNames {m : Nat} {w : List Char} (h : w.take 3 ≠ ['w', '_', 'i']) : w ∉ wNames m := by
  unfold wNames
  intro hm
  obtain ⟨n, hn, rfl⟩ := List.mem_map.1 hm
  obtain ⟨n, rfl⟩ : ∃ k, n = k + 1 := ⟨n - 1, by have := (mem_range2.1 hn).1; omega⟩
  rw [wString_toList] at h
  exact h rfl

theorem wNames_nodup : ∀ m ≤ 8, (wNames m).Nodup := by decide +kernel

theorem wNames_get {m n : Nat} (h1 : 1 ≤ n) (h2 : n ≤ m) : (wNames m)[n - 1]? = some (wString n).toList := by
  unfold wNames
  rw [List.getElem?_map, getElem_range2 h1 h2]
  rfl

def wVals (A N : Nat) (env : Spec.Dt.Env) (w : Nat → Arr R) : List (Val R) := (List.range env.res.wlen).map fun i => wOperator A N env.res w (i + 1)

theorem inputs_nodup : (["A", "N", "ansatz", "trunc", "epsilon", "h_args", "t_args", "dt_args", "w_args"].map String.toList).Nodup := by decide

/-- a call of the function of an order -/
theorem call_dtFn (hn : n ≤ 6) (h1 : 1 ≤ k) (hk : k ≤ n) (depth : Nat) {resFns : List TF.Residual.Fn}
    (hres : other ("residual_equations".toList ++ '.' :: (residualName k).toList) (Spec.ResidualCall.inputs A N env.res h w) [] =
      (runResidual env.res resFns k).map fun ls => (.ref 0, [tensor A N k (residualValue A N h w ls)])) :
    Returns (callWith other (moduleAst n) (depth + 2) (dtFnName false k).toList (inputs A N env h t dt w ε) [])
      ((runFunction DEinsum.ts env resFns ((range2 1 (n + 1)).map (linkedAt mkDs)) ((range2 1 (n + 1)).map (unlinkedAt mkDs)) (dtFnAt k)).map
        fun r => tensor A N k (returned A N h t dt w ε r)) := by
  have hl := lookup_of_nodup (by rw [names_moduleAst]; exact nodup_fnNames n hn) (mem_dtFn (n := n) (k := k) h1 hk)
  rw [runFunction_eq DEinsum.ts mkDs (fun k c => by unfold mkDs; rw [List.map_map]; exact List.map_id _) env resFns n h1 hk]
  rw [callWith]
  simp only
  rw [if_neg (undotted_side k (by omega)).2.2.1]
  simp only [hl]
  rw [if_pos (by rfl)]
  set vars := setAll (globals (R := R) (moduleAst n)) ((dtParams false).map String.toList) (inputs A N env h t dt w ε) with hvars
  have ep : (dtParams false).map String.toList = ["A", "N", "ansatz", "trunc", "epsilon", "h_args", "t_args", "dt_args", "w_args"].map String.toList := rfl
  rw [ep] at hvars
  have at_ : ∀ (j : Nat) {s : String} {v : Val R}, (["A", "N", "ansatz", "trunc", "epsilon", "h_args", "t_args", "dt_args", "w_args"].map String.toList)[j]? = some s.toList →
      (inputs A N env h t dt w ε)[j]? = some v → vars s.toList = some v := by
    intro j s v e1 e2
    rw [hvars]
    exact setAll_at (n := j) inputs_nodup e1 e2
  have v1 : vars "A".toList = some (.num A) := at_ 0 rfl rfl
  have v2 : vars "N".toList = some (.num N) := at_ 1 rfl rfl
  have v3 : vars "ansatz".toList = some (ansatz env) := at_ 2 rfl rfl
  have v4 : vars "trunc".toList = some (truncation env.res) := at_ 3 rfl rfl
  have v5 : vars "epsilon".toList = some (.arr ⟨[A, A], ε⟩) := at_ 4 rfl rfl
  have v6 : vars "h_args".toList = some (hamiltonian A N h) := at_ 5 rfl rfl
  have v7 : vars "t_args".toList = some (amplitudes A N env.tlen t) := at_ 6 rfl rfl
  have v8 : vars "dt_args".toList = some (amplitudes A N env.dtlen dt) := at_ 7 rfl rfl
  have v9 : vars "w_args".toList = some (.tuple (wVals A N env w)) := at_ 8 rfl rfl
  have v10 : vars "factorial".toList = some (.imported [.word "math".toList] "factorial".toList) := by
    rw [hvars, setAll_other (by decide), globals_factorial]
  have v11 : vars "residual_equations".toList = some (.imported [.sym '.'] "residual_equations".toList) := by
    rw [hvars, setAll_other (by decide), globals_residual]
  unfold dtBody
  rw [execAll_cons (E' := ⟨vars, []⟩) (by rw [exec])]
  have u := exec_unpackNames (fs := callWith other (moduleAst n) (depth + 1)) (src := "w_args") (number_none (by decide)) v9 [] (wNames k) "unusedargs".toList
  have hwl : (wVals A N env w).length = env.res.wlen := by simp [wVals]
  have e1 : unpackWAst k = .unpack (wNames k) "unusedargs".toList (nameExpr "w_args") := rfl
  rw [length_wNames, hwl] at u
  rw [e1]
  by_cases hw : env.res.wlen < k
  · rw [Spec.PyRun.execAll, u, if_neg (by omega), if_pos hw]
    exact rfl
  rw [if_pos (by omega)] at u
  rw [execAll_cons u, if_neg hw]
  have e2 : Spec.PyRun.set (setAll vars (wNames k) (wVals A N env w)) "unusedargs".toList (.list ((wVals A N env w).drop k)) = unpacked vars (wNames k) (wVals A N env w) := by
    unfold unpacked
    rw [length_wNames]
  rw [e2]
  have keep : ∀ {x : List Char}, x.take 3 ≠ ['w', '_', 'i'] → x ≠ "unusedargs".toList → unpacked vars (wNames k) (wVals A N env w) x = vars x :=
    fun h1 h2 => unpacked_other (not_mem_wNames h1) h2
  have hargs : evalList ⟨unpacked vars (wNames k) (wVals A N env w), []⟩ (["A", "N", "trunc", "h_args", "w_args"].map nameExpr) = .ok (Spec.ResidualCall.inputs A N env.res h w) :=
    evalList_names (.cons ⟨number_none (by decide), (keep (by decide) (by decide)).trans v1⟩ (.cons ⟨number_none (by decide), (keep (by decide) (by decide)).trans v2⟩
      (.cons ⟨number_none (by decide), (keep (by decide) (by decide)).trans v4⟩ (.cons ⟨number_none (by decide), (keep (by decide) (by decide)).trans v6⟩
        (.cons ⟨number_none (by decide), (keep (by decide) (by decide)).trans v9⟩ .nil)))))
  have htop : evalTop (callWith other (moduleAst n) (depth + 1)) ⟨unpacked vars (wNames k) (wVals A N env w), []⟩
      (.call (.attr (nameExpr "residual_equations") (residualName k).toList) (["A", "N", "trunc", "h_args", "w_args"].map nameExpr)) =
        (runResidual env.res resFns k).map fun ls => (.ref 0, [tensor A N k (residualValue A N h w ls)]) := by
    rw [nameExpr, evalTop, if_neg (by simp)]
    simp only [(keep (x := "residual_equations".toList) (by decide) (by decide)).trans v11, hargs]
    rw [callWith]
    simp only
    rw [if_pos (by simp), hres]
  rw [Spec.PyRun.execAll, residualAst, exec, htop]
  cases hrr : runResidual env.res resFns k with
  | error e => exact rfl
  | ok ls =>
    simp only [Except.map]
    set vars2 := Spec.PyRun.set (unpacked vars (wNames k) (wVals A N env w)) "residual".toList (.ref 0) with hvars2
    have keep2 : ∀ {x : List Char}, x.take 3 ≠ ['w', '_', 'i'] → x ≠ "unusedargs".toList → x ≠ "residual".toList → vars2 x = vars x :=
      fun h1 h2 h3 => (set_other _ _ h3).trans (keep h1 h2)
    have sc : FnScope A N k env t dt w ε vars2 := by
      refine ⟨(keep2 (by decide) (by decide) (by decide)).trans v1, (keep2 (by decide) (by decide) (by decide)).trans v2, (keep2 (by decide) (by decide) (by decide)).trans v3,
        (keep2 (by decide) (by decide) (by decide)).trans v4, (keep2 (by decide) (by decide) (by decide)).trans v5, (keep2 (by decide) (by decide) (by decide)).trans v7,
        (keep2 (by decide) (by decide) (by decide)).trans v8, ?_, set_same _ _ _, (keep2 (by decide) (by decide) (by decide)).trans v10⟩
      rw [hvars2, set_other _ _ (by rw [wString_toList]; simp), unpacked, set_other _ _ (by rw [wString_toList]; simp)]
      refine setAll_at (wNames_nodup k (by omega)) (wNames_get h1 (le_refl k)) ?_
      unfold wVals
      rw [List.getElem?_map, List.getElem?_range (by omega)]
      simp only [Option.map_some]
      rw [show k - 1 + 1 = k by omega]
    have he := exec_epsilon (fs := callWith other (moduleAst n) (depth + 1)) sc (by omega) (residualValue A N h w ls) []
    cases hp : env.res.present k with
    | false =>
      rw [Spec.PyRun.execAll, he, hp]
      exact rfl
    | true =>
      rw [hp, if_pos rfl] at he
      rw [execAll_cons he, if_neg (by simp)]
      generalize hy : (fun v => residualValue A N h w ls v - (1 / (k.factorial : Rat)) • Spec.Tensor.einsum A N ((epsilonPath k).subs.zip [w k, ε]) (epsilonPath k).out v) = y
      have es : ∀ l : List Spec.Source.Stmt, ansatzAst false k :: l = [ansatzAst false k] ++ l := fun _ => rfl
      rw [es]
      by_cases hd : disc env k = true ∧ (env.tlen < k - 1 ∨ env.dtlen < k - 1)
      · rw [if_pos hd, execAll_append]
        have := raises_ansatz (other := other) sc hn hk depth hd.1 hd.2 y []
        unfold tensor
        rw [this]
        exact rfl
      · rw [if_neg hd]
        obtain ⟨rest, e3⟩ := subs_ansatz (other := other) sc hn h1 hk depth hd y []
        have e4 : Spec.PyRun.execAll (callWith other (moduleAst n) (depth + 1)) ⟨vars2, [tensor A N k y]⟩ [ansatzAst false k] = _ := e3
        rw [execAll_then e4]
        set z : Arr R := fun v => y v - disconnected A N t dt (linkedDone mkDs env k ++ unlinkedDone mkDs env k) v with hz
        have na : number "N".toList = Option.none := number_none (by decide)
        have nr : number "residual".toList = Option.none := number_none (by decide)
        have hev : evalList ⟨vars2, tensor A N k z :: rest⟩ [nameExpr "N", nameExpr "residual", .kw "order".toList (natWord k)] = .ok [.num N, .ref 0, .kw "order".toList (.num k)] := by
          simp only [evalList, eval, nameExpr, natWord, na, nr, sc.modes, sc.residual, number_nat, Except.map]
        have e5 : exec (callWith other (moduleAst n) (depth + 1)) ⟨vars2, tensor A N k z :: rest⟩ (symAst k) =
            .ok (none, ⟨Spec.PyRun.set vars2 (dtString k).toList (.arr (tensor A N k (symSum k z))), tensor A N k z :: rest⟩) := by
          rw [symAst, exec, nameExpr, evalTop, hev]
          simp only [call_symmetrize hn]
        have e6 : (⟨vars2, ⟨A :: A :: List.replicate k N, z⟩ :: rest⟩ : Spec.PyRun.Env R) = ⟨vars2, tensor A N k z :: rest⟩ := rfl
        rw [e6, execAll_cons e5, Spec.PyRun.execAll, exec]
        simp only [nameExpr, evalTop, eval, number_dt, set_same, Except.map]
        refine ⟨tensor A N k z :: rest, ?_⟩
        have e7 : symSum k z = returned A N h t dt w ε ⟨ls, (k, k, epsilonPath k), linkedDone mkDs env k, unlinkedDone mkDs env k, k⟩ := by
          unfold returned
          simp only []
          rw [hz, ← hy]
        rw [e7]
        rfl

/-! ## The function that is called from outside -/

theorem call_solver (hn : n ≤ 6) (h1 : 1 ≤ k) (hk : k ≤ n) (depth : Nat) {resFns : List TF.Residual.Fn}
    (hres : other ("residual_equations".toList ++ '.' :: (residualName k).toList) (Spec.ResidualCall.inputs A N env.res h w) [] =
      (runResidual env.res resFns k).map fun ls => (.ref 0, [tensor A N k (residualValue A N h w ls)])) :
    Returns (callWith other (moduleAst n) (depth + 3) (solverName false k).toList (inputs A N env h t dt w ε) [])
      ((runSolver DEinsum.ts env resFns ((range2 1 (n + 1)).map (linkedAt mkDs)) ((range2 1 (n + 1)).map (unlinkedAt mkDs)) ((range2 1 (n + 1)).map dtFnAt) (range2 1 (n + 1)) k).map
        fun r => tensor A N k (returned A N h t dt w ε r)) := by
  have hl := lookup_of_nodup (by rw [names_moduleAst]; exact nodup_fnNames n hn) (mem_solver (n := n) (k := k) h1 hk)
  have hfn := call_dtFn (t := t) (dt := dt) (ε := ε) hn h1 hk depth hres
  have hrs : runSolver DEinsum.ts env resFns ((range2 1 (n + 1)).map (linkedAt mkDs)) ((range2 1 (n + 1)).map (unlinkedAt mkDs)) ((range2 1 (n + 1)).map dtFnAt) (range2 1 (n + 1)) k =
      if !env.res.fl k then .error .exception
      else runFunction DEinsum.ts env resFns ((range2 1 (n + 1)).map (linkedAt mkDs)) ((range2 1 (n + 1)).map (unlinkedAt mkDs)) (dtFnAt k) := by
    unfold runSolver
    rw [List.getElem?_map, getElem_range2 h1 hk]
    rfl
  rw [hrs]
  rw [callWith]
  simp only
  rw [if_neg (undotted_side k (by omega)).2.2.2]
  simp only [hl]
  rw [if_pos (by rfl)]
  set vars := setAll (globals (R := R) (moduleAst n)) ((solverParams false).map String.toList) (inputs A N env h t dt w ε) with hvars
  have ep : (solverParams false).map String.toList = ["A", "N", "ansatz", "trunc", "epsilon", "h_args", "t_args", "dt_args", "w_args"].map String.toList := rfl
  rw [ep] at hvars
  have at_ : ∀ (j : Nat) {s : String} {v : Val R}, (["A", "N", "ansatz", "trunc", "epsilon", "h_args", "t_args", "dt_args", "w_args"].map String.toList)[j]? = some s.toList →
      (inputs A N env h t dt w ε)[j]? = some v → vars s.toList = some v := by
    intro j s v e1 e2
    rw [hvars]
    exact setAll_at (n := j) inputs_nodup e1 e2
  have v4 : vars "trunc".toList = some (truncation env.res) := at_ 3 rfl rfl
  have nt : number "trunc".toList = Option.none := number_none (by decide)
  have hflag : (Spec.ResidualCall.flags env.res).lookup ((orderTags[k]?).getD "") = some (env.res.fl k) := by
    have : k ≤ 6 := by omega
    interval_cases k <;> rfl
  have hg : eval ⟨vars, []⟩ (.not (.attr (nameExpr "trunc") ((orderTags[k]?).getD "").toList)) = .ok (.bool (!env.res.fl k)) := by
    simp only [nameExpr, eval, nt, v4, truncation, String.ofList_toList, hflag]
  unfold solverBody solverGuard
  simp only [List.cons_append, List.nil_append, Bool.false_eq_true, if_false]
  rw [execAll_cons (E' := ⟨vars, []⟩) (by rw [exec]), Spec.PyRun.execAll, exec, hg]
  cases hfl : env.res.fl k with
  | false =>
    simp only [Bool.not_false, if_true]
    rw [Spec.PyRun.execAll, exec]
    exact rfl
  | true =>
    simp only [Bool.not_true, Bool.false_eq_true, if_false, Spec.PyRun.execAll]
    have ea : solverArgs false k = ["A", "N", "ansatz", "trunc", "epsilon", "h_args", "t_args", "dt_args", "w_args"].map nameExpr := rfl
    have hargs : evalList ⟨vars, []⟩ (solverArgs false k) = .ok (inputs A N env h t dt w ε) := ea ▸
      evalList_names (.cons ⟨number_none (by decide), at_ 0 rfl rfl⟩ (.cons ⟨number_none (by decide), at_ 1 rfl rfl⟩ (.cons ⟨number_none (by decide), at_ 2 rfl rfl⟩
        (.cons ⟨number_none (by decide), at_ 3 rfl rfl⟩ (.cons ⟨number_none (by decide), at_ 4 rfl rfl⟩ (.cons ⟨number_none (by decide), at_ 5 rfl rfl⟩
          (.cons ⟨number_none (by decide), at_ 6 rfl rfl⟩ (.cons ⟨number_none (by decide), at_ 7 rfl rfl⟩ (.cons ⟨number_none (by decide), at_ 8 rfl rfl⟩ .nil)))))))))
    rw [exec, nameExpr, evalTop, hargs]
    simp only
    cases hrun : runFunction DEinsum.ts env resFns ((range2 1 (n + 1)).map (linkedAt mkDs)) ((range2 1 (n + 1)).map (unlinkedAt mkDs)) (dtFnAt k) with
    | error e =>
      rw [hrun] at hfn
      have : callWith other (moduleAst n) (depth + 2) (dtFnName false k).toList (inputs A N env h t dt w ε) [] = .error e := hfn
      rw [this]
      exact rfl
    | ok r =>
      rw [hrun] at hfn
      obtain ⟨heap, hfn⟩ := hfn
      rw [hfn]
      simp only [Spec.PyRun.execAll]
      rw [exec]
      simp only [nameExpr, evalTop, eval, number_dt, set_same, Except.map]
      exact ⟨heap, rfl⟩

end

end TF.Dt
