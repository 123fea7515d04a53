import Verif.Lemmas.SourceCode
import Verif.Lemmas.PyRun

/-!
# Lemmas about running Python source: statements
-/

namespace TF.Spec.PyRun

open TF.Spec.Source TF.Spec.Tensor

variable {R : Type} [CommRing R] [Algebra Rat R]

theorem map_const {α β : Type} {f : α → β} {b : β} : ∀ {l : List α}, (∀ x ∈ l, f x = b) → l.map f = List.replicate l.length b
  | [], _ => rfl
  | a :: l, h => by
    rw [List.map_cons, h a (by simp), map_const fun x hx => h x (by simp [hx])]
    rfl

omit [CommRing R] [Algebra Rat R] in
theorem arrays_arr (heap : List (NArr R)) : ∀ l : List (NArr R), arrays heap (l.map .arr) = .ok l
  | [] => rfl
  | x :: l => by
    rw [List.map_cons, arrays, arrays_arr heap l]
    rfl

variable {fs : Functions R} {vars : List Char → Option (Val R)} {i : Nat} {S : List Nat}

/-- the statements add `y` to the tensor -/
def Adds (fs : Functions R) (vars : List Char → Option (Val R)) (i : Nat) (S : List Nat) (ss : List Stmt) (y : Arr R) : Prop :=
  ∀ (heap : List (NArr R)) (x : Arr R), heap[i]? = some ⟨S, x⟩ →
    execAll fs ⟨vars, heap⟩ ss = .ok (Option.none, ⟨vars, heap.set i ⟨S, fun v => x v + y v⟩⟩)

theorem execAll_append (env : Env R) (a b : List Stmt) : execAll fs env (a ++ b) =
    match execAll fs env a with
    | .error x => .error x
    | .ok (some v, env) => .ok (some v, env)
    | .ok (Option.none, env) => execAll fs env b := by
  induction a generalizing env with
  | nil => simp [execAll]
  | cons s a ih =>
    rw [List.cons_append, execAll, execAll]
    cases hx : exec fs env s with
    | error x => rfl
    | ok r =>
      obtain ⟨v, env'⟩ := r
      cases v with
      | some v => rfl
      | none => exact ih env'

theorem Adds.nil : Adds fs vars i S [] fun _ => 0 := by
  intro heap x h
  obtain ⟨h1, h2⟩ := List.getElem?_eq_some_iff.1 h
  simp only [execAll, add_zero]
  rw [← h2, List.set_getElem_self]

theorem Adds.cast {ss : List Stmt} {y y' : Arr R} (h : Adds fs vars i S ss y) (e : y = y') : Adds fs vars i S ss y' := e ▸ h

theorem Adds.append {a b : List Stmt} {y z : Arr R} (h : Adds fs vars i S a y) (h' : Adds fs vars i S b z) :
    Adds fs vars i S (a ++ b) fun v => y v + z v := by
  intro heap x hx
  rw [execAll_append, h heap x hx]
  simp only
  obtain ⟨h1, h2⟩ := List.getElem?_eq_some_iff.1 hx
  rw [h' (heap.set i ⟨S, fun v => x v + y v⟩) _ (by rw [List.getElem?_set_self h1]), List.set_set]
  simp [add_assoc]

theorem Adds.pass : Adds fs vars i S [.pass] fun _ => 0 := by
  intro heap x h
  have := Adds.nil (fs := fs) (vars := vars) heap x h
  rw [execAll] at this
  rw [execAll, exec]
  simp only
  rw [execAll]
  exact this

theorem Adds.gate {c : Expr} {b : Bool} {body : List Stmt} {y : Arr R} (hc : ∀ heap, eval ⟨vars, heap⟩ c = .ok (.bool b))
    (h : Adds fs vars i S body y) : Adds fs vars i S [.cond c body []] (if b = true then y else fun _ => 0) := by
  intro heap x hx
  rw [execAll, exec, hc heap]
  cases b with
  | true =>
    simp only [if_true, h heap x hx, execAll]
  | false =>
    have := Adds.nil (fs := fs) (vars := vars) heap x hx
    simp only [Bool.false_eq_true, if_false]
    simp only [execAll] at this ⊢
    exact this

/-- a condition with both branches -/
theorem Adds.branch {c : Expr} {b : Bool} {body orelse : List Stmt} {y : Arr R} (hc : ∀ heap, eval ⟨vars, heap⟩ c = .ok (.bool b))
    (ht : b = true → Adds fs vars i S body y) (hf : b = false → Adds fs vars i S orelse y) : Adds fs vars i S [.cond c body orelse] y := by
  intro heap x hx
  rw [execAll, exec, hc heap]
  cases b with
  | true => simp only [ht rfl heap x hx, execAll]
  | false => simp only [hf rfl heap x hx, execAll]

/-- the statements raise an exception -/
def Fails (fs : Functions R) (vars : List Char → Option (Val R)) (i : Nat) (S : List Nat) (ss : List Stmt) (e : PyErr) : Prop :=
  ∀ (heap : List (NArr R)) (x : Arr R), heap[i]? = some ⟨S, x⟩ → execAll fs ⟨vars, heap⟩ ss = .error e

theorem Fails.left {a b : List Stmt} {e : PyErr} (h : Fails fs vars i S a e) : Fails fs vars i S (a ++ b) e := by
  intro heap x hx
  rw [execAll_append, h heap x hx]

theorem Fails.right {a b : List Stmt} {y : Arr R} {e : PyErr} (h : Adds fs vars i S a y) (h' : Fails fs vars i S b e) : Fails fs vars i S (a ++ b) e := by
  intro heap x hx
  rw [execAll_append, h heap x hx]
  simp only
  obtain ⟨h1, h2⟩ := List.getElem?_eq_some_iff.1 hx
  exact h' _ _ (by rw [List.getElem?_set_self h1])

theorem Fails.branch {c : Expr} {b : Bool} {body orelse : List Stmt} {e : PyErr} (hc : ∀ heap, eval ⟨vars, heap⟩ c = .ok (.bool b))
    (ht : b = true → Fails fs vars i S body e) (hf : b = false → Fails fs vars i S orelse e) : Fails fs vars i S [.cond c body orelse] e := by
  intro heap x hx
  rw [execAll, exec, hc heap]
  cases b with
  | true => simp only [ht rfl heap x hx]
  | false => simp only [hf rfl heap x hx]

theorem evalList_names {vars : List Char → Option (Val R)} {heap : List (NArr R)} {ws : List String} {vs : List (Val R)}
    (h : List.Forall₂ (fun w v => number w.toList = none ∧ vars w.toList = some v) ws vs) : evalList ⟨vars, heap⟩ (ws.map nameExpr) = .ok vs := by
  induction h with
  | nil => rfl
  | cons h _ ih =>
    rw [List.map_cons, evalList, ih, nameExpr, eval, h.1]
    simp only [h.2]
    rfl

theorem eval_shape {vars : List Char → Option (Val R)} {heap : List (NArr R)} {A N : Nat} (hA : vars "A".toList = some (.num A)) (hN : vars "N".toList = some (.num N)) (n : Nat) :
    ∃ v, eval ⟨vars, heap⟩ (group (nameExpr "A" :: List.replicate n (nameExpr "N"))) = .ok v ∧ shapeOf v = some (A :: List.replicate n N) := by
  have a0 : number "A".toList = Option.none := number_none (by decide)
  have n0 : number "N".toList = Option.none := number_none (by decide)
  cases n with
  | zero =>
    refine ⟨.num A, ?_, ?_⟩
    · simp only [List.replicate_zero, group, nameExpr, eval, a0, hA]
    · simp [shapeOf, lengthOf]
  | succ n =>
    have hl : evalList ⟨vars, heap⟩ (nameExpr "A" :: List.replicate (n + 1) (nameExpr "N")) = .ok (.num A :: List.replicate (n + 1) (.num N)) := by
      have := evalList_names (vars := vars) (heap := heap) (ws := "A" :: List.replicate (n + 1) "N") (vs := .num (A : Rat) :: List.replicate (n + 1) (.num (N : Rat)))
        (.cons ⟨a0, hA⟩ (by
          induction n + 1 with
          | zero => exact .nil
          | succ k ih => exact .cons ⟨n0, hN⟩ ih))
      rw [List.map_cons, List.map_replicate] at this
      exact this
    refine ⟨.tuple (.num A :: List.replicate (n + 1) (.num N)), ?_, ?_⟩
    · show eval _ (.tuple (nameExpr "A" :: List.replicate (n + 1) (nameExpr "N"))) = _
      rw [eval, hl]
      rfl
    · simp only [shapeOf]
      have : ∀ k, (List.replicate k (.num (N : Rat) : Val R)).mapM lengthOf =
          some (List.replicate k N) := by
        intro k
        induction k with
        | zero => rfl
        | succ k ih => rw [List.replicate_succ, List.mapM_cons, ih]; simp [List.replicate_succ, lengthOf]
      rw [List.mapM_cons, this]
      simp [lengthOf]

theorem exec_zeros {fs : Functions R} {vars : List Char → Option (Val R)} {heap : List (NArr R)} {A N : Nat} (hA : vars "A".toList = some (.num A))
    (hN : vars "N".toList = some (.num N)) (n : Nat) (w : List Char) :
    exec fs ⟨vars, heap⟩ (.assign [w] (zerosExpr n)) = .ok (none, ⟨PyRun.set vars w (.ref heap.length), heap ++ [⟨A :: List.replicate n N, fun _ => 0⟩]⟩) := by
  obtain ⟨v, h1, h2⟩ := eval_shape (heap := heap) hA hN n
  have h3 : shapeArg [.kw "shape".toList (group (nameExpr "A" :: List.replicate n (nameExpr "N"))), .kw "dtype".toList (nameExpr "complex")] =
    some (group (nameExpr "A" :: List.replicate n (nameExpr "N"))) := by simp [shapeArg]
  have h4 : evalTop fs ⟨vars, heap⟩ (zerosExpr n) = .ok (.ref heap.length, heap ++ [⟨A :: List.replicate n N, fun _ => 0⟩]) := by
    simp only [zerosExpr, evalTop, nameExpr] at h1 h3 ⊢
    simp only [and_self, if_true, h3, h1, h2]
  rw [exec, h4]

theorem exec_call {fs : Functions R} {E : Env R} {f : String} {ws : List String} {vs : List (Val R)} {heap' : List (NArr R)} {r : Val R}
    (h : evalList E (ws.map nameExpr) = .ok vs) (h' : fs f.toList vs E.heap = .ok (r, heap')) :
    exec fs E (.expr (.call (nameExpr f) (ws.map nameExpr))) = .ok (none, ⟨E.vars, heap'⟩) := by
  have : evalTop fs E (.call (nameExpr f) (ws.map nameExpr)) = .ok (r, heap') := by
    unfold nameExpr at h ⊢
    simp only [evalTop, h, h']
  rw [exec, this]

theorem execAll_cons {fs : Functions R} {E E' : Env R} {s : Stmt} {l : List Stmt} (h : exec fs E s = .ok (none, E')) :
    execAll fs E (s :: l) = execAll fs E' l := by rw [execAll, h]

theorem execAll_then {fs : Functions R} {E E' : Env R} {a l : List Stmt} (h : execAll fs E a = .ok (none, E')) :
    execAll fs E (a ++ l) = execAll fs E' l := by rw [execAll_append, h]

theorem eval_names {heap : List (NArr R)} {ws : List String} {ns : List Nat} (hne : ws ≠ [])
    (h : List.Forall₂ (fun w n => number w.toList = none ∧ vars w.toList = some (.num (n : Nat))) ws ns) :
    ∃ v, eval ⟨vars, heap⟩ (group (ws.map nameExpr)) = .ok v ∧ shapeOf v = some ns := by
  match ws, ns, hne, h with
  | [w], [n], _, .cons h .nil =>
    refine ⟨.num n, ?_, by simp [shapeOf, lengthOf]⟩
    simp only [List.map_cons, List.map_nil, group, nameExpr, eval, h.1, h.2]
  | w :: w' :: ws, ns, _, h =>
    have hl := evalList_names (vars := vars) (heap := heap) (ws := w :: w' :: ws) (vs := ns.map fun (n : Nat) => .num (n : Rat))
      (by rw [List.forall₂_map_right_iff]; exact h)
    refine ⟨.tuple (ns.map fun (n : Nat) => .num (n : Rat)), ?_, ?_⟩
    · show eval _ (.tuple ((w :: w' :: ws).map nameExpr)) = _
      rw [eval, hl]
      rfl
    · simp only [shapeOf]
      clear h hl
      induction ns with
      | nil => rfl
      | cons n ns ih => rw [List.map_cons, List.mapM_cons, ih]; simp [lengthOf]

/-- `np.zeros((w1, w2, ..), dtype=complex)` -/
def zerosAt (ws : List String) : Expr := .call (.attr (nameExpr "np") "zeros".toList) [group (ws.map nameExpr), .kw "dtype".toList (nameExpr "complex")]

theorem exec_zerosAt {heap : List (NArr R)} {ws : List String} {ns : List Nat} (hne : ws ≠ [])
    (h : List.Forall₂ (fun w n => number w.toList = none ∧ vars w.toList = some (.num (n : Nat))) ws ns) (w : List Char) :
    exec fs ⟨vars, heap⟩ (.assign [w] (zerosAt ws)) = .ok (none, ⟨PyRun.set vars w (.ref heap.length), heap ++ [⟨ns, fun _ => 0⟩]⟩) := by
  obtain ⟨v, h1, h2⟩ := eval_names (heap := heap) hne h
  have h3 : shapeArg [group (ws.map nameExpr), .kw "dtype".toList (nameExpr "complex")] = some (group (ws.map nameExpr)) := by
    match ws, hne with
    | [w], _ => rfl
    | w :: w' :: ws, _ => rfl
  have h4 : evalTop fs ⟨vars, heap⟩ (zerosAt ws) = .ok (.ref heap.length, heap ++ [⟨ns, fun _ => 0⟩]) := by
    simp only [zerosAt, evalTop, nameExpr] at h1 h3 ⊢
    simp only [and_self, if_true, h3, h1, h2]
  rw [exec, h4]

/-! ## Variables -/

omit [CommRing R] [Algebra Rat R] in
theorem set_same (vars : List Char → Option (Val R)) (w : List Char) (v : Val R) : PyRun.set vars w v w = some v := by simp [PyRun.set]

omit [CommRing R] [Algebra Rat R] in
theorem set_other (vars : List Char → Option (Val R)) {w w' : List Char} (v : Val R) (h : w' ≠ w) : PyRun.set vars w v w' = vars w' := by simp [PyRun.set, h]

omit [CommRing R] [Algebra Rat R] in
theorem setAll_other : ∀ {ws : List (List Char)} {vs : List (Val R)} {vars : List Char → Option (Val R)} {w : List Char}, w ∉ ws → setAll vars ws vs w = vars w
  | [], _, _, _, _ => by simp [setAll]
  | _ :: _, [], _, _, _ => by simp [setAll]
  | a :: ws, v :: vs, vars, w, h => by
    rw [List.mem_cons, not_or] at h
    rw [setAll, setAll_other h.2, set_other _ _ h.1]

omit [CommRing R] [Algebra Rat R] in
theorem setAll_at : ∀ {ws : List (List Char)} {vs : List (Val R)} {vars : List Char → Option (Val R)} {n : Nat} {w : List Char} {v : Val R}, ws.Nodup → ws[n]? = some w → vs[n]? = some v →
    setAll vars ws vs w = some v
  | a :: ws, b :: vs, vars, 0, w, v, hd, h1, h2 => by
    simp only [List.getElem?_cons_zero, Option.some.injEq] at h1 h2
    subst h1 h2
    rw [setAll, setAll_other (List.nodup_cons.1 hd).1, set_same]
  | a :: ws, b :: vs, vars, n + 1, w, v, hd, h1, h2 => by
    rw [setAll]
    exact setAll_at (List.nodup_cons.1 hd).2 (by simpa using h1) (by simpa using h2)

end TF.Spec.PyRun
