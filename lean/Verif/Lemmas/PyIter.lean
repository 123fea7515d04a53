import Verif.Lemmas.SourceRun
import Verif.Spec.PyIter

/-!
# Lemmas about running Python source with iterators
-/

namespace TF.Spec.PyIter

open TF.Spec.Source TF.Spec.Tensor TF.Spec.PyRun

variable {R : Type} [CommRing R] [Algebra Rat R]

section
variable {known : List Char → Bool} {fs : Functions R}

theorem execAllS_append (env : Env R) (a b : List Stmt) : execAllS known fs env (a ++ b) =
    match execAllS known fs env a with
    | .error x => .error x
    | .ok (some v, env) => .ok (some v, env)
    | .ok (Option.none, env) => execAllS known fs env b := by
  induction a generalizing env with
  | nil => simp [execAllS]
  | cons s a ih =>
    rw [List.cons_append, execAllS, execAllS]
    cases hx : execS known fs env s with
    | error x => rfl
    | ok r =>
      obtain ⟨v, env'⟩ := r
      cases v with
      | some v => rfl
      | none => exact ih env'

theorem execAllS_cons {E E' : Env R} {s : Stmt} {l : List Stmt} (h : execS known fs E s = .ok (none, E')) :
    execAllS known fs E (s :: l) = execAllS known fs E' l := by rw [execAllS, h]

theorem execAllS_then {E E' : Env R} {a l : List Stmt} (h : execAllS known fs E a = .ok (none, E')) :
    execAllS known fs E (a ++ l) = execAllS known fs E' l := by rw [execAllS_append, h]

/-! ## Statements without iterators -/

theorem execS_assign {E : Env R} {ws : List (List Char)} {e : Expr} (h1 : iterCall e = none) (h2 : callable known e = true) :
    execS known fs E (.assign ws e) = exec fs E (.assign ws e) := by
  rw [execS, h1]
  simp only [h2, if_true]

theorem execS_ret {E : Env R} {e : Expr} (h2 : callable known e = true) : execS known fs E (.ret (some e)) = exec fs E (.ret (some e)) := by
  rw [execS, h2, if_pos rfl]

theorem execS_expr {E : Env R} {e : Expr} (h1 : listCall E e = none) (h2 : callable known e = true) : execS known fs E (.expr e) = exec fs E (.expr e) := by
  rw [execS, h1]
  simp only [h2, if_true]

mutual

/-- nothing in the expression uses an iterator or an optimised expression -/
def plain (vars : Vars R) : Expr → Bool
  | .call (.call _ _) _ => false
  | .call (.word g) _ => match vars g with | some (.expression _ _) => false | _ => true
  | .sum l => plainL vars l
  | .prod l => plainL vars l
  | _ => true

def plainL (vars : Vars R) : List (Bool × Expr) → Bool
  | [] => true
  | (_, e) :: l => plain vars e && plainL vars l

end

theorem evalCall_plain {env : Env R} {f : Expr} {args : List Expr} (h : plain env.vars (.call f args) = true) : evalCall env f args = (eval env (.call f args)).map (·, env.vars) := by
  unfold evalCall
  split
  · simp [plain] at h
  · rename_i g
    rw [plain] at h
    split at h <;> simp_all
  · rfl

mutual

theorem evalS_plain {env : Env R} : ∀ {e : Expr}, plain env.vars e = true → evalS env e = (eval env e).map (·, env.vars)
  | .call f args, h => by rw [evalS, evalCall_plain h]
  | .sum l, h => by
    rw [plain] at h
    rw [evalS, eval]
    exact evalSum_plain h
  | .prod l, h => by
    rw [plain] at h
    rw [evalS, eval]
    exact evalProd_plain h
  | .word _, _ => by simp only [evalS]
  | .str _, _ => by simp only [evalS]
  | .fmt _, _ => by simp only [evalS]
  | .attr _ _, _ => by simp only [evalS]
  | .index _ _, _ => by simp only [evalS]
  | .tuple _, _ => by simp only [evalS]
  | .list _, _ => by simp only [evalS]
  | .dict _, _ => by simp only [evalS]
  | .kw _ _, _ => by simp only [evalS]
  | .not _, _ => by simp only [evalS]
  | .notNone _, _ => by simp only [evalS]

theorem evalSum_plain {env : Env R} : ∀ {l : List (Bool × Expr)}, plainL env.vars l = true → evalSumS env l = (evalSum env l).map (·, env.vars)
  | [], _ => by rw [evalSumS, evalSum]; rfl
  | (_, e) :: l, h => by
    rw [plainL, Bool.and_eq_true] at h
    rw [evalSumS, evalSum, evalS_plain h.1]
    cases eval env e with
    | error x => rfl
    | ok v => exact addAll_plain h.2

theorem evalProd_plain {env : Env R} : ∀ {l : List (Bool × Expr)}, plainL env.vars l = true → evalProdS env l = (evalProd env l).map (·, env.vars)
  | [], _ => by rw [evalProdS, evalProd]; rfl
  | (_, e) :: l, h => by
    rw [plainL, Bool.and_eq_true] at h
    rw [evalProdS, evalProd, evalS_plain h.1]
    cases eval env e with
    | error x => rfl
    | ok v => exact mulAll_plain h.2

theorem addAll_plain {env : Env R} : ∀ {v : Val R} {l : List (Bool × Expr)}, plainL env.vars l = true → addAllS env v l = (addAll env v l).map (·, env.vars)
  | v, [], _ => by rw [addAllS, addAll]; rfl
  | v, (b, e) :: l, h => by
    rw [plainL, Bool.and_eq_true] at h
    rw [addAllS, addAll, evalS_plain h.1]
    cases eval env e with
    | error x => rfl
    | ok y =>
      simp only [Except.map]
      cases addVal env.heap b v y with
      | error x => rfl
      | ok r => exact addAll_plain h.2

theorem mulAll_plain {env : Env R} : ∀ {v : Val R} {l : List (Bool × Expr)}, plainL env.vars l = true → mulAllS env v l = (mulAll env v l).map (·, env.vars)
  | v, [], _ => by rw [mulAllS, mulAll]; rfl
  | v, (b, e) :: l, h => by
    rw [plainL, Bool.and_eq_true] at h
    rw [mulAllS, mulAll, evalS_plain h.1]
    cases eval env e with
    | error x => rfl
    | ok y =>
      simp only [Except.map]
      cases mulVal env.heap b v y with
      | error x => rfl
      | ok r => exact mulAll_plain h.2

end

theorem execS_add {E : Env R} {w : List Char} {e : Expr} (h : plain E.vars e = true) : execS known fs E (.add w e) = exec fs E (.add w e) := by
  rw [execS]
  split
  · rw [evalS_plain h, exec]
    unfold addTo
    cases eval E e with
    | error x => rfl
    | ok v => rfl
  · rfl

/-! ## Statements that add to an array -/

/-- the statements add `y` to the array and change the variables -/
def AddsG (known : List Char → Bool) (fs : Functions R) (v v' : Vars R) (i : Nat) (S : List Nat) (ss : List Stmt) (y : Arr R) : Prop :=
  ∀ (heap : List (NArr R)) (x : Arr R), heap[i]? = some ⟨S, x⟩ →
    execAllS known fs ⟨v, heap⟩ ss = .ok (Option.none, ⟨v', heap.set i ⟨S, fun u => x u + y u⟩⟩)

variable {v v' v'' : Vars R} {i : Nat} {S : List Nat}

theorem AddsG.nil : AddsG known fs v v i S [] fun _ => 0 := by
  intro heap x h
  obtain ⟨h1, h2⟩ := List.getElem?_eq_some_iff.1 h
  simp only [execAllS, add_zero]
  rw [← h2, List.set_getElem_self]

theorem AddsG.cast {ss : List Stmt} {y y' : Arr R} (h : AddsG known fs v v' i S ss y) (e : y = y') : AddsG known fs v v' i S ss y' := e ▸ h

theorem AddsG.append {a b : List Stmt} {y z : Arr R} (h : AddsG known fs v v' i S a y) (h' : AddsG known fs v' v'' i S b z) :
    AddsG known fs v v'' i S (a ++ b) fun u => y u + z u := by
  intro heap x hx
  rw [execAllS_append, h heap x hx]
  simp only
  obtain ⟨h1, h2⟩ := List.getElem?_eq_some_iff.1 hx
  rw [h' (heap.set i ⟨S, fun v => x v + y v⟩) _ (by rw [List.getElem?_set_self h1]), List.set_set]
  simp [add_assoc]

theorem AddsG.pass : AddsG known fs v v i S [.pass] fun _ => 0 := by
  intro heap x h
  have := AddsG.nil (known := known) (fs := fs) (v := v) heap x h
  rw [execAllS] at this
  rw [execAllS, execS, exec]
  · simp only
    rw [execAllS]
    exact this
  all_goals (intros; simp_all)

theorem AddsG.branch {c : Expr} {b : Bool} {body orelse : List Stmt} {y : Arr R} (hc : ∀ heap, eval ⟨v, heap⟩ c = .ok (.bool b))
    (ht : b = true → AddsG known fs v v' i S body y) (hf : b = false → AddsG known fs v v' i S orelse y) : AddsG known fs v v' i S [.cond c body orelse] y := by
  intro heap x hx
  rw [execAllS, execS, hc heap]
  cases b with
  | true => simp only [ht rfl heap x hx, execAllS]
  | false => simp only [hf rfl heap x hx, execAllS]

/-- a statement without iterators -/
theorem AddsG.of {s : Stmt} {y : Arr R} (he : ∀ heap, execS known fs ⟨v, heap⟩ s = exec fs ⟨v, heap⟩ s) (h : Adds fs v i S [s] y) : AddsG known fs v v i S [s] y := by
  intro heap x hx
  have := h heap x hx
  rw [Spec.PyRun.execAll] at this
  rw [execAllS, he]
  revert this
  cases exec fs ⟨v, heap⟩ s with
  | error x => intro h; exact h
  | ok r =>
    obtain ⟨o, E⟩ := r
    cases o with
    | some o => intro h; exact h
    | none => intro h; simp only [Spec.PyRun.execAll] at h; simp only [execAllS]; exact h

theorem AddsG.add {w : List Char} {e : Expr} {y : Arr R} (hw : v w = some (.ref i)) (hi : ∀ heap, iterates ⟨v, heap⟩ e = true)
    (he : ∀ heap, evalS ⟨v, heap⟩ e = .ok (.arr ⟨S, y⟩, v')) : AddsG known fs v v' i S [.add w e] y := by
  intro heap x hx
  rw [execAllS, execS, hi heap, if_pos rfl, he heap]
  simp only [addTo, hw, hx, array, NArr.add, if_true, Bool.false_eq_true, if_false, execAllS]

end

omit [CommRing R] [Algebra Rat R] in
theorem set_set (vars : Vars R) (w : List Char) (a b : Val R) : PyRun.set (PyRun.set vars w a) w b = PyRun.set vars w b := by
  funext x
  unfold PyRun.set
  split <;> rfl

end TF.Spec.PyIter
