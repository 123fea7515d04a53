import Verif.Spec.ResidualCall
import Verif.Spec.Dt

/-!
# The arguments of the functions of a generated module of the amplitude derivatives

What `Verif.Spec.Dt.Env` says about the arguments, as Python values; and calls of functions of a module that calls functions of another module.
-/

namespace TF.Spec.DtCall

open TF.Spec.Source TF.Spec.PyRun TF.Spec.Tensor TF.Spec.Dt TF.Spec.ResidualCall

variable {R : Type}

/-! ## Two modules -/

section
variable [CommRing R] [Algebra Rat R]

/-- The functions `m.f` for the functions `f` of the module with the name `m` and this source. -/
def callModule (m : List Char) (l : List Stmt) (depth : Nat) : Functions R := fun f args heap =>
  if f.take (m.length + 1) = m ++ ['.'] then
    match lookup l (f.drop (m.length + 1)) with
    | none => .error .attribute
    | some _ => if l.any importsNumpy then call l depth (f.drop (m.length + 1)) args heap else .error .name
  else .error .name

/-- Calls of the functions of a module, as `call`, with functions of other modules. -/
def callWith (other : Functions R) (l : List Stmt) : Nat → Functions R
  | 0 => fun _ _ _ => .error .exception
  | depth + 1 => fun f args heap =>
    if '.' ∈ f then other f args heap
    else
      match lookup l f with
      | none =>
        match globals (R := R) l f with
        | some (.imported path name) => (callImported heap path name args).map (·, heap)
        | some _ => .error .type
        | none => .error .name
      | some (ps, b) =>
        if ps.length = args.length then
          match execAll (callWith other l depth) ⟨setAll (globals l) ps args, heap⟩ b with
          | .error x => .error x
          | .ok (v, env) => .ok (v.getD .none, env.heap)
        else .error .type

/-- A call from outside of a function that returns an array; the functions need numpy. -/
def callArrayWith (other : Functions R) (l : List Stmt) (depth : Nat) (f : List Char) (args : List (Val R)) : Except PyErr (NArr R) :=
  if l.any importsNumpy then
    match callWith other l depth f args [] with
    | .error x => .error x
    | .ok r =>
      match array r.2 r.1 with
      | some x => .ok x
      | none => .error .type
  else .error .name

end

/-! ## The arguments -/

/-- The truth values of the ansatz object. -/
def ansatz (env : Env) : Val R :=
  .obj (fun w => [("VECI", env.veci), ("VE_MIXED", env.mixed), ("VECC", env.cc)].lookup (String.ofList w)) fun _ => none

/-- The first amplitudes, or their derivatives. -/
def amplitudes (A N len : Nat) (t : Nat → Arr R) : Val R := .tuple ((List.range len).map fun i => .arr (tensor A N (i + 1) (t (i + 1))))

/-- The W operators. -/
def wOperators (A N : Nat) (env : Env) (w : Nat → Arr R) : Val R := .tuple ((List.range env.res.wlen).map fun i => wOperator A N env.res w (i + 1))

/-- What a function returned, as an argument of another one. -/
def passed (ws : List (Option (NArr R))) : Val R := .tuple (ws.map fun x => x.elim .none .arr)

/-- `A, N, ansatz, trunc, epsilon, h_args, t_args, dt_args, w_args` -/
def arguments (A N : Nat) (env : Env) (h : Nat × Nat → Arr R) (t dt : Nat → Arr R) (ε : Arr R) (w : Val R) : List (Val R) :=
  [.num A, .num N, ansatz env, truncation env.res, .arr ⟨[A, A], ε⟩, hamiltonian A N h, amplitudes A N env.tlen t, amplitudes A N env.dtlen dt, w]

/-- the same with the W operators that are present -/
def inputs (A N : Nat) (env : Env) (h : Nat × Nat → Arr R) (t dt w : Nat → Arr R) (ε : Arr R) : List (Val R) := arguments A N env h t dt ε (wOperators A N env w)

end TF.Spec.DtCall
