import Verif.Spec.PyRun
import Verif.Spec.ETValue

/-!
# The arguments of the functions of a generated e^T module

What `Verif.Spec.ETRun.Caller` says about the arguments, as Python values.
-/

namespace TF.Spec.ETCall

open TF.Spec.PyRun TF.Spec.Tensor TF.Spec.ETRun
open TF.Spec.ETValue (electronic)
open TF.ET (Mode)

variable {R : Type}

/-- A dictionary of arrays: the first axes of `name[(m, n)]` are electronic, one for every operator follows. -/
def argument (A N : Nat) (env : Caller) (args : String → Nat × Nat → Arr R) (name : String) : Val R :=
  .dict fun o => if env.has name o = true then some ⟨List.replicate (electronic name) A ++ List.replicate (o.1 + o.2) N, args name o⟩ else none

/-- The truth values of the truncation object. -/
def attributes (env : Caller) : List (String × Bool) :=
  [("h_at_least_linear", env.h 1), ("h_at_least_quadratic", env.h 2), ("h_at_least_cubic", env.h 3), ("h_at_least_quartic", env.h 4),
   ("h_at_least_quintic", env.h 5), ("t_singles", env.t 1), ("t_doubles", env.t 2), ("t_triples", env.t 3), ("t_quadruples", env.t 4),
   ("t_quintuples", env.t 5), ("t_sextuples", env.t 6), ("z_at_least_linear", env.z 1), ("z_at_least_quadratic", env.z 2),
   ("z_at_least_cubic", env.z 3), ("z_at_least_quartic", env.z 4), ("z_at_least_quintic", env.z 5)]

/-- The methods of the truncation object: they raise when the order is too low. -/
def methods (env : Caller) : List (String × Except PyErr Unit) :=
  ["singles", "doubles", "triples", "quadruples", "quintuples", "sextuples"].map fun s =>
    ("confirm_at_least_" ++ s, if env.confirm s = true then .ok () else .error .exception)

def truncation (env : Caller) : Val R := .obj (fun w => (attributes env).lookup (String.ofList w)) fun w => (methods env).lookup (String.ofList w)

def ansatz (env : Caller) : Val R := .obj (fun w => [("ground_state", env.ground)].lookup (String.ofList w)) fun _ => none

/-- `A, N, ansatz, truncation, t_args, h_args, z_args` on the right-hand side, `A, N, ansatz, truncation, t_conj, dT, z_args, dz_args` on the
left-hand side; the optimised function has `opt_paths` as its last argument. -/
def inputs (mode : Mode) (A N : Nat) (env : Caller) (args : String → Nat × Nat → Arr R) (paths : Option (List (Val R))) : List (Val R) :=
  [.num A, .num N, ansatz env, truncation env] ++
    (match mode with | .rhs => ["t_args", "h_args", "z_args"] | .lhs => ["t_conj", "dT", "z_args", "dz_args"]).map (argument A N env args) ++
    (paths.map .tuple).toList

end TF.Spec.ETCall
