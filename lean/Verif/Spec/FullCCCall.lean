import Verif.Spec.PyRun
import Verif.Spec.FullCCValue

/-!
# The arguments of the functions of a generated full-CC module

What `Verif.Spec.CCRun.Caller` says about the arguments, as Python values.
-/

namespace TF.Spec.CCCall

open TF.Spec.PyRun TF.Spec.Tensor TF.Spec.CCRun

variable {R : Type}

/-- A dictionary of arrays: two electronic axes, then one for every operator. -/
def argument (A N : Nat) (has : Nat × Nat → Bool) (x : Nat × Nat → Arr R) : Val R :=
  .dict fun o => if has o = true then some ⟨A :: A :: List.replicate (o.1 + o.2) N, x o⟩ else none

/-- The truth values of the truncation object. -/
def attributes (env : Caller) : List (String × Bool) :=
  [("at_least_linear", env.fl.h 1), ("at_least_quadratic", env.fl.h 2), ("at_least_cubic", env.fl.h 3), ("at_least_quartic", env.fl.h 4),
   ("at_least_quintic", env.fl.h 5), ("singles", env.fl.t 1), ("doubles", env.fl.t 2), ("triples", env.fl.t 3), ("quadruples", env.fl.t 4),
   ("quintuples", env.fl.t 5), ("sextuples", env.fl.t 6)]

/-- The method of the truncation object raises when the order is too low. -/
def methods (env : Caller) : List (String × Except PyErr Unit) :=
  [("confirm_at_least_singles", if env.singles = true then .ok () else .error .exception)]

def truncation (env : Caller) : Val R := .obj (fun w => (attributes env).lookup (String.ofList w)) fun w => (methods env).lookup (String.ofList w)

def ansatz (env : Caller) : Val R := .obj (fun w => [("ground_state", env.ground)].lookup (String.ofList w)) fun _ => none

/-- `A, N, ansatz, truncation, h_args, t_args` -/
def inputs (A N : Nat) (env : Caller) (h t : Nat × Nat → Arr R) : List (Val R) :=
  [.num A, .num N, ansatz env, truncation env, argument A N env.h h, argument A N env.t t]

end TF.Spec.CCCall
