import Verif.Spec.PyRun
import Verif.Spec.Residual

/-!
# The arguments of the functions of a generated residual module

What `Verif.Spec.Residual.Env` says about the arguments, as Python values.
-/

namespace TF.Spec.ResidualCall

open TF.Spec.PyRun TF.Spec.Tensor TF.Spec.Residual

variable {R : Type}

/-- The truth values of the truncation object. -/
def flags (env : Env) : List (String × Bool) :=
  [("quadratic", env.quadratic), ("singles", env.fl 1), ("doubles", env.fl 2), ("triples", env.fl 3), ("quadruples", env.fl 4), ("quintuples", env.fl 5),
   ("sextuples", env.fl 6)]

def truncation (env : Env) : Val R := .obj (fun w => (flags env).lookup (String.ofList w)) fun _ => none

/-- An array with two electronic axes and `n` axes for the modes. -/
def tensor (A N n : Nat) (x : Arr R) : NArr R := ⟨A :: A :: List.replicate n N, x⟩

/-- The Hamiltonian: the terms with `(0, 0)`, `(0, 1)`, `(1, 0)`, `(1, 1)`, `(0, 2)` and `(2, 0)` upper and lower labels. -/
def hamiltonian (A N : Nat) (h : Nat × Nat → Arr R) : Val R :=
  .tuple ([(0, 0), (0, 1), (1, 0), (1, 1), (0, 2), (2, 0)].map fun o => .arr (tensor A N (o.1 + o.2) (h o)))

/-- The W operator of order `j`, or `None`. -/
def wOperator (A N : Nat) (env : Env) (w : Nat → Arr R) (j : Nat) : Val R := if env.present j = true then .arr (tensor A N j (w j)) else .none

/-- `A, N, truncation, h_args, w_args` -/
def inputs (A N : Nat) (env : Env) (h : Nat × Nat → Arr R) (w : Nat → Arr R) : List (Val R) :=
  [.num A, .num N, truncation env, hamiltonian A N h, .tuple ((List.range env.wlen).map fun i => wOperator A N env w (i + 1))]

end TF.Spec.ResidualCall
