import Verif.Model.Dt
import Verif.Spec.W
import Verif.Spec.Residual
import Mathlib.Algebra.BigOperators.Group.List.Basic
import Mathlib.Algebra.Algebra.Basic
import Mathlib.Algebra.Algebra.Rat

/-! # Specification vocabulary for the equations of the amplitude derivatives -/

namespace TF.Spec.Dt

open TF.Dt TF.W TF.Spec.W

/-- The einsum `e` multiplies its operands: as for W, `mid` are the inner electronic letters and `vs` the
vibrational letters of the operands. -/
def MultipliesD (e : DEinsum) (mid : List Char) (vs : List (List Char)) : Prop :=
  Multiplies ⟨e.subs, e.out, e.ts.map Operand.n⟩ mid vs

/-- `o` is a product of amplitudes whose orders are those of the partition `p` in some ordering, with
exactly one factor replaced by its derivative. -/
structure OneDerivative (p : List Nat) (o : List Operand) : Prop where
  orders : (o.map Operand.n).Perm p
  one : o.countP Operand.der = 1

/-- The statement sums, with the coefficient of the products of `p` in the cluster exponential, every
product of `p` with one derivative exactly once. -/
structure Derives {ι : Type} (ts : ι → List Operand) (p : List Nat) (d : DBlock ι) : Prop where
  coefficient : overFactorials d.pref = weight p
  once : (d.items.map ts).Nodup
  all : ∀ o, o ∈ d.items.map ts ↔ OneDerivative p o

/-! ## Execution -/

/-- What the caller passes: the ansatz, the lengths of `t_args` and `dt_args`, and what the residual
functions need. -/
structure Env where
  veci : Bool
  mixed : Bool
  cc : Bool
  tlen : Nat
  dtlen : Nat
  res : Residual.Env

/-- Call of a function of disconnected terms: too few amplitudes to unpack raise `ValueError`, names not
unpacked `NameError`. -/
def runDisconnected {ι : Type} (ts : ι → List Operand) (tlen dtlen : Nat) (c : Disconnected ι) :
    Except PyErr (List (DBlock ι)) :=
  match c.blocks with
  | none => .error .exception
  | some bs =>
    if tlen < c.unpacked.length ∨ dtlen < c.unpacked.length then .error .value
    else if (bs.all fun b => b.items.all fun i => (ts i).all fun o => c.unpacked.contains o.n) then .ok bs
    else .error .name

/-- Call number `k` (from 1) of a list of functions, if it is made at all. -/
def callNth {ι : Type} (ts : ι → List Operand) (tlen dtlen k : Nat) (called : Bool) (fs : List (Disconnected ι)) :
    Except PyErr (List (DBlock ι)) :=
  if called then
    match fs[k - 1]? with
    | none => .error .name
    | some c => runDisconnected ts tlen dtlen c
  else .ok []

/-- What is put together for a derivative: the lines of the residual, the epsilon term (coefficient,
order of W, einsum), the linked and the unlinked statements (all subtracted), the order passed to
`symmetrize_tensor`. -/
structure Result (ι : Type) where
  residual : List TF.Residual.Line
  epsilon : Nat × Nat × Path
  linked : List (DBlock ι)
  unlinked : List (DBlock ι)
  sym : Nat

/-- Call of `residual_equations.calculate_order_<k>_residual`; `AttributeError` if it does not exist. -/
def runResidual (env : Residual.Env) (resFns : List TF.Residual.Fn) (k : Nat) : Except PyErr (List TF.Residual.Line) :=
  match resFns[k]? with
  | none => .error .attribute
  | some f => Residual.runFn env f

/-- Call of `_calculate_order_<k>_dt_amplitude`. -/
def runFunction {ι : Type} (ts : ι → List Operand) (env : Env) (resFns : List TF.Residual.Fn)
    (linked unlinked : List (Disconnected ι)) (f : DtFunction) : Except PyErr (Result ι) :=
  if env.res.wlen < f.unpacked.length then .error .value
  else match runResidual env.res resFns f.order with
    | .error e => .error e
    | .ok r =>
      if !env.res.present f.order then .error .type
      else
        let calls := if env.veci then (false, false) else if env.mixed then f.ifMixed
          else if env.cc then f.ifCC else (false, false)
        match callNth ts env.tlen env.dtlen f.order calls.1 linked, callNth ts env.tlen env.dtlen f.order calls.2 unlinked with
        | .error e, _ => .error e
        | .ok _, .error e => .error e
        | .ok l, .ok u => .ok ⟨r, (f.epsPref, f.order, f.epsilon), l, u, f.sym⟩

/-- Call of `solve_<name of order k>_equations`. -/
def runSolver {ι : Type} (ts : ι → List Operand) (env : Env) (resFns : List TF.Residual.Fn)
    (linked unlinked : List (Disconnected ι)) (fns : List DtFunction) (solvers : List Nat) (k : Nat) :
    Except PyErr (Result ι) :=
  match solvers[k - 1]?, fns[k - 1]? with
  | some flag, some f => if !env.res.fl flag then .error .exception else runFunction ts env resFns linked unlinked f
  | _, _ => .error .name

/-- Entry `k - 1` of the list returned by `compute_optimized_epsilon_paths`. -/
def epsilonAt (ps : List (Nat × Path)) (fl : Nat → Bool) (k : Nat) : Option Path :=
  ((ps.filter fun x => fl x.1).map Prod.snd)[k - 1]?

/-- `next(optimized_einsum)(..)` call by call; `none` is `StopIteration`. -/
def serve : List Path → List DCall → Option (List (DCall × Path) × List Path)
  | ps, [] => some ([], ps)
  | [], _ :: _ => none
  | p :: ps, c :: cs => (serve ps cs).map fun r => ((c, p) :: r.1, r.2)

/-- The products subtracted from the residual of order `k`. -/
structure Subtracted (env : Env) (k : Nat) (p : List Nat) : Prop where
  partition : IsPartition k p
  disconnected : p ≠ [k]
  ansatz : env.veci = false ∧ ((env.mixed = true ∧ AtMostOneBig p) ∨ (env.mixed = false ∧ env.cc = true))

/-! ## Values -/

variable {R : Type} [Ring R] [Algebra Rat R]

/-- the value of a product of amplitudes and derivatives; multiplication in the ring stands for the
contraction written by the einsums -/
def valueD (t dt : Nat → R) (o : List Operand) : R := (o.map fun x => if x.der then dt x.n else t x.n).prod

/-- the value of the sum of statements of the derivative code -/
def sumD {ι : Type} (t dt : Nat → R) (ts : ι → List Operand) (ds : List (DBlock ι)) : R :=
  (ds.map fun d => overFactorials d.pref • (d.items.map fun i => valueD t dt (ts i)).sum).sum

/-- the value of the sum of statements of the W code -/
def sumW {ι : Type} (t : Nat → R) (ts : ι → List Nat) (ds : List (Done ι)) : R :=
  (ds.map fun d => overFactorials d.pref • ((d.orderings ts).map fun c => (c.map t).prod).sum).sum

end TF.Spec.Dt
