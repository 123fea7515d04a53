import Verif.Model.W
import Verif.Spec.Helper
import Mathlib.Data.Nat.Factorial.Basic
import Mathlib.Algebra.BigOperators.Group.List.Basic
import Mathlib.Data.Rat.Defs

/-! # Specification vocabulary for the W operators -/

namespace TF.Spec.W

open TF.W

/-- The einsum `e` multiplies the amplitudes of orders `e.ts` into a W operator: `mid` are the inner
electronic letters and `vs` the vibrational letters of the operands. -/
structure Multiplies (e : Einsum) (mid : List Char) (vs : List (List Char)) : Prop where
  /-- two electronic letters per operand, forming a chain from `a` to `b`, then the vibrational ones -/
  chain : e.subs = List.zipWith (fun p v => p.1 :: p.2 :: v) (('a' :: mid).zip (mid ++ ['b'])) vs
  chain_length : mid.length + 1 = e.ts.length
  /-- as many vibrational letters as the amplitude has modes -/
  ranks : vs.map List.length = e.ts
  /-- the result keeps every vibrational letter, in the order of the operands -/
  out : e.out = 'a' :: 'b' :: vs.flatten
  /-- no letter is used twice -/
  distinct : ('a' :: 'b' :: mid ++ vs.flatten).Nodup

/-- The coefficient of a product of amplitudes in the cluster exponential: `1/k!` from the Taylor
series for `k` factors, `1/n!` for every amplitude of order `n`. -/
def weight (p : List Nat) : Rat := 1 / (p.length.factorial * (p.map Nat.factorial).prod : Nat)

/-- `1/(a! b! ..)` -/
def overFactorials (l : List Nat) : Rat := 1 / ((l.map Nat.factorial).prod : Nat)

/-! ## Execution of the generated module -/

/-- A statement `W += 1/.. * (..)` that was executed. -/
structure Done (ι : Type) where
  pref : List Nat
  direct : Option Nat
  items : List ι
  deriving DecidableEq, Repr

/-- The products of amplitudes summed by a statement, as lists of orders in operand order. -/
def Done.orderings {ι : Type} (ts : ι → List Nat) (d : Done ι) : List (List Nat) :=
  d.direct.toList.map (fun n => [n]) ++ d.items.map ts

/-- One block: skipped if its flag is off; names that were not unpacked raise `NameError`. -/
def runBlock {ι : Type} (ts : ι → List Nat) (names : List Nat) (fl : Nat → Bool) (b : WBlock ι) :
    Except PyErr (List (Done ι)) :=
  if b.gate.all fl then
    if ((b.direct.toList ++ b.items.flatMap ts).all fun n => names.contains n) then .ok [⟨b.pref, b.direct, b.items⟩]
    else .error .name
  else .ok []

def runBlocks {ι : Type} (ts : ι → List Nat) (names : List Nat) (fl : Nat → Bool) :
    List (WBlock ι) → Except PyErr (List (Done ι))
  | [] => .ok []
  | b :: bs => match runBlock ts names fl b, runBlocks ts names fl bs with
    | .error e, _ => .error e
    | .ok _, .error e => .error e
    | .ok d, .ok r => .ok (d ++ r)

/-- Call of a vemx or vecc function with `tlen` amplitudes in `t_args`: `ValueError` when there are too
few to unpack. -/
def runContributions {ι : Type} (ts : ι → List Nat) (fl : Nat → Bool) (tlen : Nat) (c : WContributions ι) :
    Except PyErr (List (Done ι)) :=
  if tlen < c.unpacked.length then .error .value
  else match c.blocks with
    | none => .error .exception
    | some bs => runBlocks ts c.unpacked fl bs

/-- Call of function number `k` (from 1) of a list of functions; `NameError` when it was not
generated. -/
def callNth {ι : Type} (ts : ι → List Nat) (fl : Nat → Bool) (tlen k : Nat) (called : Bool)
    (fs : List (WContributions ι)) : Except PyErr (List (Done ι)) :=
  if called then
    match fs[k - 1]? with
    | none => .error .name
    | some c => runContributions ts fl tlen c
  else .ok []

/-- What the caller chose: `ansatz.VE_MIXED`, `ansatz.VECC`, the truncation flags by cluster rank
(`singles` is 1), and the number of amplitudes in `t_args`. -/
structure Env where
  mixed : Bool
  cc : Bool
  fl : Nat → Bool
  tlen : Nat

/-- Execution of `_calculate_order_<k>_w_operator`: the statements executed in the VECI line, in the
vemx function and in the vecc function. -/
def runFunction {ι : Type} (ts : ι → List Nat) (env : Env) (vemx vecc : List (WContributions ι)) (f : WFunction) :
    Except PyErr (List (Done ι) × List (Done ι) × List (Done ι)) :=
  if env.tlen < f.unpacked.length then .error .value
  else
    let calls := if env.mixed then f.ifMixed else if env.cc then f.ifCC else (false, false)
    match runBlock (ι := ι) ts f.unpacked env.fl ⟨f.veciGate, f.veciPref, some f.veci, []⟩,
        callNth ts env.fl env.tlen f.order calls.1 vemx, callNth ts env.fl env.tlen f.order calls.2 vecc with
    | .ok a, .ok b, .ok c => .ok (a, b, c)
    | .error e, _, _ => .error e
    | _, .error e, _ => .error e
    | _, _, .error e => .error e

/-- The orders computed by the master function, or the exception it raises. -/
def masterOrders (m : Master) (fl : Nat → Bool) : Except PyErr (List Nat) :=
  if !fl m.required then .error .exception
  else
    let reached := (m.steps.takeWhile fun s => fl s.1).map Prod.snd
    if reached.length = m.steps.length ∧ fl m.unsupported = true then .error .notImplemented
    else .ok (m.first ++ reached)

/-- The call of the function of order `k`. -/
def runOrder {ι : Type} (ts : ι → List Nat) (env : Env) (vemx vecc : List (WContributions ι)) (fns : List WFunction)
    (k : Nat) : Except PyErr (Nat × List (Done ι) × List (Done ι) × List (Done ι)) :=
  match fns[k - 1]? with
  | none => .error .name
  | some f => (runFunction ts env vemx vecc f).map fun r => (k, r)

/-- `compute_w_operators`: every order computed with the statements executed for it. -/
def runMaster {ι : Type} (ts : ι → List Nat) (env : Env) (vemx vecc : List (WContributions ι)) (fns : List WFunction)
    (m : Master) : Except PyErr (List (Nat × List (Done ι) × List (Done ι) × List (Done ι))) :=
  match masterOrders m env.fl with
  | .error e => .error e
  | .ok ks => collect (ks.map (runOrder ts env vemx vecc fns))

/-- Entry `k - 1` of the list returned by a generated paths function. -/
def runPaths (p : PathsFunction) (fl : Nat → Bool) (k : Nat) : Except PyErr (List Path) :=
  match p.guard with
  | some g => if fl g then entry else if k - 1 < 6 then .ok [] else .error .index
  | none => entry
where
  entry : Except PyErr (List Path) := match p.lists[k - 1]? with
    | none => .error .index
    | some l => .ok (l.flatMap fun b => if fl b.1 then b.2 else [])

/-- `next(optimized_einsum)(..)` call by call: which expression serves which call, and what is left of
the iterator.  `none` is `StopIteration`. -/
def serve : List Path → List Call → Option (List (Call × Path) × List Path)
  | ps, [] => some ([], ps)
  | [], _ :: _ => none
  | p :: ps, c :: cs => (serve ps cs).map fun r => ((c, p) :: r.1, r.2)

/-- The partitions that contribute to the W operator of order `k`. -/
structure Contributes (env : Env) (k : Nat) (p : List Nat) : Prop where
  partition : IsPartition k p
  /-- VECI: only the single amplitude; mixed: one amplitude times singles; VECC: everything -/
  ansatz : p = [k] ∨ (env.mixed = true ∧ AtMostOneBig p) ∨ (env.mixed = false ∧ env.cc = true)
  /-- the largest amplitude is in the truncation (singles always are) -/
  truncation : ∀ x ∈ p, (∀ y ∈ p, y ≤ x) → x = 1 ∨ env.fl x = true

end TF.Spec.W

namespace TF.Spec.W

open TF.W

/-- The executed statements `ds` are exactly the contributions to the W operator of order `k`: one
statement per contributing partition, with the coefficient of that product in the cluster exponential,
summing every distinct ordering of the factors once. -/
def Computes {ι : Type} (ts : ι → List Nat) (env : Env) (k : Nat) (ds : List (Done ι)) : Prop :=
  ∃ ps : List (List Nat), ps.Nodup ∧ (∀ p, p ∈ ps ↔ Contributes env k p) ∧
    List.Forall₂ (fun p d => overFactorials d.pref = weight p ∧ (d.orderings ts).Nodup ∧
      ∀ o, o ∈ d.orderings ts ↔ o.Perm p) ps ds

/-- `prod (multiplicity)!` over the distinct items of a list. -/
def multiplicities {α : Type} [DecidableEq α] (l : List α) : List Nat := l.dedup.map fun x => l.count x

/-- The printed term stands for the product of the items of `g`: its powers multiply out to `g`, and
its prefactor is `1/prod (multiplicity)!`. -/
structure Prints {α : Type} [DecidableEq α] (g : List α) (t : LatexTerm α) : Prop where
  factors : (t.factors.flatMap fun f => List.replicate f.2 f.1).Perm g
  distinct : (t.factors.map Prod.fst).Nodup
  prefactor : overFactorials t.pref = overFactorials (multiplicities g)

/-- A product of amplitudes `t^m_n` that makes up `W^m_n`. -/
structure MatchesW (w : Nat × Nat) (g : List (Nat × Nat)) : Prop where
  nontrivial : ∀ t ∈ g, t ≠ (0, 0)
  upper : (g.map Prod.fst).sum = w.1
  lower : (g.map Prod.snd).sum = w.2

end TF.Spec.W
