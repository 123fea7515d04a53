import Verif.Model.ETPython
import Verif.Spec.ET

/-!
# Specification vocabulary for the Python code of the e^T z_t equations

What it means that an einsum call computes a contraction, read off its letters; and the weight of a
contraction.
-/

namespace TF.Spec.ETPy

open TF.CC (Op HOp)
open TF.ET (Mode)
open TF.ETPy (Einsum Operand Entry Part ZBlock)
open TF.Spec.ET

/-- The places of a term of Taylor order `k`. -/
abbrev Pl (k : Nat) := Place (tFactors k).length

/-- The electronic letters in front of the labels of a factor (and of the result): on the right-hand side
h is a matrix acting on the electronic vector z, on the left-hand side only z is electronic. -/
def elec {k : Nat} (mode : Mode) : Place k → List Char
  | .lhs => (match mode with | .rhs => ['a'] | .lhs => ['c'])
  | .t _ => []
  | .h => (match mode with | .rhs => ['a', 'c'] | .lhs => [])
  | .z => ['c']

/-- On the left-hand side the time derivative acts on z when h stands for no amplitude. -/
def onZ (mode : Mode) (h : HOp) : Prop := mode = .lhs ∧ h.m = 0 ∧ h.n = 0

instance (mode : Mode) (h : HOp) : Decidable (onZ mode h) := by unfold onZ; infer_instance

/-- The factors that are arguments of the call: the unit operator of order 0 is not, and on the
left-hand side neither is h without operators. -/
def factors (mode : Mode) (k : Nat) (h : HOp) : List (Pl k) :=
  (if k = 0 then [] else (List.finRange (tFactors k).length).map .t) ++ ((if onZ mode h then [] else [.h]) ++ [.z])

/-- The argument for a factor. -/
def operand (mode : Mode) (h : HOp) (z : Op) {k : Nat} : Place k → Operand
  | .lhs => ⟨"", 0, 0⟩
  | .t _ => ⟨(match mode with | .rhs => "t_args" | .lhs => "t_conj"), 0, 1⟩
  | .h => ⟨(match mode with | .rhs => "h_args" | .lhs => "dT"), h.m, h.n⟩
  | .z => ⟨if onZ mode h then "dz_args" else "z_args", z.m, z.n⟩

/-- The call contracts these factors as the table `c` says.  `lab` are the vibrational letters of each
factor, and of the result (as those of the projection operator): as many letters as the factor has
operators, all different; each letter is on exactly two places; two places share as many letters as they
have pairs. -/
structure ReadsAs (e : Einsum) (mode : Mode) (lhs : Op) (k : Nat) (h : HOp) (z : Op) (c : Pl k → Pl k → Nat)
    (lab : Pl k → List Char) : Prop where
  subs : e.subs = (factors mode k h).map fun p => elec mode p ++ lab p
  out : e.out = elec mode (.lhs : Pl k) ++ lab .lhs
  operands : e.operands = (factors mode k h).map (operand mode h z)
  vibrational : ∀ p, ∀ x ∈ lab p, x ≠ 'a' ∧ x ≠ 'c'
  nodup : ∀ p, (lab p).Nodup
  length : ∀ p, (lab p).length = creators lhs (tFactors k) h z p + annihilators lhs (tFactors k) h z p
  twice : ∀ p, ∀ x ∈ lab p, ∃! q, q ≠ p ∧ x ∈ lab q
  shared : ∀ p q, p ≠ q → ((lab p).filter fun x => decide (x ∈ lab q)).length = c p q + c q p

/-- The same table with the t factors listed in another order. -/
def relabel {k : Nat} (σ : Equiv.Perm (Fin k)) : Place k → Place k
  | .t i => .t (σ i)
  | p => p

/-- The call computes the contraction `c`, up to the order of the (equal) t factors. -/
def Computes (e : Einsum) (mode : Mode) (lhs : Op) (k : Nat) (h : HOp) (z : Op) (c : Pl k → Pl k → Nat) : Prop :=
  ∃ (σ : Equiv.Perm (Fin (tFactors k).length)) (lab : Pl k → List Char),
    ReadsAs e mode lhs k h z (fun p q => c (relabel σ p) (relabel σ q)) lab

/-- The contractions of these factors with the projection operator. -/
def Contraction (lhs : Op) (k : Nat) (h : HOp) (z : Op) (c : Pl k → Pl k → Nat) : Prop :=
  IsPairing (creators lhs (tFactors k) h z) (annihilators lhs (tFactors k) h z) c

/-- The weight of a contraction: `1/k!` from the exponential; the number of ways to pair the operators
as `c` says, over the factorials of the numbers of operators, is `1/∏ c i j!`. -/
def weight {k : Nat} (c : Pl k → Pl k → Nat) : Rat :=
  1 / (k.factorial * ((places _).map fun i => ((places _).map fun j => ((c i j).factorial : Rat)).prod).prod)

/-- The statements `R += pref * code` (`Z += ...`) of the code of a function, each with the gates it
stands under, in textual order. -/
def blocks (h t : Nat) (l : List ZBlock) : List Entry :=
  l.flatMap fun b => b.stmts.flatMap fun s => s.codes.map fun c => ⟨h, t, b.z, s.pref, c⟩

/-- see `blocks` -/
def statements : Part → List Entry
  | .allInvalid => []
  | .noTerms => []
  | .code l => l.flatMap fun b => blocks b.h 0 b.zero ++ b.ts.flatMap fun p => blocks b.h p.1 p.2

/-- The z derivative itself: no t, no h, and z takes all annihilation operators of the projection
operator. -/
def IsDerivative (lhs : Op) (k : Nat) (h : HOp) (z : Op) : Prop := k = 0 ∧ h.m = 0 ∧ h.n = 0 ∧ z.m = lhs.n

/-- All statements of the two functions of a projection operator: the one without t and the one with t. -/
def allStatements (g : Part × Part) : List Entry := statements g.1 ++ statements g.2

/-- Which axes of the tensor of h stand for creation operators: those whose letter is not on z (the
creation operators of h are paired with t and with the projection operator, its annihilation operators
with z). -/
def creationAxes {k : Nat} (lab : Pl k → List Char) : List Bool := (lab .h).map fun x => decide (x ∉ lab .z)

end TF.Spec.ETPy
