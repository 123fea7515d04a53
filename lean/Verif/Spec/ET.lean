import Verif.Model.ET
import Mathlib.Data.Nat.Factorial.Basic
import Mathlib.Logic.Equiv.Defs
import Mathlib.Data.List.FinRange

/-!
# Specification vocabulary for the e^T z_t equations

A term is a product of the projection operator, `k` t operators, an h operator and a z operator.  A full
contraction pairs every creation operator with an annihilation operator of a *different* factor.
Operators of one factor are indistinguishable, so a contraction is described by a table of numbers.  In
the zeroth Taylor order the program puts one unit operator in the place of the t operators: a factor
without any operators.
-/

namespace TF.Spec.ET

open TF.CC (Op HOp)
open TF.ET

/-- The places of a term with `k` t factors. -/
inductive Place (k : Nat) | lhs | t (i : Fin k) | h | z
  deriving DecidableEq

/-- All places. -/
def places (k : Nat) : List (Place k) := .lhs :: ((List.finRange k).map .t ++ [.h, .z])

/-- The factors of Taylor order `k` for T = 1: `k` copies of the operator with one annihilation
operator; for `k = 0` the unit operator. -/
def tFactors (k : Nat) : List Op :=
  if k = 0 then [⟨"1", 0, 0, 0⟩] else List.replicate k ⟨"s_1", 1, 0, 1⟩

/-- The number of creation operators at each place. -/
def creators (lhs : Op) (ts : List Op) (h : HOp) (z : Op) : Place ts.length → Nat
  | .lhs => lhs.m
  | .t i => ts[i].m
  | .h => h.m
  | .z => z.m

/-- The number of annihilation operators at each place. -/
def annihilators (lhs : Op) (ts : List Op) (h : HOp) (z : Op) : Place ts.length → Nat
  | .lhs => lhs.n
  | .t i => ts[i].n
  | .h => h.n
  | .z => z.n

/-- `c i j` creation operators of `i` are paired with annihilation operators of `j`: nothing is paired
with its own factor and every operator is paired exactly once. -/
structure IsPairing {k : Nat} (m n : Place k → Nat) (c : Place k → Place k → Nat) : Prop where
  self : ∀ i, c i i = 0
  rows : ∀ i, ((places k).map fun j => c i j).sum = m i
  cols : ∀ j, ((places k).map fun i => c i j).sum = n j

/-- What the i-th t factor has to record of the contraction `c`. -/
def tEntry {k : Nat} (t : Op) (c : Place k → Place k → Nat) (i : Fin k) : T :=
  { rank := t.rank, m := t.m, n := t.n, m_lhs := c (.t i) .lhs, n_lhs := c .lhs (.t i), m_l := 0, n_l := 0,
    m_h := c (.t i) .h, n_h := c .h (.t i), m_r := c (.t i) .z, n_r := c .z (.t i) }

/-- The term records the contraction `c` of these factors, with the t factors listed in the order given
by `σ` in the list of t operators, in h and in the left-hand side, and in the original order in z. -/
structure RecordsWith (t : Term) (lhs : Op) (ts : List Op) (h : HOp) (z : Op)
    (c : Place ts.length → Place ts.length → Nat) (σ : Equiv.Perm (Fin ts.length)) : Prop where
  tsE : t.ts = (List.finRange ts.length).map fun i => tEntry ts[σ i] c (σ i)
  lhsE : t.lhs =
    { rank := lhs.m + lhs.n, m := lhs.m, n := lhs.n, m_l := 0, n_l := 0,
      m_t := (List.finRange ts.length).map fun i => c .lhs (.t (σ i)),
      n_t := (List.finRange ts.length).map fun i => c (.t (σ i)) .lhs,
      m_h := c .lhs .h, n_h := c .h .lhs, m_r := c .lhs .z, n_r := c .z .lhs }
  hE : t.h =
    { rank := h.m + h.n, m := h.m, n := h.n, m_lhs := c .h .lhs, n_lhs := c .lhs .h,
      m_t := (List.finRange ts.length).map fun i => c .h (.t (σ i)),
      n_t := (List.finRange ts.length).map fun i => c (.t (σ i)) .h,
      m_l := 0, n_l := 0, m_r := c .h .z, n_r := c .z .h }
  zE : t.z =
    { rank := z.rank, m := z.m, n := z.n, m_lhs := c .z .lhs, n_lhs := c .lhs .z,
      m_t := (List.finRange ts.length).map fun i => c .z (.t i),
      n_t := (List.finRange ts.length).map fun i => c (.t i) .z,
      m_h := c .z .h, n_h := c .h .z, m_l := 0, n_l := 0 }

/-- The term records the contraction up to the order of its t factors. -/
def Records (t : Term) (lhs : Op) (ts : List Op) (h : HOp) (z : Op)
    (c : Place ts.length → Place ts.length → Nat) : Prop := ∃ σ, RecordsWith t lhs ts h z c σ

/-- h takes part in the equations: always on the right-hand side; on the left-hand side only creation
operators (they stand for the differentiated amplitudes). -/
def Takes (mode : Mode) (h : HOp) : Prop := mode = .lhs → h.n = 0

end TF.Spec.ET
