import Verif.Model.FullCC.Terms

/-!
# Specification vocabulary for full-CC terms

A term is `Omega h t ... t`.  `Omega` has `m` creation and `n` annihilation operators, so does `h`,
and every `t` amplitude.  A contraction pairs every creation operator with an annihilation operator
of a *different* factor, and two `t` amplitudes are never paired with each other.  Since operators of
one factor are indistinguishable, a contraction is described by the numbers of pairs between factors.
-/

namespace TF.Spec

open TF.CC

/-- The number of operators of an amplitude. -/
def ampRank (t : T) : Nat := t.m_h + t.n_h + t.m_o + t.n_o

/-- An amplitude that exists for coupled-cluster rank `cc`; in the ground state amplitudes have no
annihilation operators. -/
def AmpAllowed (cc : Nat) (gs : Bool) (t : T) : Prop :=
  1 ≤ ampRank t ∧ ampRank t ≤ cc ∧ (gs = true → t.n_h = 0 ∧ t.n_o = 0)

/-- The amplitudes `ts` exhaust `Omega = (om, on)` and `h = (hm, hn)` together with `a` pairs between
annihilation operators of `Omega` and creation operators of `h`, and `b` pairs between creation
operators of `Omega` and annihilation operators of `h`. -/
def Pairs (om on hm hn : Nat) (ts : List T) (a b : Nat) : Prop :=
  hm = (ts.map T.n_h).sum + a ∧ on = (ts.map T.m_o).sum + a ∧
  hn = (ts.map T.m_h).sum + b ∧ om = (ts.map T.n_o).sum + b

/-- A contraction of `Omega h t ... t` with allowed amplitudes. -/
def IsContraction (cc : Nat) (gs : Bool) (om on hm hn : Nat) (ts : List T) : Prop :=
  (∀ t ∈ ts, AmpAllowed cc gs t) ∧ ∃ a b, Pairs om on hm hn ts a b

/-- The amplitudes of a generated term: the Taylor order 0 is recorded as the single amplitude
`(0,0,0,0)`, which stands for the factor 1. -/
def amplitudes (t : Term) : List T := if t.ts = [⟨0, 0, 0, 0⟩] then [] else t.ts

/-- Paired with `h` at all. -/
def TouchesH (t : T) : Prop := 0 < t.m_h + t.n_h

/-- Paired with all of `Omega` and nothing else. -/
def TakesAllOfOmega (om on : Nat) (t : T) : Prop := t.m_h = 0 ∧ t.n_h = 0 ∧ t.m_o = on ∧ t.n_o = om

end TF.Spec

namespace TF.Spec

open TF.CC

instance (cc : Nat) (gs : Bool) (t : T) : Decidable (AmpAllowed cc gs t) := by
  unfold AmpAllowed; infer_instance
instance (om on hm hn : Nat) (ts : List T) (a b : Nat) : Decidable (Pairs om on hm hn ts a b) := by
  unfold Pairs; infer_instance
instance (t : T) : Decidable (TouchesH t) := inferInstanceAs (Decidable (_ < _))
instance (om on : Nat) (t : T) : Decidable (TakesAllOfOmega om on t) := by
  unfold TakesAllOfOmega; infer_instance

/-- Fully connected: every amplitude is paired with `h` (in particular when there is none). -/
def FullyConnected (t : Term) : Prop := ∀ x ∈ amplitudes t, TouchesH x

/-- Unlinked disconnected: some amplitude takes all of `Omega` and nothing else. -/
def Unlinked (t : Term) : Prop := ∃ x ∈ amplitudes t, TakesAllOfOmega t.omega.m t.omega.n x

/-- Linked disconnected: everything else. -/
def Linked (t : Term) : Prop := ¬ FullyConnected t ∧ ¬ Unlinked t

instance (t : Term) : Decidable (FullyConnected t) := by unfold FullyConnected; infer_instance
instance (t : Term) : Decidable (Unlinked t) := by unfold Unlinked; infer_instance
instance (t : Term) : Decidable (Linked t) := by unfold Linked; infer_instance

end TF.Spec
