import Verif.Model.FullCC.Latex
import Verif.Spec.FullCC
import Mathlib.Data.Finset.Dedup
import Mathlib.Data.Finset.Card
import Mathlib.Data.Rat.Defs
import Mathlib.Data.Nat.Factorial.Basic

/-! # Specification vocabulary for printed full-CC terms -/

namespace TF.Spec

open TF.CC

/-- The labels of `h`, two empty ones for `\bh_0`. -/
def hSubs (p : PTerm) : Sub × Sub :=
  match p.h with
  | none => (⟨[], []⟩, ⟨[], []⟩)
  | some x => x

/-- All summation letters printed on superscripts (subscripts) of amplitudes, left to right. -/
def tUpperSum (l : List TLab) : List Char := l.flatMap fun x => (subLetters x.up).s
def tLowerSum (l : List TLab) : List Char := l.flatMap fun x => (subLetters x.down).s

/-- All external letters printed on amplitudes. -/
def tExternal (l : List TLab) : List Char := l.flatMap fun x => (subLetters x.down).x ++ (subLetters x.up).x

/-- All external letters printed on `h`. -/
def hExternal (p : PTerm) : List Char := (hSubs p).1.x ++ (hSubs p).2.x

/-- The printed labels of an amplitude have the right number of letters of each kind. -/
def LabelCounts (l : TLab) (t : T) : Prop :=
  (subLetters l.up).s.length = t.m_h ∧ (subLetters l.down).s.length = t.n_h ∧
  (subLetters l.up).x.length = t.m_o ∧ (subLetters l.down).x.length = t.n_o

/-- The labels of a printed term describe the contraction of `h` (with `ho` pairs `(a, b)` to `Omega`)
and the amplitudes `ts`: every letter summed over is printed once on a superscript and once on a
subscript, once on `h` and once on an amplitude; letters summed over are different from each other;
every operator has its letter. -/
structure SumLabelsOK (hm hn a b : Nat) (ts : List T) (p : PTerm) : Prop where
  upper_h : (hSubs p).1.s = tLowerSum p.ts
  lower_h : (hSubs p).2.s = tUpperSum p.ts
  distinct : ((hSubs p).1.s ++ (hSubs p).2.s).Nodup
  count_up : (hSubs p).1.s.length + (hSubs p).1.x.length = hm ∧ (hSubs p).1.x.length = a
  count_down : (hSubs p).2.s.length + (hSubs p).2.x.length = hn ∧ (hSubs p).2.x.length = b
  counts : List.Forall₂ LabelCounts p.ts ts
  alphabets : ∀ c ∈ (hSubs p).1.s ++ (hSubs p).2.s, c ∉ hExternal p ++ tExternal p.ts

/-- The letters of the projection operator. -/
def projectionLetters (rank : Nat) : List Char := unlinkedIdx.take rank

/-- The rational number written by a prefactor: product of factorials over product of factorials. -/
def factorials (l : List Nat) : Nat := (l.map Nat.factorial).prod
def prefValue (p : List Nat × List Nat) : Rat := (factorials p.1 : Rat) / (factorials p.2 : Rat)

/-- The number of different amplitudes paired with `h`. -/
def distinctTouching (ts : List T) : Nat := (ts.filter fun t => decide (TouchesH t)).toFinset.card

/-- Amplitudes (not) paired with `h`, in order. -/
def touching (ts : List T) : List T := ts.filter fun t => decide (TouchesH t)
def notTouching (ts : List T) : List T := ts.filter fun t => !decide (TouchesH t)

open TF.Py

/-- sum of external indices of a factor -/
def extOf (f : List T) : Nat := (f.map fun t => t.m_o + t.n_o).sum

/-- the offset the linked group uses for the remaining amplitudes -/
def linkedOff (h : HC) (f : List T) : Nat :=
  if h.m_o = 0 ∧ h.n_o = 0 then extOf f else h.m_o + h.n_o + extOf f

/-- The printed form of a term in the linked group. -/
def linkedPrint (so : SetOrder Nat) (t : Term) : PTerm :=
  { f := fPower t, fbar := fbarPower t, pref := latexPrefactor so t.h t.ts
    h := hLabels t.h (extOf (notTouching t.ts))
    ts := tGroup (touching t.ts) (some t.h) ⟨0, 0, linkedOff t.h (notTouching t.ts)⟩ }

/-- The amplitude that takes all of the projection. -/
def commonT (o : OmegaC) : T := ⟨0, 0, o.n, o.m⟩

/-- The printed form of a term in the unlinked group. -/
def unlinkedPrint (so : SetOrder Nat) (t : Term) : PTerm :=
  { f := fPower t, fbar := fbarPower t, pref := latexPrefactor so t.h t.ts
    h := hLabels t.h 0, ts := tGroup (t.ts.erase (commonT t.omega)) (some t.h) ⟨0, 0, 0⟩ }

/-- the terms of the unlinked group -/
def unlinkedShown : Option (List PTerm × List TLab) → List PTerm
  | none => []
  | some g => g.1

/-- The terms a reader finds in a printed equation. -/
def shownTerms : Equation → List PTerm
  | .zero f l u => (splitLines f).flatten ++ (splitLines l).flatten ++ (splitLines u).flatten
  | .general f lp l u => (splitLines f).flatten ++ (splitLines lp).flatten ++ l.flatMap Prod.fst ++ unlinkedShown u

/-- The contents of the equation of a projection operator of rank 1 or more, before splitting into
lines: the fully connected terms one by one; the linked terms sorted by the amplitudes that are not
paired with `h`, each behind the other amplitudes; the unlinked terms behind their common amplitude. -/
structure Contents (so : SetOrder Nat) (omega : Op) (L : List Term) (eq : Equation) : Prop where
  ex : ∃ lk ul, eq = .general ((L.filter fun t => decide (FullyConnected t)).map (plainTerm so)) [] lk ul ∧
    (∀ g ∈ lk, ∃ fac, fac ≠ [] ∧ g.1 ≠ [] ∧ g.2 = tGroup fac none ⟨0, 0, 0⟩ ∧
      g.1 = ((L.filter fun t => decide (Linked t)).filter fun t => notTouching t.ts == fac).map (linkedPrint so)) ∧
    (lk.flatMap Prod.fst).Perm ((L.filter fun t => decide (Linked t)).map (linkedPrint so)) ∧
    (if (L.filter fun t => decide (Unlinked t)) = [] then ul = none
      else ul = some ((L.filter fun t => decide (Unlinked t)).map (unlinkedPrint so),
        tGroup [⟨0, 0, omega.n, omega.m⟩] none ⟨0, 0, 0⟩))

/-- A product of amplitudes `(upper, lower)` that matches the projection. -/
def MatchesOmega (omega : Op) (g : List (Nat × Nat)) : Prop :=
  (∀ p ∈ g, p ≠ (0, 0)) ∧ (g.map Prod.fst).sum = omega.n ∧ (g.map Prod.snd).sum = omega.m

end TF.Spec
