import Verif.Spec.ETPython
import Verif.Spec.Zhz

/-!
# Specification vocabulary for the LaTeX of the e^T z_t equations

What it means that a printed term shows a contraction.
-/

namespace TF.Spec.ETLatex

open TF.CC (Op HOp)
open TF.Zhz (Piece Lab Color)
open TF.ET (Mode PTerm)
open TF.Spec.ET TF.Spec.ETPy
open TF.Spec.Zhz (letters prefValue)

/-- The letters of one colour in a superscript or subscript. -/
def coloured (c : Color) (ps : List Piece) : List Char := letters (ps.filter fun p => decide (p.color = c))

/-- The external letters of a term: those in red, in the order of the factors. -/
def reds (p : PTerm) : List Char :=
  (match p.ts with | none => [] | some l => l.flatMap (coloured .red)) ++
  (match p.h with | none => [] | some l => coloured .red l.upper ++ coloured .red l.lower) ++
  (match p.z with | none => [] | some l => coloured .red l.upper ++ coloured .red l.lower)

/-- A factor with these labels: no labels at all for the unit operator and for rank 0. -/
def Labelled (rank : Nat) (l : Option Lab) (up low : List Char) : Prop :=
  match l with
  | none => rank = 0 ∧ up = [] ∧ low = []
  | some l => rank ≠ 0 ∧ letters l.upper = up ∧ letters l.lower = low

/-- The printed term shows the contraction `c`.  `up` and `low` are the letters of each factor; the
external letters are those of the projection operator, all of its operators being annihilation operators.
As many letters above as creation operators and below as annihilation operators; each letter is once
above and once below; two factors share letters as they are paired.  One factor f for each pair whose
creation operator is further left, one factor f-bar for each pair whose creation operator is further
right (the order being t, h, z). -/
structure ShowsWith (p : PTerm) (lhs : Op) (k : Nat) (h : HOp) (z : Op) (c : Pl k → Pl k → Nat) (up low : Pl k → List Char) : Prop where
  onT : if k = 0 then p.ts = none else
    ∃ l, p.ts = some l ∧ l.map letters = (List.finRange (tFactors k).length).map fun i => low (.t i)
  onH : Labelled (h.m + h.n) p.h (up .h) (low .h)
  onZ : Labelled (z.m + z.n) p.z (up .z) (low .z)
  external : low .lhs = reds p
  upper : ∀ i, (up i).length = creators lhs (tFactors k) h z i
  lower : ∀ i, (low i).length = annihilators lhs (tFactors k) h z i
  nodup : ∀ i, (up i ++ low i).Nodup
  above : ∀ i, ∀ x ∈ up i, ∃! j, x ∈ low j
  below : ∀ j, ∀ x ∈ low j, ∃! i, x ∈ up i
  shared : ∀ i j, ((up i).filter fun x => decide (x ∈ low j)).length = c i j
  f : p.f = ((List.finRange (tFactors k).length).map fun i => c (.t i) .h + c (.t i) .z).sum + c .h .z
  fbar : p.fbar = ((List.finRange (tFactors k).length).map fun i => c .h (.t i) + c .z (.t i)).sum + c .z .h

/-- The printed term shows the contraction `c`, up to the order of the (equal) t factors. -/
def Shows (p : PTerm) (lhs : Op) (k : Nat) (h : HOp) (z : Op) (c : Pl k → Pl k → Nat) : Prop :=
  ∃ (σ : Equiv.Perm (Fin (tFactors k).length)) (up low : Pl k → List Char),
    ShowsWith p lhs k h z (fun i j => c (relabel σ i) (relabel σ j)) up low

end TF.Spec.ETLatex
