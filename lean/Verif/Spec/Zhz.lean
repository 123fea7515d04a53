import Verif.Model.Zhz
import Mathlib.Data.Nat.Factorial.Basic

/-!
# Specification vocabulary for the z_t equations

A term is a product of up to four factors: the projection operator (`lhs`), a z operator to the left
of `h`, `h`, and a z operator to its right.  Each has creation and annihilation operators.  A full
contraction pairs every creation operator with an annihilation operator of a *different* factor.
Operators of one factor are indistinguishable, so a contraction is described by a table of numbers.
-/

namespace TF.Spec.Zhz

open TF.CC (Op HOp)
open TF.Zhz

/-- The four places of a term. -/
inductive Place | lhs | left | h | right
  deriving DecidableEq, Repr

/-- All places. -/
def places : List Place := [.lhs, .left, .h, .right]

/-- The number of creation operators at each place (an absent z has none). -/
def creators (lhs : Op) (h : HOp) (l r : Option Op) : Place → Nat
  | .lhs => lhs.m
  | .left => match l with | none => 0 | some z => z.m
  | .h => h.m
  | .right => match r with | none => 0 | some z => z.m

/-- The number of annihilation operators at each place. -/
def annihilators (lhs : Op) (h : HOp) (l r : Option Op) : Place → Nat
  | .lhs => lhs.n
  | .left => match l with | none => 0 | some z => z.n
  | .h => h.n
  | .right => match r with | none => 0 | some z => z.n

/-- `c i j` creation operators of `i` are paired with annihilation operators of `j`: nothing is paired
with its own factor and every operator is paired exactly once. -/
structure IsPairing (m n : Place → Nat) (c : Place → Place → Nat) : Prop where
  self : ∀ i, c i i = 0
  rows : ∀ i, (places.map fun j => c i j).sum = m i
  cols : ∀ j, (places.map fun i => c i j).sum = n j

/-- What the factors of a term record about their creation operators: `created t i j` is the number of
creation operators that factor `i` says are paired with factor `j`. -/
def created (t : Term) : Place → Place → Nat
  | .lhs, .left => t.lhs.m_l
  | .lhs, .h => t.lhs.m_h
  | .lhs, .right => t.lhs.m_r
  | .left, .lhs => get Z.m_lhs t.left
  | .left, .h => get Z.m_h t.left
  | .left, .right => get Z.m_z t.left
  | .h, .lhs => t.h.m_lhs
  | .h, .left => t.h.m_l
  | .h, .right => t.h.m_r
  | .right, .lhs => get Z.m_lhs t.right
  | .right, .h => get Z.m_h t.right
  | .right, .left => get Z.m_z t.right
  | _, _ => 0

/-- What the factors record about their annihilation operators: `annihilated t i j` is the number of
annihilation operators that factor `i` says are paired with factor `j`. -/
def annihilated (t : Term) : Place → Place → Nat
  | .lhs, .left => t.lhs.n_l
  | .lhs, .h => t.lhs.n_h
  | .lhs, .right => t.lhs.n_r
  | .left, .lhs => get Z.n_lhs t.left
  | .left, .h => get Z.n_h t.left
  | .left, .right => get Z.n_z t.left
  | .h, .lhs => t.h.n_lhs
  | .h, .left => t.h.n_l
  | .h, .right => t.h.n_r
  | .right, .lhs => get Z.n_lhs t.right
  | .right, .h => get Z.n_h t.right
  | .right, .left => get Z.n_z t.right
  | _, _ => 0

/-- The term is about these four factors. -/
structure About (lhs : Op) (h : HOp) (l r : Option Op) (t : Term) : Prop where
  lhs : (t.lhs.rank, t.lhs.m, t.lhs.n) = (lhs.m + lhs.n, lhs.m, lhs.n)
  h : (t.h.rank, t.h.m, t.h.n) = (h.m + h.n, h.m, h.n)
  left : (t.left.map fun z => (z.rank, z.m, z.n)) = l.map fun z => (z.rank, z.m, z.n)
  right : (t.right.map fun z => (z.rank, z.m, z.n)) = r.map fun z => (z.rank, z.m, z.n)

/-- The operators a side can hold: nothing if there is no z on that side. -/
def Choices : Option (List Op) → Option Op → Prop
  | none, z => z = none
  | some l, z => ∃ x ∈ l, z = some x

/-- The product of the factorials of all entries of the table: one over it is the weight of the
contraction once every set of equivalent indices is summed freely. -/
def weight (c : Place → Place → Nat) : Nat :=
  (places.map fun i => (places.map fun j => (c i j).factorial).prod).prod

/-- In a ground-state equation (z operators of at most `cc` creation operators and no annihilation
operators, on the right of h) the operator `h` contributes when these numbers fit; that this is when a
full contraction exists is theorem `contributes_iff`. -/
def contributes (lhs : Op) (cc : Nat) (h : HOp) : Bool :=
  decide (h.m ≤ lhs.n) && decide (lhs.m ≤ h.n) && decide ((lhs.n - h.m) + (h.n - lhs.m) ≤ cc)

/-- The number of pairs between z, h and z: these need summation letters. -/
def summed (c : Place → Place → Nat) : Nat :=
  ([Place.left, .h, .right].map fun i => ([Place.left, .h, .right].map fun j => c i j).sum).sum

/-- The number of pairs in which the creation operator belongs to the factor further left: each
gives a factor `f`. -/
def leftToRight (c : Place → Place → Nat) : Nat := c .left .h + c .left .right + c .h .right

/-- The number of pairs in which the creation operator belongs to the factor further right: each
gives a factor `\bar f`. -/
def rightToLeft (c : Place → Place → Nat) : Nat := c .h .left + c .right .left + c .right .h

/-! ## Letters -/

/-- Where a letter is printed. -/
structure Occ where
  place : Place
  upper : Bool
  letter : Char
  deriving DecidableEq, Repr

/-- The letters of a superscript or subscript. -/
def letters (ps : List Piece) : List Char := ps.flatMap Piece.letters

/-- The letters printed on one factor (a factor of rank 0 has none). -/
def occLab (p : Place) : Option Lab → List Occ
  | none => []
  | some l => (letters l.upper).map (Occ.mk p true) ++ (letters l.lower).map (Occ.mk p false)

/-- All letters printed in a term. -/
def occurrences (t : PTerm) : List Occ :=
  (match t.left with | none => [] | some l => occLab .left l) ++ occLab .h t.h ++
  (match t.right with | none => [] | some l => occLab .right l)

/-- The printed letters describe the contraction `c`. -/
structure Describes (c : Place → Place → Nat) (o : List Occ) : Prop where
  /-- a summation letter is printed on exactly two different factors, once up and once down -/
  sum : ∀ x ∈ zSummation, (∀ y ∈ o, y.letter ≠ x) ∨
    ∃ i j, i ≠ j ∧ (o.filter fun y => y.letter == x).Perm [⟨i, true, x⟩, ⟨j, false, x⟩]
  /-- an external letter is printed at most once -/
  ext : ∀ x ∈ zUnlinked, (o.filter fun y => y.letter == x).length ≤ 1
  /-- no other letters -/
  only : ∀ y ∈ o, y.letter ∈ zSummation ∨ y.letter ∈ zUnlinked
  /-- the letters shared by `i` above and `j` below are as many as the contraction says -/
  shared : ∀ i j, i ≠ .lhs → j ≠ .lhs →
    (zSummation.filter fun x => decide (⟨i, true, x⟩ ∈ o) && decide (⟨j, false, x⟩ ∈ o)).length = c i j
  /-- external superscripts -/
  up : ∀ i, i ≠ .lhs → (zUnlinked.filter fun x => decide (⟨i, true, x⟩ ∈ o)).length = c i .lhs
  /-- external subscripts -/
  down : ∀ i, i ≠ .lhs → (zUnlinked.filter fun x => decide (⟨i, false, x⟩ ∈ o)).length = c .lhs i

/-! ## Prefactors -/

/-- The value of a printed factor. -/
def facValue : Fac → Nat
  | .num k => k
  | .fact k => k.factorial

/-- The value of a printed fraction. -/
def prefValue (p : Pref) : Rat :=
  (((p.num.map facValue).prod : Nat) : Rat) / (((p.den.map facValue).prod : Nat) : Rat)

end TF.Spec.Zhz
