import Mathlib.Data.List.Dedup
import Mathlib.Data.List.Perm.Basic
import Mathlib.Data.List.Nodup

/-!
# Python primitives used by the model

These are the meanings given to the handful of Python built-ins the code base relies on:
slices, `range`, `sorted`, `set`, `itertools.product` and `itertools.permutations`.
-/

namespace TF.Py

variable {α : Type}

/-- `xs[a:b]` for non-negative `a`, `b` (Python slices never raise and silently truncate). -/
def slice (xs : List α) (a b : Nat) : List α := (xs.take b).drop a

/-- `range(a, b)`. -/
def range2 (a b : Nat) : List Nat := (List.range (b - a)).map (· + a)

/-- Stable insertion: put `a` before the first element that is not smaller than it. -/
def insertBy (le : α → α → Bool) (a : α) : List α → List α
  | [] => [a]
  | b :: l => if le a b then a :: b :: l else b :: insertBy le a l

/-- `sorted(xs)` / `xs.sort()` with comparison `le` (stable).  `reverse=True` is the flipped
comparison (Python keeps stability in that case as well). -/
def sortBy (le : α → α → Bool) : List α → List α
  | [] => []
  | a :: l => insertBy le a (sortBy le l)

/-- Python's comparison `<=` of tuples (or lists) of integers: lexicographic. -/
def lexLe : List Nat → List Nat → Bool
  | [], _ => true
  | _ :: _, [] => false
  | a :: as, b :: bs => if a < b then true else if a = b then lexLe as bs else false

/-- `itertools.product(*ls)`, rightmost factor varies fastest. -/
def product : List (List α) → List (List α)
  | [] => [[]]
  | l :: ls => l.flatMap fun a => (product ls).map (a :: ·)

/-- `itertools.product(l, repeat=k)`. -/
def productRepeat (l : List α) (k : Nat) : List (List α) := product (List.replicate k l)

/-- All ways to take one element out of a list, left to right. -/
def picks : List α → List (α × List α)
  | [] => []
  | a :: l => (a, l) :: (picks l).map fun p => (p.1, a :: p.2)

/-- Helper of `permutations`: choose `n` elements one after the other. -/
def permsAux : Nat → List α → List (List α)
  | 0, _ => [[]]
  | n + 1, l => (picks l).flatMap fun p => (permsAux n p.2).map (p.1 :: ·)

/-- `itertools.permutations(l)` (in the order itertools produces them). -/
def permutations (l : List α) : List (List α) := permsAux l.length l

/-- The iteration order of a Python `set` built from the elements of a list: some duplicate-free
enumeration of them.  The order is not specified by the language, so it is a parameter. -/
structure SetOrder (α : Type) where
  iter : List α → List α
  nodup : ∀ l, (iter l).Nodup
  mem : ∀ l x, x ∈ iter l ↔ x ∈ l

/-- One concrete set order (used in examples). -/
def SetOrder.std (α : Type) [DecidableEq α] : SetOrder α where
  iter := List.dedup
  nodup := List.nodup_dedup
  mem _ _ := List.mem_dedup

end TF.Py
