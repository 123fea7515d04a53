import Verif.Py

/-! # Model of `termfactory/helper_funcs.py` (the functions that compute) -/

namespace TF.Helper

open TF.Py

/-- `unique_permutations` (helper_funcs.py 13-15): `sorted(list(set(it.permutations(iterable))))`.
`le` is the comparison of tuples that `sorted` uses. -/
def uniquePermutations {α : Type} [DecidableEq α] (le : List α → List α → Bool) (xs : List α) :
    List (List α) :=
  sortBy le (permutations xs).dedup

/-- descending `sorted(..., reverse=True)` of a tuple of integers -/
def sortDesc (l : List Nat) : List Nat := sortBy (fun a b => decide (b ≤ a)) l

/-- descending `sorted(..., reverse=True)` of a list of integer tuples -/
def sortDescLex (l : List (List Nat)) : List (List Nat) := sortBy (fun a b => lexLe b a) l

/-- `_partitions` (helper_funcs.py 62-70).  The recursion is on `number - x` with `x >= 1`;
`fuel` makes it structural, `partitions n` supplies enough fuel.  The set `answer` is only read
through `sorted`, so it is represented by the duplicate-free list. -/
def partitionsAux : Nat → Nat → List (List Nat)
  | 0, number => [[number]]
  | fuel + 1, number =>
    sortDescLex
      ([number] ::
        (range2 1 number).flatMap fun x =>
          (partitionsAux fuel (number - x)).map fun y => sortDesc (x :: y)).dedup

/-- `generate_partitions_of_n` (helper_funcs.py 73-75). -/
def partitions (n : Nat) : List (List Nat) := partitionsAux n n

/-- The filter `n - max(p) + 1 == len(p)` (helper_funcs.py 82, 96).  `max(())` would raise in
Python; the partitions produced are never empty (`partitions_ne_nil`), the `none` branch is not
reachable from the functions below. -/
def mixedTest (n : Nat) (p : List Nat) : Bool :=
  match p.max? with
  | none => false
  | some m => decide ((n : Int) - m + 1 = p.length)

/-- `generate_mixed_partitions_of_n` (helper_funcs.py 78-82). -/
def mixedPartitions (n : Nat) : List (List Nat) := (partitions n).filter (mixedTest n)

/-- `genereate_connected_partitions_of_n` (helper_funcs.py 85-89). -/
def connectedPartition (n : Nat) : List Nat := List.replicate n 1

/-- `generate_linked_disconnected_partitions_of_n` (helper_funcs.py 92-96). -/
def linkedPartitions (n : Nat) : List (List Nat) :=
  (partitions n).filter fun p =>
    mixedTest n p && (match p.max? with | none => false | some m => decide (m < n))

/-- `generate_un_linked_disconnected_partitions_of_n` (helper_funcs.py 99-104): the set difference
of all partitions and the mixed ones, sorted in reverse. -/
def unlinkedPartitions (n : Nat) : List (List Nat) :=
  sortDescLex ((partitions n).dedup.filter fun p => !(mixedPartitions n).contains p)

end TF.Helper
