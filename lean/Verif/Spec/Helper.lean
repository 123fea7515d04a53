/-! # Specification vocabulary for partitions and rearrangements -/

namespace TF.Spec

/-- `p` is a partition of `n` written largest part first. -/
structure IsPartition (n : Nat) (p : List Nat) : Prop where
  sum_eq : p.sum = n
  pos : ∀ x ∈ p, 1 ≤ x
  desc : p.Pairwise (fun a b => b ≤ a)

/-- Strict lexicographic order on tuples of integers. -/
inductive LexLt : List Nat → List Nat → Prop
  | nil (b : Nat) (bs : List Nat) : LexLt [] (b :: bs)
  | head {a b : Nat} (as bs : List Nat) : a < b → LexLt (a :: as) (b :: bs)
  | tail (a : Nat) {as bs : List Nat} : LexLt as bs → LexLt (a :: as) (a :: bs)

/-- At most one part is greater than one. -/
def AtMostOneBig (p : List Nat) : Prop := (p.filter (fun x => decide (1 < x))).length ≤ 1

end TF.Spec
