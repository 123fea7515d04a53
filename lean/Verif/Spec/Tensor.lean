import Mathlib.Data.Matrix.Mul
import Mathlib.Algebra.BigOperators.Fin
import Mathlib.Data.Fintype.Perm

/-!
# The meaning of `np.einsum`, `np.transpose` and symmetrisation

An array is the function from index tuples to entries.  The arrays of the generated code have the shape
`(A, A, N, .., N)`: two electronic axes of length `A`, then vibrational axes of length `N`.
-/

namespace TF.Spec.Tensor

variable {R : Type} [CommRing R]

/-- An array by its entries. -/
abbrev Arr (R : Type) := List Nat → R

/-- The sum over all values of the letters `cs`, each from the range given by `dim`; `σ` gives the values of
the other letters. -/
def sumOver (dim : Char → Nat) : List Char → (Char → Nat) → ((Char → Nat) → R) → R
  | [], σ, F => F σ
  | c :: cs, σ, F => ∑ i : Fin (dim c), sumOver dim cs (Function.update σ c i) F

/-- The length of the axis a letter stands for: the first two axes of every operand are electronic. -/
def axisLength (A N : Nat) (ops : List (List Char × Arr R)) (c : Char) : Nat :=
  if c ∈ ops.flatMap (fun o => o.1.take 2) then A else N

/-- `np.einsum('s1, s2, .. -> out', x1, x2, ..)`: entry `v` of the result is the sum over all letters that are
not in `out` of the product of the entries of the operands. -/
def einsum (A N : Nat) (ops : List (List Char × Arr R)) (out : List Char) : Arr R := fun v =>
  sumOver (axisLength A N ops) ((ops.flatMap Prod.fst).filter fun c => decide (c ∉ out)).dedup
    (fun c => v.getD (out.idxOf c) 0) fun σ => (ops.map fun o => o.2 (o.1.map σ)).prod

/-- The electronic matrix of an array for given modes. -/
def mat (A : Nat) (x : Arr R) (l : List Nat) : Matrix (Fin A) (Fin A) R := fun a b => x (a.val :: b.val :: l)

/-- `np.transpose(x, axes)`: axis `j` of the result is axis `axes[j]` of `x`. -/
def transpose (axes : List Nat) (x : Arr R) : Arr R := fun v =>
  x ((List.range axes.length).map fun m => v.getD (axes.idxOf m) 0)

/-- The sum over all permutations of the `k` vibrational axes. -/
def symSum (k : Nat) (x : Arr R) : Arr R := fun v =>
  ∑ π : Equiv.Perm (Fin k), x (v.take 2 ++ List.ofFn fun i => v.getD (2 + (π i).val) 0)

/-- The array does not change when its `k` modes are permuted. -/
def ModeSymmetric (k : Nat) (x : Arr R) : Prop :=
  ∀ a b : Nat, ∀ l l' : List Nat, l.length = k → l.Perm l' → x (a :: b :: l) = x (a :: b :: l')

/-- The pieces of the given lengths. -/
def cut : List Nat → List Nat → List (List Nat)
  | [], _ => []
  | n :: ns, l => l.take n :: cut ns (l.drop n)

/-- The modes in block `j`. -/
def block {k m : Nat} (v : Fin k → Nat) (f : Fin k → Fin m) (j : Fin m) : List Nat :=
  ((List.finRange k).filter fun i => decide (f i = j)).map v

/-- The sizes of the blocks. -/
def sizes {k m : Nat} (f : Fin k → Fin m) : List Nat :=
  List.ofFn fun j => ((List.finRange k).filter fun i => decide (f i = j)).length

end TF.Spec.Tensor
