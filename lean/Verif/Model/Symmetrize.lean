import Verif.Py

/-!
# Model of `build_symmetrizing_function` (helper_funcs.py 18-41)

It writes the Python function `symmetrize_tensor`.
-/

namespace TF.Sym

open TF.Py

/-- The written function: its parameters, the orders for which the argument is returned at once
(27-32), and for every other order the tuples of axes of the statements `X += np.transpose(tensor, ..)` under
`if order == ..:` (34-37).  `X` starts as zeros of the shape of the argument (25) and is returned (39). -/
structure SymFn where
  params : List String
  same : List Nat
  blocks : List (Nat × List (List Nat))
  deriving DecidableEq, Repr

/-- `build_symmetrizing_function(max_order)` (helper_funcs.py 18-41); the argument `show_perm` is not used. -/
def build (maxOrder : Nat) : SymFn :=
  ⟨["tensor", "order"], [0, 1],
    (range2 2 (maxOrder + 1)).map fun n => (n, (permutations (range2 2 (n + 2))).map fun p => [0, 1] ++ p)⟩

/-- The calls of `symmetrize_tensor` in the generated modules: two positional arguments (`N` and the tensor)
and `order=` (code_w_equations.py 629, code_dt_equations.py 457). -/
def callPositional : List String := ["N", "tensor"]
def callKeywords : List String := ["order"]

end TF.Sym
