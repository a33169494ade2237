import Mathlib.Data.Rat.Defs
import Mathlib.Algebra.BigOperators.Group.Finset.Basic
import Mathlib.Algebra.Order.Ring.Rat

/-!
# Kronecker delta and Levi-Civita symbol

Model of `KD.value` and `LC.value`, core/opensblifunctions.py 33-40 and 63-66, once the indices have been replaced by component numbers.
-/
namespace OpenSBLI.Tensor

/-- `KD.value`, opensblifunctions.py 33-40: the names of the two arguments are compared; `none` is the `ValueError`. Arguments are component numbers or
the names of indices that have not been replaced. -/
def kdValue (args : List String) : Option ℚ :=
  match args with
  | [a, b] => some (if a = b then 1 else 0)
  | _ => none

/-- `eval_levicivita(*args)` of sympy (`sympy/functions/special/tensor_functions.py`, quoted, not part of the repository):
`prod(prod(args[j] - args[i] for j in range(i+1, n)) / factorial(i) for i in range(n))`. -/
def evalLeviCivita (args : List ℚ) : ℚ :=
  ((List.range args.length).map fun i =>
    (((List.range args.length).filter fun j => i < j).map fun j => args.getD j 0 - args.getD i 0).prod / (i.factorial : ℚ)).prod

/-- `LC.value` for three component numbers. -/
def lcValue (i j k : ℕ) : ℚ := evalLeviCivita [(i : ℚ), (j : ℚ), (k : ℚ)]

end OpenSBLI.Tensor
