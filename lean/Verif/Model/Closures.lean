import Verif.Model.Central
import Mathlib.LinearAlgebra.Matrix.NonsingularInverse
import Mathlib.Analysis.Real.Sqrt

/-!
# One-sided boundary closures of central derivatives

Model of `core/boundary_conditions/Carpenter_scheme.py`, `reduced_access_scheme.py`,
`reduced_order_scheme.py` and `CentralDerivative.modify_boundary_formula`
(`core/opensblifunctions.py` 523-534).

A formula `sum_k w_k * f(x + o_k)` is a list of pairs (offset, weight); the differentiated expression
enters only through its values along the direction of differentiation.  Coefficients that the code
writes as floating point numbers are modelled by the real numbers they denote.
-/
namespace OpenSBLI.Closure

noncomputable section

/-- A weighted sum of function points: offsets and weights. -/
abbrev Row := List (ℤ × ℝ)

/-- Value of a weighted sum at grid index `x`. -/
def Row.eval (r : Row) (f : ℤ → ℝ) (x : ℤ) : ℝ := (r.map fun p => p.2 * f (x + p.1)).sum

/-! ### Carpenter -/

/-- Carpenter_scheme.py line 84. -/
def R1 : ℝ := -(2177*√295369 - 1166427)/25488
/-- Carpenter_scheme.py line 85. -/
def R2 : ℝ := (66195*√53*√5573 - 35909375)/101952

/-- `al4`, Carpenter_scheme.py 87-92. -/
def al4 : Matrix (Fin 4) (Fin 4) ℝ :=
  !![-(216*R2+2160*R1-2125)/12960, (81*R2+675*R1+415)/540, -(72*R2+720*R1+445)/1440, -(108*R2+756*R1+421)/1296;
    (81*R2+675*R1+415)/540, -(4104*R2+32400*R1+11225)/4320, (1836*R2+14580*R1+7295)/2160, -(216*R2+2160*R1+655)/4320;
    -(72*R2+720*R1+445)/1440, (1836*R2+14580*R1+7295)/2160, -(4104*R2+32400*R1+12785)/4320, (81*R2+675*R1+335)/540;
    -(108*R2+756*R1+421)/1296, -(216*R2+2160*R1+655)/4320, (81*R2+675*R1+335)/540, -(216*R2+2160*R1-12085)/12960]

/-- `ar4`, Carpenter_scheme.py 94-98. -/
def ar4 : Matrix (Fin 4) (Fin 6) ℝ :=
  !![(-1)/2, -(864*R2+6480*R1+305)/4320, (216*R2+1620*R1+725)/540, -(864*R2+6480*R1+3335)/4320, 0, 0;
    (864*R2+6480*R1+305)/4320, 0, -(864*R2+6480*R1+2315)/1440, (108*R2+810*R1+415)/270, 0, 0;
    -(216*R2+1620*R1+725)/540, (864*R2+6480*R1+2315)/1440, 0, -(864*R2+6480*R1+785)/4320, -1/12, 0;
    (864*R2+6480*R1+3335)/4320, -(108*R2+810*R1+415)/270, (864*R2+6480*R1+785)/4320, 0, 8/12, -1/12]

/-- `bc4 = al4.inv()*ar4`, Carpenter_scheme.py 100-101. -/
def bc4 : Matrix (Fin 4) (Fin 6) ℝ := al4⁻¹ * ar4

/-- `second_der_coefficients`, Carpenter_scheme.py 75-78 (identical in reduced_access_scheme.py
79-82). -/
def bc4_2 : Matrix (Fin 2) (Fin 5) ℝ :=
  !![35/12, -104/12, 114/12, -56/12, 11/12; 11/12, -20/12, 6/12, 4/12, -1/12]

/-- `function_points`, Carpenter_scheme.py 16-36 (and reduced_access_scheme.py 14-32): entry
`[index, shift]` is the expression at offset `index - shift`; the matrix is transposed on side 1. -/
def offset (side : Bool) (index shift : ℕ) : ℤ :=
  if side then (shift:ℤ) - index else (index:ℤ) - shift

/-- `weight_function_points`, Carpenter_scheme.py 38-54: `none` is the `NotImplementedError`. -/
def carpenter (side : Bool) : ℕ → Option (List Row)
  | 1 => some ((List.finRange 4).map fun (i : Fin 4) => (List.finRange 6).map fun (k : Fin 6) =>
      (offset side k i, (if side then -1 else 1) * bc4 i k))
  | 2 => some ((List.finRange 2).map fun (i : Fin 2) => (List.finRange 5).map fun (k : Fin 5) =>
      (offset side k i, bc4_2 i k))
  | _ => none

/-! ### Reduced access -/

/-- `first_der_coefficients`, reduced_access_scheme.py 34-40. -/
def raFirst : Matrix (Fin 4) (Fin 5) ℝ :=
  !![-25/12, 48/12, -36/12, 16/12, -3/12; -3/12, -10/12, 18/12, -6/12, 1/12;
    25/12, -48/12, 36/12, -16/12, 3/12; 3/12, 10/12, -18/12, 6/12, -1/12]

/-- `weight_function_points`, reduced_access_scheme.py 42-58: rows 0,1 on side 0 and 2,3 on side 1
for the first derivative. -/
def reducedAccess (side : Bool) : ℕ → Option (List Row)
  | 1 => some ((List.finRange 2).map fun (i : Fin 2) => (List.finRange 5).map fun (k : Fin 5) =>
      (offset side k i, raFirst (if side then i.natAdd 2 else i.castAdd 2) k))
  | 2 => some ((List.finRange 2).map fun (i : Fin 2) => (List.finRange 5).map fun (k : Fin 5) =>
      (offset side k i, bc4_2 i k))
  | _ => none

/-! ### Reduced order -/

/-- `fact`, reduced_order_scheme.py 19-22 and 41-44. -/
def fact (side : Bool) : ℤ := if side then -1 else 1

/-- One output function, reduced_order_scheme.py 26-33 and 48-55: weight `fact*weights[value][i]` at
offset `fact*points[value][i]`. -/
def roRow (side : Bool) (points : List ℤ) (weights : List ℝ) : Row :=
  (points.zip weights).map fun p => (fact side * p.1, (fact side : ℝ) * p.2)

/-- `first_derivative` 13-34, `second_derivative` 36-56 and the selection 59-64. -/
def reducedOrder (side : Bool) : ℕ → Option (List Row)
  | 1 => some [roRow side [0, 1, 2] [-(3/2), 2, -(1/2)],
      roRow side [-1, 0, 1, 2] [-(1/3), -(1/2), 1, -(1/6)]]
  | 2 => some [roRow side [0, 1, 2, 3] [2, -5, 4, -1],
      roRow side [-1, 0, 1, 2, 3] [11/12, -(5/3), 1/2, 1/3, -(1/12)]]
  | _ => none

/-! ### Selection of the formula -/

/-- The boundary modification schemes a `ModifyCentralDerivative` boundary condition can hold. -/
inductive Kind | carpenter | reducedAccess | reducedOrder
deriving DecidableEq

def rows : Kind → Bool → ℕ → Option (List Row)
  | .carpenter => carpenter
  | .reducedAccess => reducedAccess
  | .reducedOrder => reducedOrder

/-- The loop of `expr_cond_pairs` (Carpenter_scheme.py 66-69, the same in the other two schemes):
the `no`-th formula applies where the grid index equals `start + mul_factor*no`. -/
def condPairs {R : Type} (start fac : ℤ) : List R → ℕ → List (R × ℤ)
  | [], _ => []
  | d :: ds, no => (d, start + fac*no) :: condPairs start fac ds (no + 1)

/-- `expr_cond_pairs`: `start` and `mul_factor` for a side of the range `[lo, hi)`, lines 59-65. -/
def exprCondPairs {R : Type} (lo hi : ℤ) (side : Bool) (ds : List R) : List (R × ℤ) :=
  if side then condPairs (hi - 1) (-1) ds 0 else condPairs lo 1 ds 0

/-- SymPy's `Piecewise`: the first branch whose condition holds, the last one being `True`. -/
def piecewise {R : Type} : List (R × ℤ) → R → ℤ → R
  | [], d, _ => d
  | (r, loc) :: t, d, x => if x = loc then r else piecewise t d x

/-- The interior formula as a row: `scheme.points` with `_generate_weights`
(opensblifunctions.py 484-511). -/
def centralRow (order d : ℕ) : Row :=
  (List.range (2*(order/2) + 1)).map fun (k : ℕ) =>
    ((k:ℤ) - (order/2 : ℕ), Central.weight ℝ order d ((k:ℤ) - (order/2 : ℕ)))

/-- Boundary closures of a direction, `check_modify_central` (bc_core.py 46-61): left and right. -/
structure Mods where
  left : Option Kind
  right : Option Kind

/-- `modify_boundary_formula`, opensblifunctions.py 523-534: the left pairs, then the right pairs,
then the interior formula.  `none` is the `NotImplementedError` of the closure. -/
def branches (m : Mods) (d : ℕ) (lo hi : ℤ) : Option (List (Row × ℤ)) := do
  let l ← match m.left with
    | none => some []
    | some k => (rows k false d).map (exprCondPairs lo hi false)
  let r ← match m.right with
    | none => some []
    | some k => (rows k true d).map (exprCondPairs lo hi true)
  return l ++ r

/-- The row used at grid index `x`. -/
def rowAt (m : Mods) (order d : ℕ) (lo hi : ℤ) (x : ℤ) : Option Row :=
  (branches m d lo hi).map fun b => piecewise b (centralRow order d) x

/-- `_discretise_derivative` with boundary modifications, times `1/delta**d` (519-522). -/
def discretised (m : Mods) (order d : ℕ) (lo hi : ℤ) (delta : ℝ) (f : ℤ → ℝ) (x : ℤ) : Option ℝ :=
  (rowAt m order d lo hi x).map fun r => r.eval f x * (1/delta^d)

end

end OpenSBLI.Closure
