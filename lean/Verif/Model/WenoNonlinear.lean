import Mathlib.LinearAlgebra.Lagrange
import Mathlib.Algebra.Polynomial.Derivative
import Mathlib.MeasureTheory.Integral.IntervalIntegral.Basic
import Mathlib.MeasureTheory.Measure.Lebesgue.Basic
import Verif.Model.Eno

/-!
# Smoothness indicators and nonlinear weights of the WENO schemes

Model of `/repo/opensbli/schemes/spatial/weno.py`: `JS_smoothness` (138-205), `WenoZ` (283-338),
`WenoJS` (341-369), `Weno.compute_sensor` (436-452), `Weno.generate_reconstruction` (454-465).

SymPy's `interpolating_poly`, `diff`, `integrate` and `coeff` are modelled by their mathematical
meaning.
-/
namespace OpenSBLI.Weno
open Polynomial Finset

noncomputable section

/-- `lagrange_interp`, lines 157-163: derivative of the polynomial through the points
`(dz*(i-r), dz*(nodes_0 + ... + nodes_{i-1}))`, `i = 0..k`. -/
def candidatePoly (k r : ℕ) (dz : ℝ) (nodes : ℕ → ℝ) : ℝ[X] :=
  derivative (Lagrange.interpolate (range (k+1)) (fun i : ℕ => dz * ((i:ℝ) - r))
    (fun i => ∑ j ∈ range i, dz * nodes j))

/-- `total`, lines 165-170: `sum_{l=1}^{k-1} dz^(2l-1) * int_0^dz (d^l p / dz^l)^2`. -/
def smoothTotal (k r : ℕ) (dz : ℝ) (nodes : ℕ → ℝ) : ℝ :=
  ∑ l ∈ Ico 1 k, dz^(2*l-1) *
    ∫ z in (0:ℝ)..dz, (((derivative^[l]) (candidatePoly k r dz nodes)).eval z)^2

/-- Value of the symbol vector that is one at `m` and zero elsewhere. -/
def unitNode (m : ℕ) : ℕ → ℝ := fun i => if i = m then 1 else 0

/-- `total.coeff(func_product)`, line 177: the coefficient of the monomial `f_m f_n` in the
homogeneous quadratic polynomial `total` (by polarisation). -/
def quadCoeff (q : (ℕ → ℝ) → ℝ) (m n : ℕ) : ℝ :=
  if m = n then q (unitNode m)
  else q (fun i => unitNode m i + unitNode n i) - q (unitNode m) - q (unitNode n)

/-- State of the extraction loop: `done`, the variable `c` (which keeps its previous value when the
product was seen before, lines 176-177) and `smooth_coeffs[(r, ., .)]`. -/
structure ExtractState where
  done : List (ℕ × ℕ)
  c : ℝ
  coeffs : List ((ℕ × ℕ) × ℝ)

/-- The commutative product `fn_m * fn_n` as dictionary key. -/
def prodKey (m n : ℕ) : ℕ × ℕ := (min m n, max m n)

open Classical in
/-- Body of the double loop, lines 174-180. -/
def extractStep (q : (ℕ → ℝ) → ℝ) (s : ExtractState) (mn : ℕ × ℕ) : ExtractState :=
  let key := prodKey mn.1 mn.2
  let c := if key ∈ s.done then s.c else quadCoeff q mn.1 mn.2
  { done := s.done ++ [key]
    c := c
    coeffs := if c ≠ 0 then s.coeffs ++ [(mn, c)] else s.coeffs }

/-- The pairs `(m, n)` in loop order, lines 173-174. -/
def extractPairs (k : ℕ) : List (ℕ × ℕ) :=
  (List.range (2*k-1)).flatMap fun m => (List.range (2*k-1)).map fun n => (m, n)

/-- `smooth_coeffs[(r, ., .)]`, lines 171-180.  `c` is unbound before the first iteration; it is
always assigned there because `done` is empty, so its initial value `0` is never used. -/
def smoothCoeffs (k r : ℕ) (dz : ℝ) : List ((ℕ × ℕ) × ℝ) :=
  ((extractPairs k).foldl (extractStep (smoothTotal k r dz)) ⟨[], 0, []⟩).coeffs

/-- `generate_function_smoothness_indicators`, lines 188-204: `beta_r` at data `f` (indexed relative
to the current point).  `shift` (lines 188-191) coincides with `Side.c`. -/
def beta (side : Side) (k r : ℕ) (dz : ℝ) (f : ℤ → ℝ) : ℝ :=
  ((smoothCoeffs k r dz).map fun e =>
    e.2 * (f (-(r:ℤ) + e.1.1 + side.c) * f (-(r:ℤ) + e.1.2 + side.c))).sum

/-- `WenoJS.eps`, line 344. -/
def epsJS : ℝ := 1/10^6
/-- `WenoZ.eps`, line 286. -/
def epsZ : ℝ := 1/10^14

/-- `WenoJS.generate_alphas`, line 354. -/
def alphaJS (d β : ℕ → ℝ) (r : ℕ) : ℝ := d r / (epsJS + β r)^2

/-- `WenoZ.global_smoothness_indicator`, lines 296-312 (`none` models the `ValueError`). -/
def tauZ (k : ℕ) (b : ℕ → ℝ) : Option ℝ :=
  if k = 2 then some |b 0 - b 1|
  else if k = 3 then some |b 0 - b 2|
  else if k = 4 then some |b 0 + 3*b 1 - 3*b 2 - b 3|
  else if k = 5 then some |b 0 + 2*b 1 - 6*b 2 + 2*b 3 + b 4|
  else if k = 6 then some |b 0 + b 1 - 8*b 2 + 8*b 3 - b 4 - b 5|
  else if k = 7 then some |b 0 + 36*b 1 + 135*b 2 - 135*b 4 - 36*b 5 - b 6|
  else none

/-- `WenoZ.generate_alphas`, line 323, `p = 2`. -/
def alphaZ (tau : ℝ) (d β : ℕ → ℝ) (r : ℕ) : ℝ := d r * (1 + (tau / (epsZ + β r))^2)

/-- `generate_omegas`, lines 326-338 and 357-369. -/
def omega (k : ℕ) (α : ℕ → ℝ) (r : ℕ) : ℝ := α r * (1 / ∑ r ∈ range k, α r)

/-- The two formulations accepted by `Weno.__init__`, lines 386-393. -/
inductive Formulation where
  | JS
  | Z
deriving DecidableEq

/-- Nonlinear weights for given linear weights and smoothness indicators. -/
def weights (form : Formulation) (k : ℕ) (d β : ℕ → ℝ) : Option (ℕ → ℝ) :=
  match form with
  | .JS => some (omega k (alphaJS d β))
  | .Z => (tauZ k β).map fun tau => omega k (alphaZ tau d β)

/-- The complete WENO reconstruction of one side: indicators, weights, merged stencil. -/
def wenoReconstruct (form : Formulation) (side : Side) (k : ℕ) (dz : ℝ) (d : ℕ → ℝ)
    (f : ℤ → ℝ) : Option ℝ :=
  (weights form k d (fun r => beta side k r dz f)).map fun ω => reconstruction side k ω f

/-- `compute_sensor(normalised=True)`, lines 441-447, with `theta = 4`. -/
def wenoSensor (k : ℕ) (d ω : ℕ → ℝ) (dmin : ℝ) : ℝ :=
  (∑ L ∈ range k, |ω L / d L - 1|^4) / (|1/dmin - 1|^4 + ((k:ℝ)-1))

end

end OpenSBLI.Weno
