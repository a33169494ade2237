import Mathlib.Data.Real.Basic
import Mathlib.Algebra.Order.Floor.Defs
import Mathlib.Algebra.Order.Archimedean.Real.Basic
import Mathlib.Algebra.BigOperators.Group.Finset.Basic
import Verif.Model.Eno

/-!
# TENO reconstruction

Model of `/repo/opensbli/schemes/spatial/teno.py`: `ConfigureTeno` (57-196), `Teno5` (199-219),
`Teno6` (222-242), `Teno.create_cutoff_equations` (445-465), `Teno.generate_reconstruction`
(407-428), `Teno.create_adaptive_CT` (430-443).

`Teno.__init__` (345-351) raises `NotImplementedError` for every order other than 5 and 6, so these
two orders are the domain of the model; the order-8 branches of `ConfigureTeno` are unreachable.
-/
namespace OpenSBLI.Teno
open Weno (Side)

/-- Orders accepted by `Teno.__init__`, lines 345-351. -/
inductive Order where
  | five
  | six
deriving DecidableEq, Repr

/-- `n_stencils = order - 2`, line 66. -/
def Order.n : Order → ℕ
  | .five => 3
  | .six => 4

/-- `generate_func_points`, lines 98-108 (entry `i`; entries from `n_stencils` on are cut off). -/
def points : Side → ℕ → List ℤ
  | .right, 0 => [-1, 0, 1]
  | .right, 1 => [0, 1, 2]
  | .right, 2 => [-2, -1, 0]
  | .right, 3 => [0, 1, 2, 3]
  | .left, 0 => [0, 1, 2]
  | .left, 1 => [-1, 0, 1]
  | .left, 2 => [1, 2, 3]
  | .left, 3 => [-2, -1, 0, 1]
  | _, _ => []

variable {K : Type} [Field K]

/-- `generate_eno_coefficients`, lines 110-126. -/
def coeffs : Side → ℕ → List K
  | .right, 0 => [-1/6, 5/6, 2/6]
  | .right, 1 => [2/6, 5/6, -1/6]
  | .right, 2 => [2/6, -7/6, 11/6]
  | .right, 3 => [3/12, 13/12, -5/12, 1/12]
  | .left, 0 => [2/6, 5/6, -1/6]
  | .left, 1 => [-1/6, 5/6, 2/6]
  | .left, 2 => [11/6, -7/6, 1/3]
  | .left, 3 => [1/12, -5/12, 13/12, 3/12]
  | _, _ => []

/-- `generate_optimal_coefficients`, lines 128-147 (`optimized = False`). -/
def opt : Order → ℕ → K
  | .five, 0 => 11/20
  | .five, 1 => 4/10
  | .five, 2 => 1/20
  | .six, 0 => 231/500
  | .six, 1 => 3/10
  | .six, 2 => 27/500
  | .six, 3 => 23/125
  | _, _ => 0

/-- `eno_interpolation`, lines 424-425: candidate `i` at data `f` indexed relative to the current
point. -/
def candidate (side : Side) (i : ℕ) (f : ℤ → K) : K :=
  (((points side i).zip (coeffs side i)).map fun pc => f pc.1 * pc.2).sum

/-- `generate_smoothness_indicators`, lines 149-180 (entry `i`).  The last term of the right-hand
indicator 3 is not squared in the code (lines 166-167). -/
def beta (side : Side) (i : ℕ) (f : ℤ → K) : K :=
  match side, i with
  | .right, 0 => 1/4*(f (-1) - f 1)^2 + 13/12*(f (-1) - 2*f 0 + f 1)^2
  | .right, 1 => 1/4*(3*f 0 - 4*f 1 + f 2)^2 + 13/12*(f 0 - 2*f 1 + f 2)^2
  | .right, 2 => 1/4*(f (-2) - 4*f (-1) + 3*f 0)^2 + 13/12*(f (-2) - 2*f (-1) + f 0)^2
  | .right, 3 => 1/36*(-11*f 0 + 18*f 1 - 9*f 2 + 2*f 3)^2
      + 13/12*(2*f 0 - 5*f 1 + 4*f 2 - f 3)^2 + 781/720*(-f 0 + 3*f 1 - 3*f 2 + f 3)
  | .left, 0 => 1/4*(f 0 - f 2)^2 + 13/12*(f 0 - 2*f 1 + f 2)^2
  | .left, 1 => 1/4*(f (-1) - 4*f 0 + 3*f 1)^2 + 13/12*(f (-1) - 2*f 0 + f 1)^2
  | .left, 2 => 1/4*(3*f 1 - 4*f 2 + f 3)^2 + 13/12*(f 1 - 2*f 2 + f 3)^2
  | .left, 3 => 1/36*(-2*f (-2) + 9*f (-1) - 18*f 0 + 11*f 1)^2
      + 13/12*(-1*f (-2) + 4*f (-1) - 5*f 0 + 2*f 1)^2
      + 781/720*(-1*f (-2) + 3*f (-1) - 3*f 0 + f 1)^2
  | _, _ => 0

noncomputable section

/-- Reference indicator: `tau_5` (line 214), `tau_6` (line 237). -/
def tau (o : Order) (b : ℕ → ℝ) : ℝ :=
  match o with
  | .five => |b 0 - b 2|
  | .six => |b 3 - 1/6*(b 0 + b 2 - 4*b 1)|

/-- `generate_alphas`, lines 212-218 and 235-241 (`C = 1`, `q = 6`). -/
def alpha (o : Order) (eps : ℝ) (b : ℕ → ℝ) (r : ℕ) : ℝ := (1 + tau o b / (eps + b r))^6

/-- `create_cutoff_equations`, lines 452-460: the piecewise `delta_r`. -/
def delta (o : Order) (CT : ℝ) (α : ℕ → ℝ) (r : ℕ) : ℝ :=
  if α r * (1 / ∑ s ∈ Finset.range o.n, α s) < CT then 0 else 1

/-- `inv_omega_sum`, line 414, without the reciprocal. -/
def omegaSum (o : Order) (δ : ℕ → ℝ) : ℝ := ∑ i ∈ Finset.range o.n, opt o i * δ i

/-- `omega_evaluated`, line 418. -/
def omega (o : Order) (δ : ℕ → ℝ) (r : ℕ) : ℝ := opt o r * δ r * (1 / omegaSum o δ)

/-- The weights the generated code computes from indicator values `b`. -/
def weights (o : Order) (eps CT : ℝ) (b : ℕ → ℝ) : ℕ → ℝ :=
  omega o (delta o CT (alpha o eps b))

/-- The complete reconstruction, lines 419-427. -/
def reconstruct (o : Order) (side : Side) (eps CT : ℝ) (f : ℤ → ℝ) : ℝ :=
  ∑ r ∈ Finset.range o.n, weights o eps CT (fun r => beta side r f) r * candidate side r f

/-- `create_adaptive_CT`, lines 435-437: `CT = 1/10^floor(a1 - a2 (1 - (1-m)^4 (1+4m)))`. -/
def adaptiveCT (a1 a2 m : ℝ) : ℝ :=
  1 / (10:ℝ) ^ (⌊a1 - a2*(1 - (1-m)^4*(1+4*m))⌋ : ℤ)

end

end OpenSBLI.Teno
