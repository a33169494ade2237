import Mathlib.Algebra.BigOperators.Group.Finset.Basic
import Mathlib.Algebra.BigOperators.Intervals
import Mathlib.Algebra.Field.Basic
import Mathlib.Order.Interval.Finset.Nat

/-!
# ENO coefficients and optimal WENO weights

Model of `ConfigureWeno`, `/repo/opensbli/schemes/spatial/weno.py` lines 35-135.
Python `Rational`s are modelled by an arbitrary field `K` (ℚ for evaluation, ℝ for real data).
-/
namespace OpenSBLI.Weno

/-- Reconstruction side: `right` is `side == 1`, `left` is `side == -1` (lines 43-46). -/
inductive Side where
  | left
  | right
deriving DecidableEq, Repr

/-- `d` of `generate_eno_coefficients`, lines 77-80. -/
def Side.d : Side → ℤ
  | .right => 1
  | .left => 0

/-- `c` of `generate_left_right_points`, lines 128-131. -/
def Side.c : Side → ℤ
  | .right => 0
  | .left => 1

variable (K : Type) [Field K]

/-- `c_rj[(r, j)]` of `generate_eno_coefficients(k)`, lines 70-98.
`top_sum`: lines 87, 90-93, 95; `bottom_product`: lines 88, 94. -/
def enoCoeff (side : Side) (k r j : ℕ) : K :=
  ∑ m ∈ Finset.Ico (j+1) (k+1),
    (∑ l ∈ (Finset.range (k+1)).erase m,
      ∏ q ∈ ((Finset.range (k+1)).erase m).erase l, (((r : ℤ) - (q : ℤ) + side.d : ℤ) : K)) /
    (∏ l ∈ (Finset.range (k+1)).erase m, (((m : ℤ) - (l : ℤ) : ℤ) : K))

/-- Entry `r*k+j` of `generate_left_right_points`, line 134. -/
def funcPoint (side : Side) (r j : ℕ) : ℤ := -(r : ℤ) + j + side.c

/-- The linear system of `generate_optimal_weights`, lines 107-114.  Equation number `i` is
`sum_j d_{r_j} c_{r_j, j} - c2_{k-1, i} = 0` with `r_j = k-1-i+j` for `j = 0..i` (line 107 reversed)
and `c2` the coefficients for `2k-1` (line 51).  `solve` (line 116) is modelled as returning a
solution of this system; that it is unique is a theorem. -/
def OptimalWeights (side : Side) (k : ℕ) (d : ℕ → K) : Prop :=
  ∀ i < k, (∑ j ∈ Finset.range (i+1),
    d (k-1-i+j) * enoCoeff K side k (k-1-i+j) j) - enoCoeff K side (2*k-1) (k-1) i = 0

/-- Candidate reconstruction `r`: `sum(eno_expansion)`, line 462, at data `f` indexed relative to
the current point. -/
def candidate {K : Type} [Field K] (side : Side) (k r : ℕ) (f : ℤ → K) : K :=
  ∑ j ∈ Finset.range k, enoCoeff K side k r j * f (funcPoint side r j)

/-- `generate_reconstruction`, lines 459-464: `sum_r omega_r * candidate_r`. -/
def reconstruction {K : Type} [Field K] (side : Side) (k : ℕ) (ω : ℕ → K) (f : ℤ → K) : K :=
  ∑ r ∈ Finset.range k, ω r * candidate side k r f

end OpenSBLI.Weno
