import Mathlib.MeasureTheory.Integral.IntervalIntegral.Basic
import Mathlib.Algebra.Polynomial.Eval.Defs
import Mathlib.MeasureTheory.Measure.Lebesgue.Basic

/-!
# Specification: cell averages on a uniform grid
-/
namespace OpenSBLI.Spec
open Polynomial

/-- Average of `P` over cell number `n` of a uniform grid of spacing `h`; cells are numbered
relative to the current point, and `x` is the position of the interface between cells `0` and `1`
(cell `n` is `[x + (n-1)h, x + n h]`). -/
noncomputable def cellAverage (P : ℝ[X]) (x h : ℝ) (n : ℤ) : ℝ :=
  (∫ y in (x + (n-1)*h)..(x + n*h), P.eval y) / h

end OpenSBLI.Spec
