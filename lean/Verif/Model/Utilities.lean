import Mathlib.Analysis.Real.Sqrt
import Mathlib.Analysis.SpecialFunctions.Trigonometric.Basic
import Mathlib.Analysis.SpecialFunctions.Trigonometric.Inverse
import Mathlib.Analysis.SpecialFunctions.Trigonometric.Arctan

/-!
# Utilities

Models of utilities/oblique_shock.py and utilities/numerical_functions.py, over the reals instead of floating point.
-/
namespace OpenSBLI.Util

/-! ## Oblique shock relations -/

/-- `rad`. -/
noncomputable def rad (deg : ℝ) : ℝ := deg * (Real.pi / 180)

/-- The check of `ObliqueShock.__init__`, oblique_shock.py 21: `wave_angle` is the argument in degrees, `asin` returns radians. -/
def shockAccepts (waveAngle M : ℝ) : Prop := ¬ waveAngle < Real.arcsin (1 / M)

/-- `theta_beta_M_eqn`, oblique_shock.py 41-46. -/
noncomputable def wedgeAngle (M beta gama : ℝ) : ℝ :=
  Real.arctan (2 * Real.cot beta * (M ^ 2 * Real.sin beta ^ 2 - 1) / (M ^ 2 * (gama + Real.cos (2 * beta)) + 2))

/-- `pressure_ratio`, oblique_shock.py 48-52. -/
noncomputable def pressureRatio (M beta gama : ℝ) : ℝ := 1 + (2 * gama) / (gama + 1) * (M ^ 2 * Real.sin beta ^ 2 - 1)

/-- `density_ratio`, oblique_shock.py 54-58. -/
noncomputable def densityRatio (M beta gama : ℝ) : ℝ :=
  ((gama + 1) * (M ^ 2 * Real.sin beta ^ 2)) / ((gama - 1) * M ^ 2 * Real.sin beta ^ 2 + 2)

/-- `temperature_ratio`, oblique_shock.py 60-63. -/
noncomputable def temperatureRatio (M beta gama : ℝ) : ℝ := pressureRatio M beta gama * (1 / densityRatio M beta gama)

/-- `post_shock_mach_number`, oblique_shock.py 65-70. -/
noncomputable def postMach (M beta gama : ℝ) : ℝ :=
  (1 / Real.sin (beta - wedgeAngle M beta gama)) *
    Real.sqrt ((1 + 1 / 2 * (gama - 1) * M ^ 2 * Real.sin beta ^ 2) / (gama * M ^ 2 * Real.sin beta ^ 2 - 1 / 2 * (gama - 1)))

/-- The speed `sqrt(u*u+v*v)` of oblique_shock.py 90-93. -/
noncomputable def postSpeed (U M beta gama : ℝ) : ℝ :=
  let u := U * Real.cos (1 / 2 * Real.pi - beta) * Real.tan (beta - wedgeAngle M beta gama) / Real.tan beta
  let v := U * Real.cos (1 / 2 * Real.pi - beta) / Real.tan beta
  Real.sqrt (u * u + v * v)

/-- `primitive_post_shock_conditions`, oblique_shock.py 107-127: density, velocities and pressure. -/
noncomputable def primitivePost (U M beta gama : ℝ) : ℝ × ℝ × ℝ × ℝ :=
  (densityRatio M beta gama, postSpeed U M beta gama * Real.cos (wedgeAngle M beta gama),
    -1 * postSpeed U M beta gama * Real.sin (wedgeAngle M beta gama), pressureRatio M beta gama * (1 / (gama * M ^ 2)))

/-- `conservative_post_shock_conditions`, oblique_shock.py 85-105. -/
noncomputable def conservativePost (U M beta gama : ℝ) : ℝ × ℝ × ℝ × ℝ :=
  let rho := densityRatio M beta gama
  let rhou := rho * postSpeed U M beta gama * Real.cos (wedgeAngle M beta gama)
  let rhov := -rho * postSpeed U M beta gama * Real.sin (wedgeAngle M beta gama)
  let p2 := pressureRatio M beta gama * (1 / (gama * M ^ 2))
  (rho, rhou, rhov, p2 / (gama - 1) + (1 / 2 / rho) * (rhou ^ 2 + rhov ^ 2))

/-! ## Cubic spline -/

/-- The two arrays of `spline`. -/
structure Sweep where
  d2y : ℕ → ℝ
  u : ℕ → ℝ

/-- The value `y > 0.99e30` that asks for a natural end. -/
noncomputable def naturalBound : ℝ := 99 / 100 * 10 ^ 30

/-- The start of `spline`, numerical_functions.py 20-25; the arrays begin as zeros (`np.zeros_like`, for a floating point `y`). -/
noncomputable def splineStart (x y : ℕ → ℝ) (yStart : ℝ) : Sweep :=
  if naturalBound < yStart then ⟨fun _ => 0, fun _ => 0⟩
  else ⟨Function.update (fun _ => 0) 0 (-1 / 2), Function.update (fun _ => 0) 0 ((3 / (x 1 - x 0)) * ((y 1 - y 0) / (x 1 - x 0) - yStart))⟩

/-- One pass of the decomposition loop, numerical_functions.py 27-31. -/
noncomputable def splineStep (x y : ℕ → ℝ) (s : Sweep) (i : ℕ) : Sweep :=
  let sig := (x i - x (i - 1)) / (x (i + 1) - x (i - 1))
  let p := sig * s.d2y (i - 1) + 2
  let d2y := Function.update s.d2y i ((sig - 1) / p)
  let u := Function.update s.u i ((y (i + 1) - y i) / (x (i + 1) - x i) - (y i - y (i - 1)) / (x i - x (i - 1)))
  ⟨d2y, Function.update u i ((6 * u i / (x (i + 1) - x (i - 1)) - sig * u (i - 1)) / p)⟩

/-- The decomposition loop `for i in range(1, n-1)`. -/
noncomputable def splineForward (x y : ℕ → ℝ) (n : ℕ) (s : Sweep) : Sweep := (List.range' 1 (n - 2)).foldl (splineStep x y) s

/-- The end of the loop and the last entry, numerical_functions.py 32-37. -/
noncomputable def splineLast (x y : ℕ → ℝ) (n : ℕ) (yEnd : ℝ) (s : Sweep) : Sweep :=
  let qn : ℝ := if naturalBound < yEnd then 0 else 1 / 2
  let un : ℝ := if naturalBound < yEnd then 0
    else (3 / (x (n - 1) - x (n - 2))) * (yEnd - (y (n - 1) - y (n - 2)) / (x (n - 1) - x (n - 2)))
  ⟨Function.update s.d2y (n - 1) ((un - qn * s.u (n - 2)) / (qn * s.d2y (n - 2) + 1)), s.u⟩

/-- The back substitution `for k in range(n-2, -1, -1)`, numerical_functions.py 38-39. -/
noncomputable def splineBack (n : ℕ) (s : Sweep) : Sweep :=
  (List.range (n - 1)).reverse.foldl (fun s k => ⟨Function.update s.d2y k (s.d2y k * s.d2y (k + 1) + s.u k), s.u⟩) s

/-- `spline`, numerical_functions.py 9-40. -/
noncomputable def spline (x y : ℕ → ℝ) (n : ℕ) (yStart yEnd : ℝ) : ℕ → ℝ :=
  (splineBack n (splineLast x y n yEnd (splineForward x y n (splineStart x y yStart)))).d2y

open Classical in
/-- The bisection of `splint`, numerical_functions.py 55-61. -/
noncomputable def bisect (xa : ℕ → ℝ) (x : ℝ) (klo khi : ℕ) : ℕ × ℕ :=
  if khi - klo > 1 then
    if xa ((khi + klo) / 2) > x then bisect xa x klo ((khi + klo) / 2) else bisect xa x ((khi + klo) / 2) khi
  else (klo, khi)
termination_by khi - klo
decreasing_by all_goals omega

/-- The polynomial of `splint`, numerical_functions.py 65-67, between the entries `klo` and `khi`. -/
noncomputable def splintPiece (xa ya y2a : ℕ → ℝ) (klo khi : ℕ) (x : ℝ) : ℝ :=
  let h := xa khi - xa klo
  let a := (xa khi - x) / h
  let b := (x - xa klo) / h
  a * ya klo + b * ya khi + ((a ^ 3 - a) * y2a klo + (b ^ 3 - b) * y2a khi) * h ^ 2 / 6

open Classical in
/-- `splint`, numerical_functions.py 43-68, for `n ≥ 1`; `none` is the `ValueError`. -/
noncomputable def splint (xa ya y2a : ℕ → ℝ) (n : ℕ) (x : ℝ) : Option ℝ :=
  let k := bisect xa x 0 (n - 1)
  if xa k.2 - xa k.1 = 0 then none else some (splintPiece xa ya y2a k.1 k.2 x)

end OpenSBLI.Util
