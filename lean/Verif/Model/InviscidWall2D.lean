import Verif.Model.Boundary
import Mathlib.Analysis.SpecialFunctions.Complex.Arg

/-!
# Inviscid wall in two dimensions (Lawal)

Model of `core/boundary_conditions/inviscid_wall2D.py` 28-133.

A field is a function of two offsets from the wall point of the kernel: `f k t` is `k` points along the boundary direction and `t` points
along the other one (`tangent_direction`). The kernel stores everything it reads in local variables or reads it at level
`to_side_factor`, which it does not write, so its assignments are modelled as simultaneous. Only two dimensional blocks are covered: in three
dimensions the product of the two component vector with the velocity (line 93) raises in sympy.
-/
namespace OpenSBLI.Iw2

open OpenSBLI.Bc (Side)

/-- Conservative variables and coordinates on the block. -/
structure Fields where
  rho : ℤ → ℤ → ℝ
  mom : Fin 2 → ℤ → ℤ → ℝ
  rhoE : ℤ → ℤ → ℝ
  x : Fin 2 → ℤ → ℤ → ℝ

variable (γ : ℝ) (s : Side) (f : Fields)

/-- `delta_x`, `delta_y`: central differences of the wall coordinates, lines 57-64. -/
def deltaWall (j : Fin 2) (t : ℤ) : ℝ := f.x j 0 (t + 1) - f.x j 0 (t - 1)

/-- `theta_%d`: `atan2(delta_y, delta_x)`, line 70; `Complex.arg` is `atan2` of imaginary and real part. -/
noncomputable def theta (t : ℤ) : ℝ := Complex.arg ⟨deltaWall f 0 t, deltaWall f 1 t⟩

/-- `rho_%d`, line 71. -/
def rhoAbove (t : ℤ) : ℝ := f.rho s.toF t

/-- `u_%d%d`, lines 73-75. -/
noncomputable def velAbove (j : Fin 2) (t : ℤ) : ℝ := f.mom j s.toF t / rhoAbove s f t

/-- `p_%d`, line 76: the conservative pressure relation (ns_physics.py 96). -/
noncomputable def pAbove (t : ℤ) : ℝ :=
  (γ - 1) * (f.rhoE s.toF t - 1 / 2 * (f.mom 0 s.toF t * f.mom 0 s.toF t + f.mom 1 s.toF t * f.mom 1 s.toF t) / f.rho s.toF t)

/-- `unit_normals`, line 88: the unit tangent of the wall. -/
noncomputable def tangent (j : Fin 2) (t : ℤ) : ℝ := if j = 0 then Real.cos (theta f t) else Real.sin (theta f t)

/-- `ut_%d`, line 93. -/
noncomputable def utAbove (t : ℤ) : ℝ := tangent f 0 t * velAbove s f 0 t + tangent f 1 t * velAbove s f 1 t

/-- `grid_size`, line 97. -/
noncomputable def gridSize : ℝ :=
  if theta f 0 ≥ 0 then
    Real.sqrt ((f.x 1 s.toF 0 - f.x 1 s.toF (-1)) ^ 2 + (f.x 0 s.toF 0 - f.x 0 s.toF (-1)) ^ 2)
  else Real.sqrt ((f.x 1 s.toF 1 - f.x 1 s.toF 0) ^ 2 + (f.x 0 s.toF 1 - f.x 0 s.toF 0) ^ 2)

/-- `density_delta`, `tangent_velocity_delta`, `pressure_delta`, lines 99-101. -/
noncomputable def delta (q : ℤ → ℝ) : ℝ := if theta f 0 ≥ 0 then q 0 - q (-1) else q 0 - q 1

/-- `normal_grid_point`, line 103. -/
noncomputable def normalGridPoint : ℝ := (f.x 1 s.toF 0 - f.x 1 0 0) * Real.sin (theta f 0) / gridSize s f

/-- `density_wall`, `tangent_velocity_prime`, `pressure_wall`, lines 105-107. -/
noncomputable def wallValue (q : ℤ → ℝ) : ℝ := q 0 - normalGridPoint s f * delta f q

noncomputable def rhoWall : ℝ := wallValue s f (rhoAbove s f)
noncomputable def utWall : ℝ := wallValue s f (utAbove s f)
noncomputable def pWall : ℝ := wallValue s f (pAbove γ s f)

/-- `momentum_wall`, lines 111-115. -/
noncomputable def momWall (j : Fin 2) : ℝ := rhoWall s f * (utWall s f * tangent f j 0)

/-- `energy_wall`, line 116. -/
noncomputable def energyWall : ℝ := pWall γ s f / (γ - 1) + 1 / 2 * rhoWall s f * utWall s f ^ 2

/-- Extrapolation into halo `i`, lines 119-127; `i = 0` is the wall itself (lines 110-117). -/
def extrapolate (i : ℕ) (wall above : ℝ) : ℝ := (i + 1) * wall - i * above

/-- State after the kernel at halo level `i` (offset `from_side_factor * i`) of the wall point. -/
noncomputable def haloRho (i : ℕ) : ℝ := extrapolate i (rhoWall s f) (f.rho s.toF 0)
noncomputable def haloMom (j : Fin 2) (i : ℕ) : ℝ := extrapolate i (momWall s f j) (f.mom j s.toF 0)
noncomputable def haloEnergy (i : ℕ) : ℝ := extrapolate i (energyWall γ s f) (f.rhoE s.toF 0)

end OpenSBLI.Iw2
