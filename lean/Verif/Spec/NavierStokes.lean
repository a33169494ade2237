import Verif.Model.Simulation
import Mathlib.Data.Fin.VecNotation
import Mathlib.Algebra.BigOperators.Fin
import Mathlib.Analysis.Complex.Trigonometric

/-!
# The compressible Navier-Stokes equations on a grid

Written out with the fourth order differences of the textbooks and with the convective terms in the skew-symmetric form of Blaisdell: what a user of `apps/taylor_green_vortex` expects the program to integrate. Nothing here mentions
the code generator; `P 3` are the points of the grid.
-/
namespace OpenSBLI.Flow
open OpenSBLI.Sim (P)

/-- The parameters of the gas. -/
structure Gas where
  Re : ℝ
  Pr : ℝ
  gamma : ℝ
  Mach : ℝ

/-- Density, momentum and total energy at the points of a grid. -/
structure State where
  rho : P 3 → ℝ
  mom : Fin 3 → P 3 → ℝ
  energy : P 3 → ℝ

/-- The point `j` steps further in direction `d`. -/
def step (x : P 3) (d : Fin 3) (j : ℤ) : P 3 := Function.update x d (x d + j)

/-- The first difference of fourth order. -/
noncomputable def first (delta : Fin 3 → ℝ) (d : Fin 3) (f : P 3 → ℝ) (x : P 3) : ℝ :=
  (f (step x d (-2)) - 8 * f (step x d (-1)) + 8 * f (step x d 1) - f (step x d 2)) / (12 * delta d)

/-- The second difference of fourth order. -/
noncomputable def second (delta : Fin 3 → ℝ) (d : Fin 3) (f : P 3 → ℝ) (x : P 3) : ℝ :=
  (-f (step x d (-2)) + 16 * f (step x d (-1)) - 30 * f x + 16 * f (step x d 1) - f (step x d 2)) / (12 * delta d ^ 2)

section
variable (g : Gas) (delta : Fin 3 → ℝ) (q : State)

noncomputable def velocity (i : Fin 3) (x : P 3) : ℝ := q.mom i x / q.rho x

noncomputable def pressure (x : P 3) : ℝ := (g.gamma - 1) * (q.energy x - q.rho x / 2 * ∑ i, velocity q i x ^ 2)

noncomputable def temperature (x : P 3) : ℝ := g.gamma * g.Mach ^ 2 * pressure g q x / q.rho x

/-- The difference for `∂²f/∂x_i ∂x_j`: for two different directions the first difference in the later one of the first difference in the earlier one. -/
noncomputable def mixed (i j : Fin 3) (f : P 3 → ℝ) : P 3 → ℝ := if i = j then second delta i f else first delta (max i j) (first delta (min i j) f)

/-- Blaisdell's form of `∂(f u_j)/∂x_j`, summed. -/
noncomputable def skew (f : P 3 → ℝ) (x : P 3) : ℝ :=
  ∑ j, (first delta j (fun y => f y * velocity q j y) x + velocity q j x * first delta j f x + f x * first delta j (velocity q j) x) / 2

/-- The stresses `τ_ij`. -/
noncomputable def stress (i j : Fin 3) (x : P 3) : ℝ :=
  1 / g.Re * (first delta j (velocity q i) x + first delta i (velocity q j) x - if i = j then 2 / 3 * ∑ k, first delta k (velocity q k) x else 0)

/-- The divergence of the stresses, `∂τ_ij/∂x_j` summed over `j`, with second differences. -/
noncomputable def friction (i : Fin 3) (x : P 3) : ℝ :=
  1 / g.Re * ∑ j, (mixed delta j j (velocity q i) x + mixed delta i j (velocity q j) x - 2 / 3 * mixed delta i j (velocity q j) x)

/-- The rate of change of the density. -/
noncomputable def mass (x : P 3) : ℝ := -skew delta q q.rho x

/-- The rate of change of the momentum. -/
noncomputable def momentum (i : Fin 3) (x : P 3) : ℝ := -skew delta q (q.mom i) x - first delta i (pressure g q) x + friction g delta q i x

/-- The rate of change of the total energy: convection, work of the pressure, conduction of heat, dissipation and work of the stresses. -/
noncomputable def energy (x : P 3) : ℝ :=
  -skew delta q q.energy x - ∑ j, first delta j (fun y => pressure g q y * velocity q j y) x
    + 1 / ((g.gamma - 1) * g.Mach ^ 2 * g.Pr * g.Re) * ∑ j, second delta j (temperature g q) x
    + ∑ i, ∑ j, stress g delta q i j x * first delta j (velocity q i) x + ∑ i, velocity q i x * friction g delta q i x

end

/-- Density, momentum and energy as five functions. -/
def state (q : Fin 5 → P 3 → ℝ) : State := ⟨q 0, ![q 1, q 2, q 3], q 4⟩

/-- The right hand sides of the five equations. -/
noncomputable def navierStokes (g : Gas) (delta : Fin 3 → ℝ) (q : Fin 5 → P 3 → ℝ) : Fin 5 → P 3 → ℝ :=
  let s := state q
  ![mass delta s, momentum g delta s 0, momentum g delta s 1, momentum g delta s 2, energy g delta s]

/-! ## The vortex at the beginning -/

/-- The velocity of the Taylor-Green vortex. -/
noncomputable def vortexVelocity (x : Fin 3 → ℝ) : Fin 3 → ℝ :=
  ![Real.sin (x 0) * Real.cos (x 1) * Real.cos (x 2), -(Real.cos (x 0) * Real.sin (x 1) * Real.cos (x 2)), 0]

/-- Its pressure. -/
noncomputable def vortexPressure (g : Gas) (x : Fin 3 → ℝ) : ℝ :=
  1 / (g.gamma * g.Mach ^ 2) + 1 / 16 * (Real.cos (2 * x 0) + Real.cos (2 * x 1)) * (2 + Real.cos (2 * x 2))

/-- Its density: the temperature is one everywhere. -/
noncomputable def vortexDensity (g : Gas) (x : Fin 3 → ℝ) : ℝ := g.gamma * g.Mach ^ 2 * vortexPressure g x

/-- Density, momentum and energy at the points of a grid with spacing `delta`. -/
noncomputable def vortex (g : Gas) (delta : Fin 3 → ℝ) (i : Fin 5) (x : P 3) : ℝ :=
  let y : Fin 3 → ℝ := fun d => delta d * x d
  let r := vortexDensity g y
  let u := vortexVelocity y
  (![r, r * u 0, r * u 1, r * u 2, vortexPressure g y / (g.gamma - 1) + r / 2 * (u 0 ^ 2 + u 1 ^ 2 + u 2 ^ 2)] : Fin 5 → ℝ) i

end OpenSBLI.Flow
