import Mathlib.Analysis.Real.Sqrt
import Mathlib.Algebra.BigOperators.Fin

/-!
# Specification: the flux of the Euler equations of an ideal gas

Conserved variables are ordered `(rho, rho u_0, .., rho u_{n-1}, rho E)`.
-/
namespace OpenSBLI.Spec

noncomputable section

/-- Pressure of an ideal gas with ratio of specific heats `g`, from conserved variables. -/
def pressure {n : ℕ} (g : ℝ) (q : Fin (n+2) → ℝ) : ℝ :=
  (g-1) * (q (Fin.last _) - (∑ i : Fin n, q i.succ.castSucc ^ 2) / (2 * q 0))

/-- Velocity in the direction `k`, times density. -/
def contraMomentum {n : ℕ} (k : Fin n → ℝ) (q : Fin (n+2) → ℝ) : ℝ :=
  ∑ i : Fin n, k i * q i.succ.castSucc

/-- Inviscid flux through a surface with (not necessarily unit) normal `k`. -/
def eulerFlux {n : ℕ} (g : ℝ) (k : Fin n → ℝ) (q : Fin (n+2) → ℝ) : Fin (n+2) → ℝ :=
  let m := contraMomentum k q
  let p := pressure g q
  Fin.cons m (Fin.snoc (fun j : Fin n => q j.succ.castSucc * m / q 0 + k j * p)
    ((q (Fin.last _) + p) * m / q 0))

/-- Conserved variables of the state with density `rho`, velocity `u` and sound speed `a`
(`a² = g p / rho`). -/
def conserved {n : ℕ} (g rho a : ℝ) (u : Fin n → ℝ) : Fin (n+2) → ℝ :=
  Fin.cons rho (Fin.snoc (fun j : Fin n => rho * u j)
    (rho * a^2 / (g * (g-1)) + rho * (∑ i, u i ^ 2) / 2))

end

end OpenSBLI.Spec
