import Verif.Spec.NavierStokes
import Verif.Props.C77_Conservation
import Mathlib.Tactic.FieldSimp

/-!
# The total energy of a viscous flow is not conserved

`apps/taylor_green_vortex` writes the work of the stresses as `Der(u_i*tau_i_j,x_j)` without `Conservative`, so that it is differentiated by the product rule and the second derivatives are discretised with other weights than the product
of first derivatives. The two parts do not cancel on the grid: wiggles between neighbouring points are damped in the momentum equation, but the energy they lose is not returned as heat.
-/
namespace OpenSBLI.Flow
open OpenSBLI.Sim

/-- A shear flow whose velocity changes its sign from one point to the next in direction 1; density and energy are the same everywhere. -/
noncomputable def wiggle (e : ℝ) : Fin 5 → P 3 → ℝ := ![fun _ => 1, fun x => (-1) ^ x 1, fun _ => 0, fun _ => 0, fun _ => e]

theorem step_other {d e : Fin 3} (h : e ≠ d) (x : P 3) (j : ℤ) : step x d j e = x e := Function.update_of_ne h _ _

theorem step_self (d : Fin 3) (x : P 3) (j : ℤ) : step x d j d = x d + j := Function.update_self _ _ _

theorem first_const (delta : Fin 3 → ℝ) (d : Fin 3) (c : ℝ) (x : P 3) : first delta d (fun _ => c) x = 0 := by
  simp only [first]
  rw [show c - 8 * c + 8 * c - c = 0 by ring, zero_div]

theorem second_const (delta : Fin 3 → ℝ) (d : Fin 3) (c : ℝ) (x : P 3) : second delta d (fun _ => c) x = 0 := by
  simp only [second]
  rw [show -c + 16 * c - 30 * c + 16 * c - c = 0 by ring, zero_div]

/-- The sign of the velocity. -/
noncomputable def sign (x : P 3) : ℝ := (-1) ^ x 1

theorem sign_step (x : P 3) (d : Fin 3) (j : ℤ) : sign (step x d j) = if d = 1 then (-1) ^ j * sign x else sign x := by
  by_cases h : d = 1
  · subst h
    rw [if_pos rfl, sign, step_self, zpow_add₀ (by norm_num), mul_comm, sign]
  · rw [if_neg h, sign, step_other (Ne.symm h), sign]

theorem first_sign (delta : Fin 3 → ℝ) (d : Fin 3) (x : P 3) : first delta d sign x = 0 := by
  simp only [first, sign_step]
  by_cases h : d = 1
  · simp only [if_pos h]
    norm_num
  · simp only [if_neg h]
    rw [show sign x - 8 * sign x + 8 * sign x - sign x = 0 by ring, zero_div]

theorem second_sign (delta : Fin 3 → ℝ) (d : Fin 3) (x : P 3) : second delta d sign x = if d = 1 then -(16 / 3) / delta 1 ^ 2 * sign x else 0 := by
  simp only [second, sign_step]
  by_cases h : d = 1
  · subst h
    simp only [if_true]
    norm_num
    ring
  · simp only [if_neg h]
    rw [show -sign x + 16 * sign x - 30 * sign x + 16 * sign x - sign x = 0 by ring, zero_div]

theorem sign_sq (x : P 3) : sign x * sign x = 1 := by
  rw [sign, ← mul_zpow]
  norm_num

theorem wiggle_velocity (e : ℝ) : velocity (state (wiggle e)) = ![sign, fun _ => 0, fun _ => 0] := by
  funext i x
  fin_cases i <;> simp [velocity, state, wiggle, sign]

theorem wiggle_pressure (g : Gas) (e : ℝ) : pressure g (state (wiggle e)) = fun _ => (g.gamma - 1) * (e - 1 / 2) := by
  funext x
  have := sign_sq x
  simp only [pressure, wiggle_velocity, Fin.sum_univ_three, Matrix.cons_val_zero, Matrix.cons_val_one, Matrix.cons_val, pow_two, this]
  simp [state, wiggle]

theorem wiggle_temperature (g : Gas) (e : ℝ) : temperature g (state (wiggle e)) = fun _ => g.gamma * g.Mach ^ 2 * ((g.gamma - 1) * (e - 1 / 2)) := by
  funext x
  simp only [temperature, wiggle_pressure]
  simp [state, wiggle]

/-- The rate of change of the energy of this flow, at every point. -/
theorem wiggle_energy (g : Gas) (delta : Fin 3 → ℝ) (e : ℝ) (x : P 3) : navierStokes g delta (wiggle e) 4 x = -(16 / 3) / (g.Re * delta 1 ^ 2) := by
  have hs := sign_sq x
  have he : (state (wiggle e)).energy = fun _ => e := rfl
  have h2 : ∀ (k : ℝ) j, first delta j (fun y => k * sign y) x = 0 := fun k j => by
    have : first delta j (fun y => k * sign y) x = k * first delta j sign x := by
      simp only [first]
      ring
    rw [this, first_sign, mul_zero]
  have f0 : ∀ d, first delta d sign = fun _ => 0 := fun d => funext (first_sign delta d)
  have c0 : ∀ d c, first delta d (fun _ => c) = fun _ => 0 := fun d c => funext (first_const delta d c)
  change energy g delta (state (wiggle e)) x = _
  simp only [energy, skew, stress, friction, mixed, wiggle_velocity, wiggle_pressure, wiggle_temperature, he, Fin.sum_univ_three, Matrix.cons_val_zero, Matrix.cons_val_one, Matrix.cons_val, f0, c0, h2, second_const, mul_zero]
  simp [second_sign]
  rw [show sign x * (g.Re⁻¹ * (-(16 / 3) / delta 1 ^ 2 * sign x)) = g.Re⁻¹ * (-(16 / 3) / delta 1 ^ 2) * (sign x * sign x) by ring, hs]
  ring

theorem wiggle_periodic (np : Fin 3 → ℤ) (he : Even (np 1)) (h : ℤ) (e : ℝ) : Periodic np h (wiggle e) := by
  intro i y z _ _ hyz
  have : y 1 % 2 = z 1 % 2 := by
    obtain ⟨k, hk⟩ := he
    have h1 := hyz 1
    have d : (2 : ℤ) ∣ np 1 := ⟨k, by omega⟩
    rw [← Int.emod_emod_of_dvd (y 1) d, h1, Int.emod_emod_of_dvd _ d]
  have hp : ((-1 : ℝ) ^ y 1) = (-1) ^ z 1 := by
    rcases Int.emod_two_eq_zero_or_one (y 1) with h0 | h1
    · rw [(Int.even_iff.2 h0).neg_one_zpow, (Int.even_iff.2 (this ▸ h0)).neg_one_zpow]
    · rw [(Int.odd_iff.2 h1).neg_one_zpow, (Int.odd_iff.2 (this ▸ h1)).neg_one_zpow]
  fin_cases i <;> simp [wiggle, hp]

/-- C94: the total energy of a viscous flow is not conserved. On every periodic grid with an even number of points in direction 1 there is a flow, with any energy, whose total energy decreases. -/
theorem C94_energy_lost (g : Gas) (hRe : 0 < g.Re) (delta : Fin 3 → ℝ) (hd : delta 1 ≠ 0) (np : Fin 3 → ℤ) (hnp : ∀ d, 0 < np d) (he : Even (np 1)) (e : ℝ) :
    ∃ q : Fin 5 → P 3 → ℝ, (∀ h, Periodic np h q) ∧ (∀ x, q 0 x = 1 ∧ q 4 x = e) ∧ ∑ x ∈ gridPoints np, navierStokes g delta q 4 x < 0 := by
  refine ⟨wiggle e, fun h => wiggle_periodic np he h e, fun x => ⟨rfl, rfl⟩, ?_⟩
  simp only [wiggle_energy]
  have hne : (gridPoints np).Nonempty := ⟨fun _ => 0, (mem_gridPoints np _).2 fun d => ⟨le_refl _, hnp d⟩⟩
  refine Finset.sum_neg (fun x _ => ?_) hne
  have : 0 < g.Re * delta 1 ^ 2 := by positivity
  rw [neg_div]
  exact neg_lt_zero.2 (by positivity)

end OpenSBLI.Flow
