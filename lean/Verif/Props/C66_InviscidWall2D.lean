import Verif.Model.InviscidWall2D
import Verif.Spec.GasState
import Mathlib.Tactic.FieldSimp
import Mathlib.Tactic.Linarith
import Mathlib.Tactic.LinearCombination
import Mathlib.Tactic.FinCases
import Mathlib.Tactic.NormNum

/-!
# C66 two dimensional inviscid wall

The wall is the line of points at level 0; its direction at a point is the central difference of its coordinates.
-/
namespace OpenSBLI.Iw2
open OpenSBLI.Bc (Side)

/-- The angle reproduces the direction of the difference. -/
theorem tangent_parallel (f : Fields) (t : ℤ) :
    deltaWall f 0 t * Real.sin (theta f t) = deltaWall f 1 t * Real.cos (theta f t) := by
  by_cases h : (⟨deltaWall f 0 t, deltaWall f 1 t⟩ : ℂ) = 0
  · have h0 : deltaWall f 0 t = 0 := congrArg Complex.re h
    have h1 : deltaWall f 1 t = 0 := congrArg Complex.im h
    rw [h0, h1]; ring
  · rw [theta, Complex.sin_arg, Complex.cos_arg h]
    simp only
    ring

/-- **C66, no flow through the wall.** The momentum set at the wall point is parallel to the wall there, for all fields and grids. -/
theorem C66_wall_tangential (s : Side) (f : Fields) :
    haloMom s f 0 0 * (f.x 1 0 1 - f.x 1 0 (-1)) - haloMom s f 1 0 * (f.x 0 0 1 - f.x 0 0 (-1)) = 0 := by
  have h := tangent_parallel f 0
  simp only [deltaWall, zero_add, zero_sub] at h
  simp only [haloMom, extrapolate, Nat.cast_zero, zero_add, one_mul, zero_mul, sub_zero, momWall, tangent, if_true]
  simp only [Fin.one_eq_zero_iff, OfNat.ofNat_ne_one, if_false]
  linear_combination - (rhoWall s f * utWall s f) * h

/-- The speed at the wall point is the interpolated tangential velocity. -/
theorem wall_speed (s : Side) (f : Fields) : haloMom s f 0 0 ^ 2 + haloMom s f 1 0 ^ 2 = (rhoWall s f * utWall s f) ^ 2 := by
  have := Real.sin_sq_add_cos_sq (theta f 0)
  simp only [haloMom, extrapolate, Nat.cast_zero, zero_add, one_mul, zero_mul, sub_zero, momWall, tangent, if_true]
  simp only [Fin.one_eq_zero_iff, OfNat.ofNat_ne_one, if_false]
  linear_combination (rhoWall s f * utWall s f) ^ 2 * this

/-- **C66, wall pressure.** The pressure of the state set at the wall point is the interpolated pressure, the quantity the
condition is meant to impose. -/
theorem C66_wall_pressure (γ : ℝ) (s : Side) (f : Fields) (hγ : γ ≠ 1) (_hρ : rhoWall s f ≠ 0) :
    Spec.pressureOf γ (haloRho s f 0) (fun j => haloMom s f j 0) (haloEnergy γ s f 0) =
      wallValue s f (fun t => Spec.pressureOf γ (f.rho s.toF t) (fun j => f.mom j s.toF t) (f.rhoE s.toF t)) := by
  have hp : (fun t => Spec.pressureOf γ (f.rho s.toF t) (fun j => f.mom j s.toF t) (f.rhoE s.toF t)) = pAbove γ s f := by
    funext t
    simp only [Spec.pressureOf, pAbove, Fin.sum_univ_two]
    by_cases h : f.rho s.toF t = 0
    · rw [h]; simp
    · field_simp
  have hg : γ - 1 ≠ 0 := sub_ne_zero.2 hγ
  rw [hp, Spec.pressureOf, Fin.sum_univ_two, wall_speed]
  simp only [haloRho, haloEnergy, extrapolate, Nat.cast_zero, zero_add, one_mul, zero_mul, sub_zero, energyWall]
  rw [pWall]
  generalize rhoWall s f = a at *
  field_simp
  ring

/-- **C66, halos continue the line** through the first interior point and the wall point, variable by variable. -/
theorem C66_halo_linear (γ : ℝ) (s : Side) (f : Fields) (i : ℕ) :
    haloRho s f (i + 1) - haloRho s f i = haloRho s f 0 - f.rho s.toF 0 ∧
    (∀ j, haloMom s f j (i + 1) - haloMom s f j i = haloMom s f j 0 - f.mom j s.toF 0) ∧
    haloEnergy γ s f (i + 1) - haloEnergy γ s f i = haloEnergy γ s f 0 - f.rhoE s.toF 0 := by
  refine ⟨?_, fun j => ?_, ?_⟩ <;> simp only [haloRho, haloMom, haloEnergy, extrapolate] <;> push_cast <;> ring

/-- Straight wall with direction angle `φ` and spacing `ds`, the first interior line displaced by the vector `(a 0, a 1)`. -/
structure Straight (s : Side) (f : Fields) (φ ds : ℝ) (a : Fin 2 → ℝ) : Prop where
  ds_pos : 0 < ds
  lower : -Real.pi < φ
  upper : φ ≤ Real.pi
  wall0 : ∀ t, f.x 0 0 t = f.x 0 0 0 + t * ds * Real.cos φ
  wall1 : ∀ t, f.x 1 0 t = f.x 1 0 0 + t * ds * Real.sin φ
  above : ∀ j t, f.x j s.toF t = f.x j 0 t + a j

theorem Straight.theta_eq {s : Side} {f : Fields} {φ ds : ℝ} {a : Fin 2 → ℝ} (h : Straight s f φ ds a) (t : ℤ) : theta f t = φ := by
  have e : (⟨deltaWall f 0 t, deltaWall f 1 t⟩ : ℂ) =
      ((2 * ds : ℝ) : ℂ) * (Complex.cos φ + Complex.sin φ * Complex.I) := by
    apply Complex.ext
    · simp only [deltaWall]
      rw [h.wall0 (t + 1), h.wall0 (t - 1)]
      simp [Complex.mul_re, Complex.cos_ofReal_re, Complex.sin_ofReal_im, Complex.cos_ofReal_im]
      ring
    · simp only [deltaWall]
      rw [h.wall1 (t + 1), h.wall1 (t - 1)]
      simp [Complex.mul_im, Complex.sin_ofReal_re, Complex.cos_ofReal_im]
      ring
  rw [theta, e]
  exact Complex.arg_mul_cos_add_sin_mul_I (by have := h.ds_pos; linarith) ⟨h.lower, h.upper⟩

theorem Straight.gridSize_eq {s : Side} {f : Fields} {φ ds : ℝ} {a : Fin 2 → ℝ} (h : Straight s f φ ds a) : gridSize s f = ds := by
  have sc := Real.sin_sq_add_cos_sq φ
  have r : Real.sqrt (ds ^ 2) = ds := Real.sqrt_sq h.ds_pos.le
  unfold gridSize
  rw [h.above 1 0, h.above 1 (-1), h.above 0 0, h.above 0 (-1), h.above 1 1, h.above 0 1, h.wall0 (-1), h.wall1 (-1), h.wall0 1,
    h.wall1 1]
  have e1 : (f.x 1 0 0 + a 1 - (f.x 1 0 0 + ((-1 : ℤ) : ℝ) * ds * Real.sin φ + a 1)) ^ 2 +
      (f.x 0 0 0 + a 0 - (f.x 0 0 0 + ((-1 : ℤ) : ℝ) * ds * Real.cos φ + a 0)) ^ 2 = ds ^ 2 := by
    push_cast; linear_combination ds ^ 2 * sc
  have e2 : (f.x 1 0 0 + ((1 : ℤ) : ℝ) * ds * Real.sin φ + a 1 - (f.x 1 0 0 + a 1)) ^ 2 +
      (f.x 0 0 0 + ((1 : ℤ) : ℝ) * ds * Real.cos φ + a 0 - (f.x 0 0 0 + a 0)) ^ 2 = ds ^ 2 := by
    push_cast; linear_combination ds ^ 2 * sc
  rw [e1, e2, r]
  simp

/-- Value taken at the wall on a straight wall. -/
theorem Straight.wallValue_eq {s : Side} {f : Fields} {φ ds : ℝ} {a : Fin 2 → ℝ} (h : Straight s f φ ds a) (q : ℤ → ℝ) :
    wallValue s f q = q 0 - a 1 * Real.sin φ / ds * (if 0 ≤ φ then q 0 - q (-1) else q 0 - q 1) := by
  rw [wallValue, normalGridPoint, h.gridSize_eq, delta, h.theta_eq, h.above 1 0]
  simp only [ge_iff_le, add_sub_cancel_left]

/-- **C66, uniform flow along a straight wall is left alone**: the wall point and all halos get the same uniform state, in either
inclination of the wall. -/
theorem C66_uniform_flow_preserved (γ : ℝ) (s : Side) (f : Fields) (φ ds : ℝ) (a : Fin 2 → ℝ) (h : Straight s f φ ds a)
    (ρ v E : ℝ) (hγ : γ ≠ 1) (hρ : ρ ≠ 0) (hr : ∀ t, f.rho s.toF t = ρ) (hm0 : ∀ t, f.mom 0 s.toF t = ρ * v * Real.cos φ)
    (hm1 : ∀ t, f.mom 1 s.toF t = ρ * v * Real.sin φ) (hE : ∀ t, f.rhoE s.toF t = E) (i : ℕ) :
    haloRho s f i = ρ ∧ haloMom s f 0 i = ρ * v * Real.cos φ ∧ haloMom s f 1 i = ρ * v * Real.sin φ ∧ haloEnergy γ s f i = E := by
  have sc := Real.sin_sq_add_cos_sq φ
  have hg : γ - 1 ≠ 0 := sub_ne_zero.2 hγ
  have const : ∀ (q : ℤ → ℝ) (c : ℝ), (∀ t, q t = c) → wallValue s f q = c := by
    intro q c hq
    rw [h.wallValue_eq, hq, hq, hq]; simp
  have r : rhoWall s f = ρ := const _ _ hr
  have u : utWall s f = v := by
    apply const
    intro t
    simp only [utAbove, tangent, if_true, Fin.one_eq_zero_iff, OfNat.ofNat_ne_one, if_false, velAbove, rhoAbove, hr, hm0, hm1, h.theta_eq]
    field_simp
    linear_combination v * sc
  have p : pWall γ s f = (γ - 1) * (E - 1 / 2 * (ρ * v * Real.cos φ * (ρ * v * Real.cos φ) +
      ρ * v * Real.sin φ * (ρ * v * Real.sin φ)) / ρ) := by
    apply const; intro t; simp only [pAbove, hr, hm0, hm1, hE]
  refine ⟨?_, ?_, ?_, ?_⟩
  · rw [haloRho, r, hr, extrapolate]; ring
  · simp only [haloMom, momWall, tangent, if_true, r, u, h.theta_eq, hm0, extrapolate]; ring
  · simp only [haloMom, momWall, tangent, Fin.one_eq_zero_iff, OfNat.ofNat_ne_one, if_false, r, u, h.theta_eq, hm1, extrapolate]; ring
  · have e : energyWall γ s f = E := by
      rw [energyWall, p, r, u]
      field_simp
      linear_combination (-ρ * v ^ 2) * sc
    rw [haloEnergy, e, hE, extrapolate]; ring

/-- **C66, foot of the wall normal.** On a straight wall rising in the direction of increasing index (`0 ≤ φ`) whose grid lines leave it
vertically, a quantity that varies linearly along the first interior line is taken at the point where the wall normal meets that
line: `τ` is the coordinate of that point along the line. The full claim has no condition on the inclination and on the grid lines; both are
needed, see the findings below. -/
theorem C66_foot_of_normal_partial (s : Side) (f : Fields) (φ ds : ℝ) (a : Fin 2 → ℝ) (h : Straight s f φ ds a) (hφ : 0 ≤ φ)
    (hvert : a 0 = 0) (q : ℤ → ℝ) (q₀ slope : ℝ) (hq : ∀ t : ℤ, q t = q₀ + slope * (t * ds)) (τ : ℝ)
    (hfoot : (f.x 0 s.toF 0 + τ * Real.cos φ - f.x 0 0 0) * Real.cos φ + (f.x 1 s.toF 0 + τ * Real.sin φ - f.x 1 0 0) * Real.sin φ = 0) :
    wallValue s f q = q₀ + slope * τ := by
  have sc := Real.sin_sq_add_cos_sq φ
  have hds := h.ds_pos.ne'
  rw [h.above 0 0, h.above 1 0, hvert] at hfoot
  have hτ : τ = - (a 1 * Real.sin φ) := by linear_combination hfoot - τ * sc
  rw [h.wallValue_eq, if_pos hφ, hq 0, hq (-1), hτ]
  push_cast
  field_simp
  ring

/-- **C66, finding: falling walls.** If the wall falls in the direction of increasing index the code steps to the wrong side: the
value is taken at the mirror image of the foot point. -/
theorem C66_falling_wall_wrong (s : Side) (f : Fields) (φ ds : ℝ) (a : Fin 2 → ℝ) (h : Straight s f φ ds a) (hφ : φ < 0)
    (hvert : a 0 = 0) (ha : a 1 ≠ 0) (q : ℤ → ℝ) (q₀ slope : ℝ) (hslope : slope ≠ 0) (hq : ∀ t : ℤ, q t = q₀ + slope * (t * ds)) (τ : ℝ)
    (hfoot : (f.x 0 s.toF 0 + τ * Real.cos φ - f.x 0 0 0) * Real.cos φ + (f.x 1 s.toF 0 + τ * Real.sin φ - f.x 1 0 0) * Real.sin φ = 0) :
    wallValue s f q = q₀ + slope * (-τ) ∧ wallValue s f q ≠ q₀ + slope * τ := by
  have sc := Real.sin_sq_add_cos_sq φ
  have hds := h.ds_pos.ne'
  rw [h.above 0 0, h.above 1 0, hvert] at hfoot
  have hτ : τ = - (a 1 * Real.sin φ) := by linear_combination hfoot - τ * sc
  have hs : Real.sin φ < 0 := Real.sin_neg_of_neg_of_neg_pi_lt hφ h.lower
  have key : wallValue s f q = q₀ + slope * (-τ) := by
    rw [h.wallValue_eq, if_neg (not_le.2 hφ), hq 0, hq 1, hτ]
    push_cast
    field_simp
    ring
  refine ⟨key, ?_⟩
  rw [key, hτ]
  intro e
  have : slope * a 1 * Real.sin φ = 0 := by linarith
  rcases mul_eq_zero.1 this with h' | h'
  · exact (mul_ne_zero hslope ha) h'
  · exact hs.ne h'

/-- **C66, finding: grid lines that leave the wall horizontally** (a wall of direction 0). The tangential displacement `a 0 * cos φ` is
ignored: whatever the inclination, the value of the interior point itself is taken. -/
theorem C66_horizontal_lines_wrong (s : Side) (f : Fields) (φ ds : ℝ) (a : Fin 2 → ℝ) (h : Straight s f φ ds a)
    (hhor : a 1 = 0) (ha : a 0 ≠ 0) (hc : Real.cos φ ≠ 0) (q : ℤ → ℝ) (q₀ slope : ℝ) (hslope : slope ≠ 0)
    (hq : ∀ t : ℤ, q t = q₀ + slope * (t * ds)) (τ : ℝ)
    (hfoot : (f.x 0 s.toF 0 + τ * Real.cos φ - f.x 0 0 0) * Real.cos φ + (f.x 1 s.toF 0 + τ * Real.sin φ - f.x 1 0 0) * Real.sin φ = 0) :
    wallValue s f q = q₀ ∧ wallValue s f q ≠ q₀ + slope * τ := by
  have sc := Real.sin_sq_add_cos_sq φ
  rw [h.above 0 0, h.above 1 0, hhor] at hfoot
  have hτ : τ = - (a 0 * Real.cos φ) := by linear_combination hfoot - τ * sc
  have key : wallValue s f q = q₀ := by
    rw [h.wallValue_eq, hhor, hq 0]; simp
  refine ⟨key, ?_⟩
  rw [key, hτ]
  intro e
  have : slope * a 0 * Real.cos φ = 0 := by linarith
  rcases mul_eq_zero.1 this with h' | h'
  · exact (mul_ne_zero hslope ha) h'
  · exact hc h'

/-- A straight wall with angle `φ` exists for every admissible angle, spacing and displacement. -/
example (s : Side) (φ ds : ℝ) (a : Fin 2 → ℝ) (hds : 0 < ds) (h1 : -Real.pi < φ) (h2 : φ ≤ Real.pi) :
    ∃ f : Fields, Straight s f φ ds a := by
  have hs : s.toF ≠ 0 := by cases s <;> simp [Side.toF]
  refine ⟨⟨fun _ _ => 1, fun _ _ _ => 1, fun _ _ => 1,
    fun j k t => t * ds * (if j = 0 then Real.cos φ else Real.sin φ) + if k = 0 then 0 else a j⟩, hds, h1, h2, ?_, ?_, ?_⟩
  · intro t; simp
  · intro t; simp
  · intro j t; simp [hs]

end OpenSBLI.Iw2
