import Verif.Model.Utilities
import Mathlib.Analysis.Real.Pi.Bounds
import Mathlib.Tactic.Ring
import Mathlib.Tactic.NormNum
import Mathlib.Tactic.Linarith
import Mathlib.Tactic.FieldSimp
import Mathlib.Tactic.Positivity
import Mathlib.Tactic.LinearCombination

/-!
# C56 Oblique shock relations

The jump conditions are stated with the Euler flux of the conservative variables through a front with normal `(nx, ny)`, written out below without reference
to the formulas of the code.
-/
namespace OpenSBLI.Util

/-- Pressure of a perfect gas from the conservative variables. -/
noncomputable def gasPressure (gama : ℝ) (q : ℝ × ℝ × ℝ × ℝ) : ℝ := (gama - 1) * (q.2.2.2 - (q.2.1 ^ 2 + q.2.2.1 ^ 2) / (2 * q.1))

/-- Euler flux of `(ρ, ρu, ρv, ρE)` through a front with normal `(nx, ny)`. -/
noncomputable def normalFlux (gama nx ny : ℝ) (q : ℝ × ℝ × ℝ × ℝ) : ℝ × ℝ × ℝ × ℝ :=
  let un := (q.2.1 * nx + q.2.2.1 * ny) / q.1
  let p := gasPressure gama q
  (q.1 * un, q.2.1 * un + p * nx, q.2.2.1 * un + p * ny, (q.2.2.2 + p) * un)

/-- The undisturbed flow along x for velocity one and density one: `p = 1/(γ M²)`, so that the Mach number is `M`. -/
noncomputable def upstream (gama M : ℝ) : ℝ × ℝ × ℝ × ℝ := (1, 1, 0, 1 / (gama * M ^ 2) / (gama - 1) + 1 / 2)

section lemmas

variable {M beta gama : ℝ}

theorem theta_facts (hM : 0 < M) (hg : 1 < gama) (hb0 : 0 < beta) (hb1 : beta < Real.pi / 2) :
    ∃ D : ℝ, 0 < D ∧ 0 < Real.cos (wedgeAngle M beta gama) ∧
      Real.sin (beta - wedgeAngle M beta gama) =
        Real.cos (wedgeAngle M beta gama) * ((M ^ 2 * Real.sin beta ^ 2 * (gama - 1) + 2) / (Real.sin beta * D)) ∧
      Real.cos (beta - wedgeAngle M beta gama) = Real.cos (wedgeAngle M beta gama) * (Real.cos beta * (M ^ 2 * (gama + 1)) / D) := by
  have hs : 0 < Real.sin beta := Real.sin_pos_of_pos_of_lt_pi hb0 (by linarith [Real.pi_pos])
  have hc : 0 < Real.cos beta := Real.cos_pos_of_mem_Ioo ⟨by linarith, hb1⟩
  have hcs := Real.sin_sq_add_cos_sq beta
  have h2 : Real.cos (2 * beta) = 1 - 2 * Real.sin beta ^ 2 := by rw [Real.cos_two_mul]; linarith
  have s1 : Real.sin beta ^ 2 ≤ 1 := by nlinarith [sq_nonneg (Real.cos beta)]
  set s := Real.sin beta
  set c := Real.cos beta
  have hD : 0 < M ^ 2 * (gama + (1 - 2 * s ^ 2)) + 2 := by
    have : 0 < gama + (1 - 2 * s ^ 2) := by linarith
    positivity
  refine ⟨M ^ 2 * (gama + (1 - 2 * s ^ 2)) + 2, hD, Real.cos_arctan_pos _, ?_⟩
  set D := M ^ 2 * (gama + (1 - 2 * s ^ 2)) + 2 with hDd
  have hT : Real.sin (wedgeAngle M beta gama) = 2 * c / s * (M ^ 2 * s ^ 2 - 1) / D * Real.cos (wedgeAngle M beta gama) := by
    have : Real.tan (wedgeAngle M beta gama) = 2 * c / s * (M ^ 2 * s ^ 2 - 1) / D := by
      rw [wedgeAngle, Real.tan_arctan, Real.cot_eq_cos_div_sin, h2]
      change 2 * (c / s) * (M ^ 2 * s ^ 2 - 1) / D = _
      ring
    have hct : Real.cos (wedgeAngle M beta gama) ≠ 0 := (Real.cos_arctan_pos _).ne'
    rw [← this, Real.tan_mul_cos hct]
  have hc2 : c ^ 2 = 1 - s ^ 2 := by linarith
  constructor
  · rw [Real.sin_sub, hT]
    rw [mul_div_assoc', eq_div_iff (by positivity)]
    change (s * Real.cos (wedgeAngle M beta gama) - c * (2 * c / s * (M ^ 2 * s ^ 2 - 1) / D * Real.cos (wedgeAngle M beta gama))) * (s * D) = _
    have : (s * Real.cos (wedgeAngle M beta gama) - c * (2 * c / s * (M ^ 2 * s ^ 2 - 1) / D * Real.cos (wedgeAngle M beta gama))) * (s * D) =
        Real.cos (wedgeAngle M beta gama) * (s ^ 2 * D - 2 * c ^ 2 * (M ^ 2 * s ^ 2 - 1)) := by
      field_simp
    rw [this, hc2, hDd]
    ring
  · rw [Real.cos_sub, hT]
    rw [mul_div_assoc', eq_div_iff (by positivity)]
    change (c * Real.cos (wedgeAngle M beta gama) + s * (2 * c / s * (M ^ 2 * s ^ 2 - 1) / D * Real.cos (wedgeAngle M beta gama))) * D = _
    have : (c * Real.cos (wedgeAngle M beta gama) + s * (2 * c / s * (M ^ 2 * s ^ 2 - 1) / D * Real.cos (wedgeAngle M beta gama))) * D =
        Real.cos (wedgeAngle M beta gama) * (c * D + 2 * c * (M ^ 2 * s ^ 2 - 1)) := by
      field_simp
    rw [this, hDd]
    ring

theorem post_velocity (hM : 0 < M) (hg : 1 < gama) (hb0 : 0 < beta) (hb1 : beta < Real.pi / 2) (U : ℝ) (hU : 0 < U) :
    postSpeed U M beta gama * Real.sin (beta - wedgeAngle M beta gama) = U * Real.sin beta / densityRatio M beta gama ∧
      postSpeed U M beta gama * Real.cos (beta - wedgeAngle M beta gama) = U * Real.cos beta ∧ 0 < densityRatio M beta gama ∧
      0 < Real.sin (beta - wedgeAngle M beta gama) := by
  obtain ⟨D, hD, hct, hsin, hcos⟩ := theta_facts hM hg hb0 hb1
  have hs : 0 < Real.sin beta := Real.sin_pos_of_pos_of_lt_pi hb0 (by linarith [Real.pi_pos])
  have hc : 0 < Real.cos beta := Real.cos_pos_of_mem_Ioo ⟨by linarith, hb1⟩
  have hg1 : 0 < gama - 1 := by linarith
  have pc : 0 < Real.cos (beta - wedgeAngle M beta gama) := by rw [hcos]; positivity
  have ps : 0 < Real.sin (beta - wedgeAngle M beta gama) := by rw [hsin]; positivity
  have hsp : postSpeed U M beta gama = U * Real.cos beta / Real.cos (beta - wedgeAngle M beta gama) := by
    rw [postSpeed]
    have e1 : Real.cos (1 / 2 * Real.pi - beta) = Real.sin beta := by
      rw [show 1 / 2 * Real.pi - beta = Real.pi / 2 - beta by ring, Real.cos_pi_div_two_sub]
    simp only [e1, Real.tan_eq_sin_div_cos]
    rw [show U * Real.sin beta * (Real.sin (beta - wedgeAngle M beta gama) / Real.cos (beta - wedgeAngle M beta gama)) /
        (Real.sin beta / Real.cos beta) * (U * Real.sin beta * (Real.sin (beta - wedgeAngle M beta gama) /
        Real.cos (beta - wedgeAngle M beta gama)) / (Real.sin beta / Real.cos beta)) +
        U * Real.sin beta / (Real.sin beta / Real.cos beta) * (U * Real.sin beta / (Real.sin beta / Real.cos beta)) =
        (U * Real.cos beta / Real.cos (beta - wedgeAngle M beta gama)) ^ 2 by
      field_simp
      exact Real.sin_sq_add_cos_sq _]
    exact Real.sqrt_sq (by positivity)
  refine ⟨?_, ?_, ?_, ps⟩
  · rw [hsp, hsin, hcos, densityRatio]
    field_simp
  · rw [hsp]; field_simp
  · rw [densityRatio]; positivity

end lemmas

/-! ## C56 -/

/-- C56: for every Mach number, ratio of specific heats above one and angle between zero and ninety degrees, the state returned for free-stream velocity
one has the same mass, momentum and energy flux through the front inclined at `β` as the undisturbed flow: the Rankine-Hugoniot conditions. The flow
is turned downwards, so the normal of the front is `(sin β, cos β)`. -/
theorem C56_rankine_hugoniot (M beta gama : ℝ) (hM : 0 < M) (hg : 1 < gama) (hb0 : 0 < beta) (hb1 : beta < Real.pi / 2) :
    normalFlux gama (Real.sin beta) (Real.cos beta) (conservativePost 1 M beta gama) =
      normalFlux gama (Real.sin beta) (Real.cos beta) (upstream gama M) := by
  obtain ⟨hn, ht, hr, -⟩ := post_velocity hM hg hb0 hb1 1 one_pos
  have hs : 0 < Real.sin beta := Real.sin_pos_of_pos_of_lt_pi hb0 (by linarith [Real.pi_pos])
  have hc : 0 < Real.cos beta := Real.cos_pos_of_mem_Ioo ⟨by linarith, hb1⟩
  have hcs := Real.sin_sq_add_cos_sq beta
  have htt := Real.sin_sq_add_cos_sq (wedgeAngle M beta gama)
  have hg1 : 0 < gama - 1 := by linarith
  rw [Real.sin_sub] at hn
  rw [Real.cos_sub] at ht
  rw [one_mul] at hn ht
  have hr0 : densityRatio M beta gama = ((gama + 1) * (M ^ 2 * Real.sin beta ^ 2)) / ((gama - 1) * M ^ 2 * Real.sin beta ^ 2 + 2) := rfl
  -- velocity components behind the front
  generalize hq : postSpeed 1 M beta gama = q at hn ht
  simp only [conservativePost, hq]
  generalize hcth : Real.cos (wedgeAngle M beta gama) = ct at *
  generalize hsth : Real.sin (wedgeAngle M beta gama) = st at *
  generalize hrho : densityRatio M beta gama = r at *
  have hP : pressureRatio M beta gama = 1 + (2 * gama) / (gama + 1) * (M ^ 2 * Real.sin beta ^ 2 - 1) := rfl
  generalize pressureRatio M beta gama = P at *
  generalize Real.sin beta = s at *
  generalize Real.cos beta = c at *
  -- the momentum behind the front
  have hu : q * ct = s * (s / r) + c * c := by
    linear_combination s * hn + c * ht - q * ct * hcs
  have hv : q * st = s * c - c * (s / r) := by
    linear_combination s * ht - c * hn - q * st * hcs
  have hE : (r * q * ct) ^ 2 + (-r * q * st) ^ 2 = r ^ 2 * ((q * ct) ^ 2 + (q * st) ^ 2) := by ring
  have hq2 : (q * ct) ^ 2 + (q * st) ^ 2 = (s / r) ^ 2 + c ^ 2 := by
    rw [hu, hv]; linear_combination ((s / r) ^ 2 + c ^ 2) * hcs
  have hp2 : gasPressure gama (r, r * q * ct, -r * q * st, P * (1 / (gama * M ^ 2)) / (gama - 1) + 1 / 2 / r * ((r * q * ct) ^ 2 + (-r * q * st) ^ 2)) =
      P * (1 / (gama * M ^ 2)) := by
    simp only [gasPressure]
    field_simp
    ring
  have hp1 : gasPressure gama (upstream gama M) = 1 / (gama * M ^ 2) := by
    simp only [gasPressure, upstream]
    field_simp
    ring
  have hun : (r * q * ct * s + -r * q * st * c) / r = s / r := by
    rw [div_eq_iff hr.ne', div_mul_cancel₀ _ hr.ne']
    have : r * q * ct * s + -r * q * st * c = r * (q * (s * ct - c * st)) := by ring
    rw [this, hn]; field_simp
  have hc2 : c ^ 2 = 1 - s ^ 2 := by linarith
  have mom : r * (s / r) ^ 2 + P * (1 / (gama * M ^ 2)) = s ^ 2 + 1 / (gama * M ^ 2) := by
    rw [hP, hr0]; field_simp; ring
  have en : gama / (gama - 1) * (P * (1 / (gama * M ^ 2))) / r + (s / r) ^ 2 / 2 = 1 / (gama * M ^ 2) * (gama / (gama - 1)) + s ^ 2 / 2 := by
    rw [hP, hr0]; field_simp; ring
  simp only [normalFlux, hun, hp2, hp1]
  simp only [upstream, Prod.mk.injEq]
  refine ⟨?_, ?_, ?_, ?_⟩
  · field_simp
    ring
  · have e : r * q * ct * (s / r) = s * (q * ct) := by field_simp
    have hsr : r * (s / r) ^ 2 = s * (s / r) := by field_simp
    rw [hsr] at mom
    rw [e, hu]
    linear_combination s * mom + s * hc2
  · have e : -r * q * st * (s / r) = -(s * (q * st)) := by field_simp
    have hsr : r * (s / r) ^ 2 = s * (s / r) := by field_simp
    rw [hsr] at mom
    rw [e, hv]
    linear_combination c * mom
  · have e : (P * (1 / (gama * M ^ 2)) / (gama - 1) + 1 / 2 / r * ((r * q * ct) ^ 2 + (-r * q * st) ^ 2) + P * (1 / (gama * M ^ 2))) * (s / r) =
        s * (gama / (gama - 1) * (P * (1 / (gama * M ^ 2))) / r + ((s / r) ^ 2 + c ^ 2) / 2) := by
      rw [hE, hq2]; field_simp; ring
    rw [e]
    have e2 : (1 / (gama * M ^ 2) / (gama - 1) + 1 / 2 + 1 / (gama * M ^ 2)) * ((1 * s + 0 * c) / 1) =
        s * (1 / (gama * M ^ 2) * (gama / (gama - 1)) + 1 / 2) := by
      field_simp; ring
    rw [e2]
    linear_combination s * en + s * hc2 / 2

/-- C56: the two functions return the same state. -/
theorem C56_primitive (U M beta gama : ℝ) :
    let q := conservativePost U M beta gama
    let w := primitivePost U M beta gama
    q.1 = w.1 ∧ q.2.1 = w.1 * w.2.1 ∧ q.2.2.1 = w.1 * w.2.2.1 ∧
      (w.1 ≠ 0 → q.2.2.2 = w.2.2.2 / (gama - 1) + 1 / 2 * w.1 * (w.2.1 ^ 2 + w.2.2.1 ^ 2)) := by
  refine ⟨rfl, by simp only [conservativePost, primitivePost]; ring, by simp only [conservativePost, primitivePost]; ring, fun h => ?_⟩
  simp only [conservativePost, primitivePost] at h ⊢
  field_simp

/-- C56: the flow behind the front is compressed exactly when the wave angle exceeds the Mach angle. -/
theorem C56_compression_iff (M beta gama : ℝ) (hM : 0 < M) (hg : 1 < gama) (hb0 : 0 < beta) (hb1 : beta < Real.pi / 2) :
    (1 < pressureRatio M beta gama ↔ 1 < M * Real.sin beta) ∧ (1 < densityRatio M beta gama ↔ 1 < M * Real.sin beta) ∧
      (1 ≤ M → (1 < M * Real.sin beta ↔ Real.arcsin (1 / M) < beta)) := by
  have hs : 0 < Real.sin beta := Real.sin_pos_of_pos_of_lt_pi hb0 (by linarith [Real.pi_pos])
  have hms : 0 < M * Real.sin beta := by positivity
  have hg1 : 0 < gama - 1 := by linarith
  have key : 1 < M * Real.sin beta ↔ 0 < M ^ 2 * Real.sin beta ^ 2 - 1 := by
    rw [← mul_pow]
    constructor
    · intro h; nlinarith
    · intro h; by_contra hh; push Not at hh; nlinarith
  refine ⟨?_, ?_, ?_⟩
  · rw [key, pressureRatio]
    have : 0 < 2 * gama / (gama + 1) := by positivity
    rw [lt_add_iff_pos_right]
    exact ⟨fun h => (pos_iff_pos_of_mul_pos h).mp this, fun h => mul_pos this h⟩
  · rw [key, densityRatio, one_lt_div (by positivity)]
    constructor <;> intro h <;> nlinarith
  · intro h1
    rw [Real.arcsin_lt_iff_lt_sin' (show beta ∈ Set.Ioc (-(Real.pi / 2)) (Real.pi / 2) from ⟨by linarith [Real.pi_pos], hb1.le⟩), div_lt_iff₀ hM, mul_comm]

/-- C56: the Mach number reported behind the front is the speed over the speed of sound of the state returned, as long as its pressure is positive. -/
theorem C56_post_mach (M beta gama : ℝ) (hM : 0 < M) (hg : 1 < gama) (hb0 : 0 < beta) (hb1 : beta < Real.pi / 2)
    (hp : 0 < pressureRatio M beta gama) :
    postMach M beta gama = postSpeed 1 M beta gama /
      Real.sqrt (gama * (primitivePost 1 M beta gama).2.2.2 / (primitivePost 1 M beta gama).1) := by
  obtain ⟨hn, -, hr, hsp⟩ := post_velocity hM hg hb0 hb1 1 one_pos
  have hs : 0 < Real.sin beta := Real.sin_pos_of_pos_of_lt_pi hb0 (by linarith [Real.pi_pos])
  have hg1 : 0 < gama - 1 := by linarith
  have hspeed : postSpeed 1 M beta gama = Real.sin beta / densityRatio M beta gama / Real.sin (beta - wedgeAngle M beta gama) := by
    rw [eq_div_iff hsp.ne', hn, one_mul]
  rw [hspeed, postMach]
  simp only [primitivePost]
  have e : pressureRatio M beta gama = 2 / (gama + 1) * (gama * M ^ 2 * Real.sin beta ^ 2 - 1 / 2 * (gama - 1)) := by
    rw [pressureRatio]; field_simp; ring
  have hden : 0 < gama * M ^ 2 * Real.sin beta ^ 2 - 1 / 2 * (gama - 1) := by
    rw [e] at hp
    exact (pos_iff_pos_of_mul_pos hp).mp (by positivity)
  rw [div_right_comm, one_div_mul_eq_div]
  congr 1
  rw [eq_div_iff (Real.sqrt_pos.mpr (by positivity)).ne', ← Real.sqrt_mul (by positivity)]
  rw [Real.sqrt_eq_iff_mul_self_eq (by positivity) (by positivity)]
  rw [e, densityRatio]
  generalize gama * M ^ 2 * Real.sin beta ^ 2 - 1 / 2 * (gama - 1) = X at hden
  field_simp
  ring

/-- C56: the temperature ratio is that of a perfect gas. -/
theorem C56_temperature (M beta gama : ℝ) : temperatureRatio M beta gama = pressureRatio M beta gama / densityRatio M beta gama := by
  rw [temperatureRatio, mul_one_div]

/-- C56 (finding): the check compares an angle in degrees with an angle in radians, so that every wave angle of at least two degrees passes, including
angles below the Mach angle: at Mach 2 (Mach angle 30°) an angle of 20° is accepted and the "shock" expands the flow. -/
theorem C56_check_units :
    (∀ waveAngle M : ℝ, 2 ≤ waveAngle → shockAccepts waveAngle M) ∧
      shockAccepts 20 2 ∧ ¬ (Real.arcsin (1 / 2) < rad 20) ∧ pressureRatio 2 (rad 20) (7 / 5) < 1 := by
  have all : ∀ waveAngle M : ℝ, 2 ≤ waveAngle → shockAccepts waveAngle M := by
    intro w M hw h
    have := Real.arcsin_le_pi_div_two (1 / M)
    have := Real.pi_lt_d2
    linarith
  have hpi := Real.pi_pos
  have hr : rad 20 = Real.pi / 9 := by rw [rad]; ring
  have hsin : Real.sin (rad 20) < 1 / 2 := by
    rw [← Real.sin_pi_div_six, hr]
    exact Real.sin_lt_sin_of_lt_of_le_pi_div_two (by linarith) (by linarith) (by linarith)
  have hsp : 0 < Real.sin (rad 20) := by
    rw [hr]; exact Real.sin_pos_of_pos_of_lt_pi (by positivity) (by linarith)
  refine ⟨all, all 20 2 (by norm_num), ?_, ?_⟩
  · rw [Real.arcsin_lt_iff_lt_sin' (show rad 20 ∈ Set.Ioc (-(Real.pi / 2)) (Real.pi / 2) from by rw [hr]; exact ⟨by linarith, by linarith⟩)]
    linarith
  · rw [pressureRatio]
    nlinarith

/-- C56, partial: what the check does guarantee is only that the number of degrees is at least the Mach angle in radians. The full property, that
accepted angles are at least the Mach angle, is false (`C56_check_units`). Angles above the Mach angle are always accepted. -/
theorem C56_check_partial (waveAngle M : ℝ) (h0 : 0 ≤ waveAngle) (h : Real.arcsin (1 / M) ≤ rad waveAngle) : shockAccepts waveAngle M := by
  intro hh
  have : rad waveAngle ≤ waveAngle := by
    rw [rad]
    have := Real.pi_lt_d2
    nlinarith
  linarith

/-- C56 (finding): the pressure ahead of the front is taken as `1/(γ M²)` whatever the free-stream velocity, so that for other velocities the momentum flux is
not conserved: velocity 2, Mach 2, γ = 7/5, β = 45°. -/
theorem C56_velocity_not_scaled :
    let q := conservativePost 2 2 (Real.pi / 4) (7 / 5)
    let s := Real.sin (Real.pi / 4)
    q.1 * ((q.2.1 * s + q.2.2.1 * s) / q.1) ^ 2 + gasPressure (7 / 5) q ≠ 1 * (2 * s) ^ 2 + 1 / ((7 / 5) * 2 ^ 2) := by
  intro q s
  have hpi := Real.pi_pos
  obtain ⟨hn, -, hr, -⟩ := post_velocity (M := 2) (beta := Real.pi / 4) (gama := 7 / 5) (by norm_num) (by norm_num) (by linarith) (by linarith) 2 (by norm_num)
  have s2 : s ^ 2 = 1 / 2 := by
    simp only [s, Real.sin_pi_div_four]
    rw [div_pow, Real.sq_sqrt (by norm_num)]
    norm_num
  have cs : Real.cos (Real.pi / 4) = s := by simp only [s, Real.sin_pi_div_four, Real.cos_pi_div_four]
  have hrho : densityRatio 2 (Real.pi / 4) (7 / 5) = 12 / 7 := by
    rw [densityRatio]
    change (7 / 5 + 1) * ((2 : ℝ) ^ 2 * s ^ 2) / ((7 / 5 - 1) * 2 ^ 2 * s ^ 2 + 2) = 12 / 7
    rw [s2]; norm_num
  have hP : pressureRatio 2 (Real.pi / 4) (7 / 5) = 13 / 6 := by
    rw [pressureRatio]
    change 1 + 2 * (7 / 5 : ℝ) / (7 / 5 + 1) * (2 ^ 2 * s ^ 2 - 1) = 13 / 6
    rw [s2]; norm_num
  have hgp : gasPressure (7 / 5) q = 13 / 6 * (1 / (7 / 5 * 2 ^ 2)) := by
    simp only [q, gasPressure, conservativePost, hrho, hP]
    field_simp
    ring
  have hun : (q.2.1 * s + q.2.2.1 * s) / q.1 = 2 * s * (7 / 12) := by
    rw [Real.sin_sub, cs] at hn
    change _ = 2 * s / densityRatio 2 (Real.pi / 4) (7 / 5) at hn
    simp only [q, conservativePost]
    rw [hrho] at hn ⊢
    have hn' : postSpeed 2 2 (Real.pi / 4) (7 / 5) * (s * Real.cos (wedgeAngle 2 (Real.pi / 4) (7 / 5)) - s * Real.sin (wedgeAngle 2 (Real.pi / 4) (7 / 5))) =
      2 * s / (12 / 7) := hn
    field_simp at hn' ⊢
    linarith
  have hq1 : q.1 = 12 / 7 := hrho
  rw [hun, hgp, hq1]
  have : (2 * s * (7 / 12)) ^ 2 = 49 / 36 * s ^ 2 := by ring
  rw [this, mul_pow, s2]
  norm_num

/-- A Mach 2 flow meeting a front at 45°: the hypotheses hold, and the pressure rises by 13/6. -/
example : (0 : ℝ) < 2 ∧ (1 : ℝ) < 7 / 5 ∧ 0 < Real.pi / 4 ∧ Real.pi / 4 < Real.pi / 2 ∧ pressureRatio 2 (Real.pi / 4) (7 / 5) = 13 / 6 := by
  have hpi := Real.pi_pos
  refine ⟨by norm_num, by norm_num, by linarith, by linarith, ?_⟩
  rw [pressureRatio, Real.sin_pi_div_four, div_pow, Real.sq_sqrt (by norm_num)]
  norm_num

end OpenSBLI.Util
