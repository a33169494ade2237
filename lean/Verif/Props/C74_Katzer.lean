import Verif.Model.Katzer
import Mathlib.Tactic.LinearCombination
import Mathlib.Tactic.FieldSimp
import Mathlib.Tactic.Linarith
import Mathlib.Analysis.Calculus.Deriv.Inv
import Mathlib.Algebra.BigOperators.Intervals

/-!
# C74 boundary-layer initialisation
-/
namespace OpenSBLI.Katzer
open Function

/-! ## The similarity equations -/

/-- Sutherland's law relative to the free stream divided by temperature, with the density ratio `1/g`: `C = ρμ`. -/
noncomputable def chapman (S g : ℝ) : ℝ := g ^ (3 / 2 : ℝ) * ((1 + S) / (g + S)) * (1 / g)

theorem chapman_eq (S g : ℝ) (hg : 0 < g) : cOf S g = chapman S g := by
  have h : g ^ (3 / 2 : ℝ) = g * Real.sqrt g := by
    rw [show (3 / 2 : ℝ) = 1 + 1 / 2 by norm_num, Real.rpow_add hg, Real.rpow_one, Real.sqrt_eq_rpow]
  rw [cOf, chapman, h]
  field_simp

theorem hasDerivAt_cOf (S g : ℝ) (hg : 0 < g) (hS : g + S ≠ 0) : HasDerivAt (cOf S) (dcdg S g) g := by
  have h1 := (Real.hasDerivAt_sqrt hg.ne').mul_const (1 + S)
  have h2 : HasDerivAt (fun x : ℝ => x + S) 1 g := (hasDerivAt_id g).add_const S
  have h3 := h1.div h2 hS
  have hs : Real.sqrt g ≠ 0 := (Real.sqrt_pos.2 hg).ne'
  have e : (1 / (2 * Real.sqrt g) * (1 + S) * (g + S) - Real.sqrt g * (1 + S) * 1) / (g + S) ^ 2 = dcdg S g := by
    rw [dcdg]; field_simp
  rw [e] at h3
  exact h3

/-- **C74, equations.** Whatever integrates the system of `compbl` satisfies the compressible boundary-layer similarity equations `(C f'')' + f f'' = 0` and `(C g')' + Pr f g' + Pr (γ-1) M² C f''² = 0` (White 1974,
eq. 7.32), with `C = ρμ` from Sutherland's law, at every point with positive temperature. -/
theorem C74_similarity_equations (p : Params) (v : ℝ → Fin 5 → ℝ) (x : ℝ) (hv : ∀ i, HasDerivAt (fun x => v x i) (compbl p (v x) i) x)
    (hT : ∀ x, 0 < v x 3) (hS : 0 < p.suth) :
    HasDerivAt (fun x => v x 0) (v x 1) x ∧ HasDerivAt (fun x => v x 1) (v x 2) x ∧ HasDerivAt (fun x => v x 3) (v x 4) x ∧
    HasDerivAt (fun x => chapman p.suth (v x 3) * v x 2) (-(v x 0 * v x 2)) x ∧
    HasDerivAt (fun x => chapman p.suth (v x 3) * v x 4) (-(p.pr * v x 0 * v x 4) - p.pr * (p.gama - 1) * p.xmach ^ 2 * chapman p.suth (v x 3) * v x 2 ^ 2) x := by
  have h0 := hv 0
  have h1 := hv 1
  have h2 := hv 2
  have h3 := hv 3
  have h4 := hv 4
  have hc : HasDerivAt (fun x => cOf p.suth (v x 3)) (dcdg p.suth (v x 3) * v x 4) x := by
    rw [show compbl p (v x) 3 = v x 4 by simp [compbl]] at h3
    exact (hasDerivAt_cOf p.suth (v x 3) (hT x) (by have := hT x; linarith)).comp x h3
  have hc0 : cOf p.suth (v x 3) ≠ 0 := by
    have h5 := hT x
    have h6 := Real.sqrt_pos.2 h5
    rw [cOf]
    positivity
  have e : (fun x => chapman p.suth (v x 3)) = fun x => cOf p.suth (v x 3) := by
    funext y; exact (chapman_eq _ _ (hT y)).symm
  have e' : ∀ y, chapman p.suth (v y 3) = cOf p.suth (v y 3) := fun y => congrFun e y
  refine ⟨by simpa [compbl] using h0, by simpa [compbl] using h1, by simpa [compbl] using h3, ?_, ?_⟩
  · simp only [e']
    have h5 := hc.mul h2
    have : dcdg p.suth (v x 3) * v x 4 * v x 2 + cOf p.suth (v x 3) * compbl p (v x) 2 = -(v x 0 * v x 2) := by
      simp [compbl]; field_simp; ring
    rw [this] at h5; exact h5
  · simp only [e']
    have h5 := hc.mul h4
    have : dcdg p.suth (v x 3) * v x 4 * v x 4 + cOf p.suth (v x 3) * compbl p (v x) 4 =
        -(p.pr * v x 0 * v x 4) - p.pr * (p.gama - 1) * p.xmach ^ 2 * cOf p.suth (v x 3) * v x 2 ^ 2 := by
      simp [compbl]; field_simp; ring
    rw [this] at h5; exact h5

/-! ## Shooting -/

variable {P : Type}

/-- Start values of an adiabatic wall: no velocity, no heat flux. -/
def wallValues (shear temperature : ℝ) : Fin 5 → ℝ := ![0, 0, shear, temperature, 0]

/-- A pass either accepts the current estimate or makes the step solving the secant equations. -/
theorem pass_vstart (p : Params) (hT : p.Tw < 0) (solve : (Fin 5 → ℝ) → P) (uEnd TEnd : P → ℝ) (s : Shoot P) (hs : ∀ i : Fin 5, i ≠ 2 → i ≠ 3 → s.vstart i = 0) :
    ∀ s', pass p solve uEnd TEnd s = .inl s' ∨ pass p solve uEnd TEnd s = .inr s' → ∀ i : Fin 5, i ≠ 2 → i ≠ 3 → s'.vstart i = 0 := by
  intro s' h i h2 h3
  unfold pass at h
  simp only [slot, hT, if_true] at h
  split at h
  · rcases h with h | h
    · cases h; simp [update_of_ne h2, update_of_ne h3, hs i h2 h3]
    · cases h
  · rcases h with h | h
    · cases h
    · cases h; simp [update_of_ne h2, update_of_ne h3, hs i h2 h3]

theorem vstart_eq (vs : Fin 5 → ℝ) (hs : ∀ i : Fin 5, i ≠ 2 → i ≠ 3 → vs i = 0) (a b : ℝ) : update (update vs 2 a) 3 b = wallValues a b := by
  funext i
  by_cases h3 : i = 3
  · subst h3; simp [wallValues]
  by_cases h2 : i = 2
  · subst h2; simp [wallValues]
  rw [update_of_ne h3, update_of_ne h2, hs i h2 h3]
  fin_cases i <;> simp_all [wallValues]

/-- Residual of the conditions `u = 1`, `T = 1` in the free stream, for an adiabatic wall. -/
noncomputable def residual (solve : (Fin 5 → ℝ) → P) (uEnd TEnd : P → ℝ) (shear temperature : ℝ) : ℝ × ℝ :=
  (uEnd (solve (wallValues shear temperature)) - 1, TEnd (solve (wallValues shear temperature)) - 1)

theorem pass_adiabatic (p : Params) (hT : p.Tw < 0) (solve : (Fin 5 → ℝ) → P) (uEnd TEnd : P → ℝ) (s : Shoot P) (hs : ∀ i : Fin 5, i ≠ 2 → i ≠ 3 → s.vstart i = 0) :
    let f := residual solve uEnd TEnd s.v0 s.v1
    let f1 := residual solve uEnd TEnd (s.v0 + s.dv0) s.v1
    let f2 := residual solve uEnd TEnd s.v0 (s.v1 + s.dv1)
    let al11 := (f1.1 - f.1) / s.dv0
    let al21 := (f1.2 - f.2) / s.dv0
    let al12 := (f2.1 - f.1) / s.dv1
    let al22 := (f2.2 - f.2) / s.dv1
    let det := al11 * al22 - al21 * al12
    let dv0 := (-al22 * f.1 + al12 * f.2) / det
    let dv1 := (al21 * f.1 - al11 * f.2) / det
    pass p solve uEnd TEnd s = if |f.1| + |f.2| < 1 / 10 ^ 10 then .inl { s with vstart := wallValues s.v0 s.v1, soln := solve (wallValues s.v0 s.v1) }
      else .inr ⟨wallValues s.v0 (s.v1 + s.dv1), s.v0 + dv0, s.v1 + dv1, dv0, dv1, solve (wallValues s.v0 (s.v1 + s.dv1))⟩ := by
  have e0 := vstart_eq s.vstart hs s.v0 s.v1
  have h0 : ∀ a b : ℝ, ∀ i : Fin 5, i ≠ 2 → i ≠ 3 → wallValues a b i = 0 := by
    intro a b i h2 h3
    fin_cases i <;> simp_all [wallValues]
  have e1 := vstart_eq _ (h0 s.v0 s.v1) (s.v0 + s.dv0) s.v1
  have e2 := vstart_eq _ (h0 (s.v0 + s.dv0) s.v1) s.v0 (s.v1 + s.dv1)
  simp only [pass, slot, hT, if_true, e0, e1, e2, residual]
  by_cases h : |uEnd (solve (wallValues s.v0 s.v1)) - 1| + |TEnd (solve (wallValues s.v0 s.v1)) - 1| < 1 / 10 ^ 10
  · exact (@if_pos _ _ h _ _ _).trans (@if_pos _ _ h _ _ _).symm
  · exact (@if_neg _ _ h _ _ _).trans (@if_neg _ _ h _ _ _).symm

/-- Start of the iteration for an adiabatic wall. -/
theorem start_adiabatic (p : Params) (hT : p.Tw < 0) (empty : P) (i : Fin 5) : (start p empty).vstart i = 0 := by
  simp [start, hT.le.not_gt]

theorem shoot_cases (p : Params) (hT : p.Tw < 0) (solve : (Fin 5 → ℝ) → P) (uEnd TEnd : P → ℝ) (k : ℕ) :
    ∀ s : Shoot P, (∀ i : Fin 5, i ≠ 2 → i ≠ 3 → s.vstart i = 0) →
    let r := shoot p solve uEnd TEnd (k + 1) s
    (r.soln = solve (wallValues r.v0 r.v1) ∧ |(residual solve uEnd TEnd r.v0 r.v1).1| + |(residual solve uEnd TEnd r.v0 r.v1).2| < 1 / 10 ^ 10) ∨
    ∃ q : Shoot P, pass p solve uEnd TEnd q = .inr r ∧ (∀ i : Fin 5, i ≠ 2 → i ≠ 3 → q.vstart i = 0) ∧ r.soln = solve (wallValues q.v0 (q.v1 + q.dv1)) := by
  induction k with
  | zero =>
    intro s hs
    have hp := pass_adiabatic p hT solve uEnd TEnd s hs
    simp only at hp
    simp only [shoot]
    by_cases h : |(residual solve uEnd TEnd s.v0 s.v1).1| + |(residual solve uEnd TEnd s.v0 s.v1).2| < 1 / 10 ^ 10
    · rw [if_pos h] at hp
      rw [hp]
      exact Or.inl ⟨rfl, h⟩
    · rw [if_neg h] at hp
      rw [hp]
      exact Or.inr ⟨s, hp, hs, rfl⟩
  | succ k ih =>
    intro s hs
    have hp := pass_adiabatic p hT solve uEnd TEnd s hs
    simp only at hp
    rw [shoot]
    by_cases h : |(residual solve uEnd TEnd s.v0 s.v1).1| + |(residual solve uEnd TEnd s.v0 s.v1).2| < 1 / 10 ^ 10
    · rw [if_pos h] at hp
      rw [hp]
      exact Or.inl ⟨rfl, h⟩
    · rw [if_neg h] at hp
      rw [hp]
      exact ih _ (pass_vstart p hT solve uEnd TEnd s hs _ (Or.inr hp))

/-- **C74, accepted profile.** For an adiabatic wall, whatever the solver does: either the profile kept is the one integrated from the wall values found, its wall temperature is the `Twall` recorded, it starts from rest
without heat flux, and it meets the free stream `u = T = 1` to 1e-10; or five iterations were not enough. -/
theorem C74_profile_partial (p : Params) (hT : p.Tw < 0) (solve : (Fin 5 → ℝ) → P) (uEnd TEnd : P → ℝ) (empty : P) :
    (∃ shear, (similarity p solve uEnd TEnd empty).1 = solve (wallValues shear (similarity p solve uEnd TEnd empty).2) ∧
      |uEnd (similarity p solve uEnd TEnd empty).1 - 1| + |TEnd (similarity p solve uEnd TEnd empty).1 - 1| < 1 / 10 ^ 10) ∨
    ∃ shear temperature dT : ℝ, 1 / 10 ^ 10 ≤ |uEnd (solve (wallValues shear temperature)) - 1| + |TEnd (solve (wallValues shear temperature)) - 1| ∧
      (similarity p solve uEnd TEnd empty).1 = solve (wallValues shear (temperature + dT)) := by
  rcases shoot_cases p hT solve uEnd TEnd 4 (start p empty) (fun i _ _ => start_adiabatic p hT empty i) with ⟨h1, h2⟩ | ⟨q, h1, h2, h3⟩
  · left
    refine ⟨_, h1, ?_⟩
    have e : (similarity p solve uEnd TEnd empty).1 = solve (wallValues _ _) := h1
    rw [e]; exact h2
  · right
    refine ⟨q.v0, q.v1, q.dv1, ?_, h3⟩
    have hp := pass_adiabatic p hT solve uEnd TEnd q h2
    simp only at hp
    rw [h1] at hp
    by_contra hn
    rw [if_pos (by simpa [residual] using hn)] at hp
    cases hp

/-- **C74, step.** A pass that does not accept solves the two secant equations exactly: the predicted residual after the step is zero. -/
theorem C74_secant_step (p : Params) (hT : p.Tw < 0) (solve : (Fin 5 → ℝ) → P) (uEnd TEnd : P → ℝ) (s s' : Shoot P) (hs : ∀ i : Fin 5, i ≠ 2 → i ≠ 3 → s.vstart i = 0)
    (h : pass p solve uEnd TEnd s = .inr s') (h0 : s.dv0 ≠ 0) (h1 : s.dv1 ≠ 0) (F : ℝ → ℝ → ℝ × ℝ) (hF : F = residual solve uEnd TEnd)
    (hdet : ((F (s.v0 + s.dv0) s.v1).1 - (F s.v0 s.v1).1) * ((F s.v0 (s.v1 + s.dv1)).2 - (F s.v0 s.v1).2) ≠
      ((F (s.v0 + s.dv0) s.v1).2 - (F s.v0 s.v1).2) * ((F s.v0 (s.v1 + s.dv1)).1 - (F s.v0 s.v1).1)) :
    (F s.v0 s.v1).1 + ((F (s.v0 + s.dv0) s.v1).1 - (F s.v0 s.v1).1) / s.dv0 * (s'.v0 - s.v0) + ((F s.v0 (s.v1 + s.dv1)).1 - (F s.v0 s.v1).1) / s.dv1 * (s'.v1 - s.v1) = 0 ∧
    (F s.v0 s.v1).2 + ((F (s.v0 + s.dv0) s.v1).2 - (F s.v0 s.v1).2) / s.dv0 * (s'.v0 - s.v0) + ((F s.v0 (s.v1 + s.dv1)).2 - (F s.v0 s.v1).2) / s.dv1 * (s'.v1 - s.v1) = 0 := by
  have hp := pass_adiabatic p hT solve uEnd TEnd s hs
  simp only at hp
  rw [h, ← hF] at hp
  split at hp
  · cases hp
  cases hp
  generalize (F s.v0 s.v1).1 = f0 at *
  generalize (F s.v0 s.v1).2 = f1 at *
  generalize (F (s.v0 + s.dv0) s.v1).1 = a0 at *
  generalize (F (s.v0 + s.dv0) s.v1).2 = a1 at *
  generalize (F s.v0 (s.v1 + s.dv1)).1 = b0 at *
  generalize (F s.v0 (s.v1 + s.dv1)).2 = b1 at *
  have hd : (a0 - f0) / s.dv0 * ((b1 - f1) / s.dv1) - (a1 - f1) / s.dv0 * ((b0 - f0) / s.dv1) ≠ 0 := by
    intro e
    apply hdet
    field_simp at e
    linarith
  generalize (a0 - f0) / s.dv0 = A at *
  generalize (b1 - f1) / s.dv1 = D at *
  generalize (a1 - f1) / s.dv0 = C at *
  generalize (b0 - f0) / s.dv1 = B at *
  have hX : (-D * f0 + B * f1) / (A * D - C * B) * (A * D - C * B) = -D * f0 + B * f1 := div_mul_cancel₀ _ hd
  have hY : (C * f0 - A * f1) / (A * D - C * B) * (A * D - C * B) = C * f0 - A * f1 := div_mul_cancel₀ _ hd
  generalize (-D * f0 + B * f1) / (A * D - C * B) = X at *
  generalize (C * f0 - A * f1) / (A * D - C * B) = Y at *
  constructor
  · apply mul_left_cancel₀ hd
    linear_combination A * hX + B * hY
  · apply mul_left_cancel₀ hd
    linear_combination C * hX + D * hY

theorem start_pos (p : Params) (hT : p.Tw < 0) (hg : 1 ≤ p.gama) (empty : P) : 0 < (start p empty).v0 ∧ 0 < (start p empty).v1 ∧ 0 < (start p empty).dv0 ∧ 0 < (start p empty).dv1 := by
  have h1 : 0 < 1 + 0.5 * 0.84 * (p.gama - 1) * p.xmach ^ 2 := by
    have : 0 ≤ p.gama - 1 := by linarith
    positivity
  have h2 : 0 < 0.47 * (1 + 0.5 * 0.84 * (p.gama - 1) * p.xmach ^ 2) ^ (0.21 : ℝ) := by
    have := Real.rpow_pos_of_pos h1 0.21
    linarith
  simp only [start, hT.le.not_gt, hT, if_true, if_false]
  exact ⟨h2, h1, by linarith, by linarith⟩

/-- If the free stream values depend affinely on the wall values, the loop ends with the exact solution after at most one step. -/
theorem C74_affine_exact (p : Params) (hT : p.Tw < 0) (hg : 1 ≤ p.gama) (solve : (Fin 5 → ℝ) → P) (uEnd TEnd : P → ℝ) (empty : P) (a b c d e f : ℝ) (hdet : a * d ≠ b * c)
    (haff : ∀ s t, (uEnd (solve (wallValues s t)), TEnd (solve (wallValues s t))) = (a * s + b * t + e, c * s + d * t + f)) :
    |uEnd (similarity p solve uEnd TEnd empty).1 - 1| + |TEnd (similarity p solve uEnd TEnd empty).1 - 1| < 1 / 10 ^ 10 := by
  have hres : ∀ s t, residual solve uEnd TEnd s t = (a * s + b * t + e - 1, c * s + d * t + f - 1) := by
    intro s t
    have := haff s t
    rw [Prod.mk.injEq] at this
    rw [residual, this.1, this.2]
  obtain ⟨p0, p1, p2, p3⟩ := start_pos p hT hg empty
  have hs0 : ∀ i : Fin 5, i ≠ 2 → i ≠ 3 → (start p empty).vstart i = 0 := fun i _ _ => start_adiabatic p hT empty i
  have key : ∀ (k : ℕ) (s : Shoot P), (∀ i : Fin 5, i ≠ 2 → i ≠ 3 → s.vstart i = 0) → |(residual solve uEnd TEnd s.v0 s.v1).1| + |(residual solve uEnd TEnd s.v0 s.v1).2| < 1 / 10 ^ 10 →
      |uEnd (shoot p solve uEnd TEnd (k + 1) s).soln - 1| + |TEnd (shoot p solve uEnd TEnd (k + 1) s).soln - 1| < 1 / 10 ^ 10 := by
    intro k s hs h
    have hp := pass_adiabatic p hT solve uEnd TEnd s hs
    simp only at hp
    rw [if_pos h] at hp
    rw [shoot, hp]
    exact h
  generalize hst : start p empty = s at *
  by_cases h : |(residual solve uEnd TEnd s.v0 s.v1).1| + |(residual solve uEnd TEnd s.v0 s.v1).2| < 1 / 10 ^ 10
  · have := key 4 s hs0 h
    rw [similarity, hst]; exact this
  · have hp := pass_adiabatic p hT solve uEnd TEnd s hs0
    simp only at hp
    rw [if_neg h] at hp
    generalize hs' : (⟨wallValues s.v0 (s.v1 + s.dv1), _, _, _, _, solve (wallValues s.v0 (s.v1 + s.dv1))⟩ : Shoot P) = s' at hp
    have hstep := C74_secant_step p hT solve uEnd TEnd s s' hs0 hp p2.ne' p3.ne' _ rfl (by
      simp only [hres]
      intro h
      apply hdet
      have h' : (a * d - b * c) * (s.dv0 * s.dv1) = 0 := by linear_combination h
      rcases mul_eq_zero.1 h' with h' | h'
      · linarith
      · exact absurd h' (mul_ne_zero p2.ne' p3.ne'))
    simp only [hres] at hstep
    obtain ⟨q1, q2⟩ := hstep
    have r1 : a * s'.v0 + b * s'.v1 + e - 1 = 0 := by
      rw [← q1]; field_simp; ring
    have r2 : c * s'.v0 + d * s'.v1 + f - 1 = 0 := by
      rw [← q2]; field_simp; ring
    have := key 3 s' (pass_vstart p hT solve uEnd TEnd s hs0 s' (Or.inr hp)) (by rw [hres, r1, r2]; norm_num)
    rw [similarity, hst, shoot, hp]; exact this

/-- **Not converged.** If the conditions are never met, nothing is raised, and the profile kept is not the one of the final estimate: it was integrated from the trial wall temperature of the last pass. -/
theorem C74_unconverged_keeps_trial (p : Params) (hT : p.Tw < 0) (solve : (Fin 5 → ℝ) → P) (uEnd TEnd : P → ℝ) (empty : P)
    (hnever : ∀ vs, 1 / 10 ^ 10 ≤ |uEnd (solve vs) - 1| + |TEnd (solve vs) - 1|) :
    ∃ q s : Shoot P, pass p solve uEnd TEnd q = .inr s ∧ similarity p solve uEnd TEnd empty = (solve (wallValues q.v0 (q.v1 + q.dv1)), q.v1 + s.dv1) := by
  rcases shoot_cases p hT solve uEnd TEnd 4 (start p empty) (fun i _ _ => start_adiabatic p hT empty i) with ⟨-, h2⟩ | ⟨q, h1, h2, h3⟩
  · exact absurd h2 (not_lt.2 (hnever _))
  · refine ⟨q, _, h1, Prod.ext h3 ?_⟩
    have hp := pass_adiabatic p hT solve uEnd TEnd q h2
    simp only at hp
    rw [h1] at hp
    split at hp
    · cases hp
    · have := Sum.inr.inj hp
      show (shoot p solve uEnd TEnd 5 (start p empty)).v1 = _
      rw [this]

/-- **Fixed wall temperature.** For a given wall temperature the initial increment of the first unknown is zero, so the first row of the secant matrix is divided by zero. -/
theorem C74_isothermal_increment_zero (p : Params) (hT : 0 < p.Tw) (empty : P) : (start p empty).v0 = 0 ∧ (start p empty).dv0 = 0 := by
  simp [start, hT]

/-! ## Wall distance -/

/-- Trapezoidal rule on a uniform grid. -/
noncomputable def trapezoid (h : ℝ) (f : ℕ → ℝ) (n : ℕ) : ℝ := ∑ i ∈ Finset.range n, h * (f i + f (i + 1)) / 2

theorem zOf_eq (h : ℝ) (T : ℕ → ℝ) (n : ℕ) : zOf h T n = trapezoid h T n := by
  induction n with
  | zero => simp [zOf, trapezoid]
  | succ n ih => rw [zOf, ih, trapezoid, trapezoid, Finset.sum_range_succ]; ring

theorem sumd_eq (h : ℝ) (u T : ℕ → ℝ) (n : ℕ) : sumd h u T n = trapezoid h (fun i => T i - u i) n := by
  induction n with
  | zero => simp [sumd, trapezoid]
  | succ n ih => rw [sumd, ih, trapezoid, trapezoid, Finset.sum_range_succ]; ring

/-- **C74, wall distance.** The wall distance is the integral of the temperature over the similarity coordinate, in units of the displacement thickness, the integral of `T - u`; it starts at zero and increases strictly, as
the spline needs, as long as the temperature is positive and the flow is retarded somewhere. -/
theorem C74_wall_distance (h : ℝ) (hh : 0 < h) (u T : ℕ → ℝ) (n : ℕ) (hT : ∀ i, 0 < T i) (hd : 0 < trapezoid h (fun i => T i - u i) n) :
    (∀ i, yOf h u T n i = trapezoid h T i / trapezoid h (fun i => T i - u i) n) ∧ yOf h u T n 0 = 0 ∧ StrictMono (yOf h u T n) := by
  have e : ∀ i, yOf h u T n i = trapezoid h T i / trapezoid h (fun i => T i - u i) n := fun i => by rw [yOf, zOf_eq, sumd_eq]
  refine ⟨e, by rw [e]; simp [trapezoid], strictMono_nat_of_lt_succ fun i => ?_⟩
  rw [e, e]
  apply (div_lt_div_iff_of_pos_right hd).2
  rw [trapezoid, trapezoid, Finset.sum_range_succ]
  have := hT i
  have := hT (i + 1)
  have : 0 < h * (T i + T (i + 1)) / 2 := by positivity
  linarith

/-! ## Continuity -/

theorem delsx_one (re scale : ℝ) (hr : 0 < re) (hs : 0 < scale) : delsx re scale = 1 := by
  have h1 : Real.sqrt (0.5 * (re / scale) ^ 2) = re / scale / Real.sqrt 2 := by
    rw [Real.sqrt_mul (by norm_num), Real.sqrt_sq (by positivity), show (0.5 : ℝ) = 1 / 2 by norm_num, Real.sqrt_div (by norm_num), Real.sqrt_one]
    ring
  have h2 : Real.sqrt 2 ≠ 0 := (Real.sqrt_pos.2 (by norm_num)).ne'
  have h3 : Real.sqrt 2 ^ 2 = 2 := Real.sq_sqrt (by norm_num)
  rw [delsx, h1]
  field_simp
  rw [h3]; norm_num

/-- Momentum at distance `x` from the leading edge when it is `m` at distance `x0`: the profiles are similar in `y/√x`. -/
noncomputable def momentumAt (m : ℝ → ℝ) (x0 x y : ℝ) : ℝ := m (y / Real.sqrt (x / x0))

/-- Streamwise derivative of the momentum by a central difference. -/
noncomputable def streamwise (m : ℝ → ℝ) (x0 y : ℝ) : ℝ := (momentumAt m x0 (x0 + 0.001) y - momentumAt m x0 (x0 - 0.001) y) / (2 * 0.001)

theorem continuity_state (re scale : ℝ) (hr : 0 < re) (hs : 0 < scale) (m : ℝ → ℝ) (n : ℕ) (y : ℕ → ℝ) (h0 : y 0 = 0) (j : ℕ) (hj : j ≤ n) :
    (continuity re scale m n y j).1 = y ∧
    (continuity re scale m n y j).2.1 = (fun i => if i < j then streamwise m (0.5 * re / scale ^ 2) (y i) else 0) ∧
    (continuity re scale m n y j).2.2 = fun i => if i < j then -∑ k ∈ Finset.range i, (y (k + 1) - y k) * (streamwise m (0.5 * re / scale ^ 2) (y k) +
      streamwise m (0.5 * re / scale ^ 2) (y (k + 1))) / 2 else 0 := by
  have hd := delsx_one re scale hr hs
  have hdr : ∀ t, drudx re scale m t = streamwise m (0.5 * re / scale ^ 2) t := by
    intro t; simp only [drudx, hd, one_mul, streamwise, momentumAt]
  have hz : streamwise m (0.5 * re / scale ^ 2) (y 0) = 0 := by simp [streamwise, momentumAt, h0]
  induction j with
  | zero => simp [continuity, hd]
  | succ j ih =>
    obtain ⟨e1, e2, e3⟩ := ih (by omega)
    have hya : update y j (y j) = y := update_eq_self _ _
    simp only [continuity, e1, e2, e3, hd, one_mul, hya, hdr]
    refine ⟨trivial, ?_, ?_⟩
    · funext i
      by_cases hi : i = j
      · subst hi; simp
      · rw [update_of_ne hi]
        by_cases h : i < j
        · rw [if_pos h, if_pos (by omega)]
        · rw [if_neg h, if_neg (by omega)]
    · funext i
      by_cases hi : i = j
      · subst hi
        rw [update_self, if_pos (Nat.lt_succ_self i), update_self]
        cases i with
        | zero =>
          have hb : before n 0 = n - 1 := rfl
          rw [hb]
          by_cases hn : n - 1 = 0
          · rw [hn]; simp
          · rw [update_of_ne hn]; simp [hz]
        | succ i =>
          have hb : before n (i + 1) = i := rfl
          rw [hb, update_of_ne (by omega), if_pos (by omega), if_pos (by omega), Finset.sum_range_succ]
          ring
      · rw [update_of_ne hi]
        by_cases h : i < j
        · rw [if_pos h, if_pos (by omega)]
        · rw [if_neg h, if_neg (by omega)]

/-- **C74, continuity.** The wall-normal momentum is zero at the wall and minus the integral of the streamwise derivative of the momentum of similar profiles, by the trapezoidal rule; the Python index `-1` read at the wall is
harmless. -/
theorem C74_continuity (re scale : ℝ) (hr : 0 < re) (hs : 0 < scale) (m : ℝ → ℝ) (n : ℕ) (y : ℕ → ℝ) (h0 : y 0 = 0) (j : ℕ) (hj : j < n) :
    solveContinuity re scale m n y j = -∑ k ∈ Finset.range j, (y (k + 1) - y k) * (streamwise m (re / (2 * scale ^ 2)) (y k) + streamwise m (re / (2 * scale ^ 2)) (y (k + 1))) / 2 := by
  have e : 0.5 * re / scale ^ 2 = re / (2 * scale ^ 2) := by
    have := hs.ne'
    field_simp; norm_num
  rw [solveContinuity, (continuity_state re scale hr hs m n y h0 n le_rfl).2.2, ← e]
  simp [hj]

/-! ## Edge of the boundary layer -/

theorem findEdge_some (n : ℕ) (var : ℕ → ℝ) (tol : ℝ) (index : ℕ) : ∀ k, findEdge n var tol index = some k ↔
    index ≤ k ∧ k < n ∧ |var k - var (k - 1)| ≤ tol ∧ ∀ i, index ≤ i → i < k → tol < |var i - var (i - 1)| := by
  induction hm : n - index generalizing index with
  | zero =>
    intro k
    rw [findEdge, if_neg (by omega)]
    constructor
    · intro h; cases h
    · rintro ⟨h1, h2, -⟩; omega
  | succ m ih =>
    intro k
    rw [findEdge, if_pos (by omega)]
    split
    · rename_i h
      rw [ih (index + 1) (by omega) k]
      constructor
      · rintro ⟨h1, h2, h3, h4⟩
        refine ⟨by omega, h2, h3, fun i hi hk => ?_⟩
        by_cases e : i = index
        · subst e; exact h
        · exact h4 i (by omega) hk
      · rintro ⟨h1, h2, h3, h4⟩
        have : index ≠ k := by
          rintro rfl
          exact absurd h (not_lt.2 h3)
        exact ⟨by omega, h2, h3, fun i hi hk => h4 i (by omega) hk⟩
    · rename_i h
      constructor
      · intro e
        cases e
        exact ⟨le_rfl, by omega, not_lt.1 h, fun i hi hk => by omega⟩
      · rintro ⟨h1, h2, h3, h4⟩
        by_cases e : index = k
        · rw [e]
        · exact absurd (h4 index le_rfl (by omega)) h

/-- **C74, edge.** The edge is the first point whose value differs from that of the point below by no more than the tolerance; without one the search leaves the array. -/
theorem C74_edge (n : ℕ) (var : ℕ → ℝ) (tol : ℝ) :
    (∀ k, findEdge n var tol 1 = some k ↔ 1 ≤ k ∧ k < n ∧ |var k - var (k - 1)| ≤ tol ∧ ∀ i, 1 ≤ i → i < k → tol < |var i - var (i - 1)|) ∧
    (findEdge n var tol 1 = none ↔ ∀ k, 1 ≤ k → k < n → tol < |var k - var (k - 1)|) := by
  refine ⟨findEdge_some n var tol 1, fun h k => ?_, fun h => ?_⟩
  · induction k using Nat.strong_induction_on with
    | _ k ih =>
      intro h1 h2
      by_contra hn
      have := (findEdge_some n var tol 1 k).2 ⟨h1, h2, not_lt.1 hn, fun i hi hk => ih i hk hi (by omega)⟩
      rw [h] at this; cases this
  · cases e : findEdge n var tol 1 with
    | none => rfl
    | some k =>
      obtain ⟨h1, h2, h3, -⟩ := (findEdge_some n var tol 1 k).1 e
      exact absurd (h k h1 h2) (not_lt.2 h3)

/-! ## Initial state -/

theorem descending_cons (c : ℝ) (cs : List ℝ) (x : ℝ) : descending (c :: cs) x = c * x ^ cs.length + descending cs x := by
  simp [descending, List.range_succ]

theorem descending_fitted (cs : List ℝ) (x : ℝ) : descending (fitted cs) x = ∑ i ∈ Finset.range cs.length, cs.getD i 0 * x ^ i := by
  induction cs using List.reverseRecOn with
  | nil => simp [descending, fitted]
  | append_singleton cs c ih =>
    rw [fitted, List.reverse_append, List.reverse_cons, List.reverse_nil, List.nil_append, List.singleton_append, descending_cons]
    rw [fitted] at ih
    rw [ih, List.length_append, List.length_singleton, Finset.sum_range_succ, List.length_reverse, add_comm]
    congr 1
    · refine Finset.sum_congr rfl fun i hi => ?_
      simp [List.getD_eq_getElem?_getD, List.getElem?_append_left (Finset.mem_range.1 hi)]
    · simp

/-- What the kernel leaves in the arrays at a point. -/
structure Flow where
  rho : ℝ
  rhou0 : ℝ
  rhou1 : ℝ
  rhou2 : ℝ
  rhoE : ℝ

def flow (e : Env) : Flow := ⟨e (.data "rho"), e (.data "rhou0"), e (.data "rhou1"), e (.data "rhou2"), e (.data "rhoE")⟩

/-- Pressure of a state, by the definition of the total energy. -/
noncomputable def Flow.pressure (f : Flow) (gama : ℝ) : ℝ := (gama - 1) * (f.rhoE - (f.rhou0 ^ 2 + f.rhou1 ^ 2 + f.rhou2 ^ 2) / (2 * f.rho))

/-- Temperature by the equation of state in the normalisation with the free stream. -/
noncomputable def Flow.temperature (f : Flow) (gama Minf : ℝ) : ℝ := gama * Minf ^ 2 * f.pressure gama / f.rho

theorem oneWall_flow (ndim : ℕ) (rhou rhov T : Fit) (x : String) (edge : ℝ) (e : Env) :
    let val (q : Fit) := if e (.data x) < edge then descending q.coeffs (e (.data x)) else q.free
    flow (run (oneWall ndim rhou rhov T (.data x) edge) e) =
      ⟨1 / val T, val rhou, val rhov, if ndim = 3 then 0 else e (.data "rhou2"),
        1 / val T * val T / (e (.const "gama") * (e (.const "gama") - 1) * e (.const "Minf") ^ 2) + 0.5 * (val rhou ^ 2 + val rhov ^ 2) / (1 / val T)⟩ := by
  by_cases h3 : ndim = 3 <;>
    simp [h3, flow, run, oneWall, formEquation, rhoEquation, store, energy, piecewise]

/-- **C74, one wall.** At every point the kernel sets the momentum and the temperature of the profiles: inside the boundary layer the fitted polynomials `Σ cᵢ xⁱ`, outside the free stream values; the density is that of
uniform pressure `1/(γ M²)`, and the energy belongs to that pressure: in two dimensions and, with no spanwise momentum, in three. -/
theorem C74_one_wall (ndim : ℕ) (u v T : List ℝ) (u0 v0 T0 : ℝ) (x : String) (edge : ℝ) (e : Env) (hT : T0 ≠ 0)
    (hpos : ∑ i ∈ Finset.range T.length, T.getD i 0 * e (.data x) ^ i ≠ 0) (gama Minf : ℝ) (hg : e (.const "gama") = gama) (hM : e (.const "Minf") = Minf)
    (hg0 : gama ≠ 0) (hg1 : gama ≠ 1) (hM0 : Minf ≠ 0) (h2 : ndim = 3 ∨ e (.data "rhou2") = 0) :
    let f := flow (run (oneWall ndim ⟨fitted u, u0⟩ ⟨fitted v, v0⟩ ⟨fitted T, T0⟩ (.data x) edge) e)
    f.rhou0 = (if e (.data x) < edge then ∑ i ∈ Finset.range u.length, u.getD i 0 * e (.data x) ^ i else u0) ∧
    f.rhou1 = (if e (.data x) < edge then ∑ i ∈ Finset.range v.length, v.getD i 0 * e (.data x) ^ i else v0) ∧
    f.rhou2 = 0 ∧
    f.temperature gama Minf = (if e (.data x) < edge then ∑ i ∈ Finset.range T.length, T.getD i 0 * e (.data x) ^ i else T0) ∧
    f.pressure gama = 1 / (gama * Minf ^ 2) := by
  intro f
  have hf : f = _ := oneWall_flow ndim ⟨fitted u, u0⟩ ⟨fitted v, v0⟩ ⟨fitted T, T0⟩ x edge e
  simp only [hg, hM, descending_fitted] at hf
  have hv : (if e (.data x) < edge then ∑ i ∈ Finset.range T.length, T.getD i 0 * e (.data x) ^ i else T0) ≠ 0 := by
    split <;> assumption
  have hw : (if ndim = 3 then 0 else e (.data "rhou2")) = 0 := by
    rcases h2 with h | h <;> simp [h]
  rw [hw] at hf
  generalize (if e (.data x) < edge then ∑ i ∈ Finset.range T.length, T.getD i 0 * e (.data x) ^ i else T0) = t at *
  generalize (if e (.data x) < edge then ∑ i ∈ Finset.range u.length, u.getD i 0 * e (.data x) ^ i else u0) = a at *
  generalize (if e (.data x) < edge then ∑ i ∈ Finset.range v.length, v.getD i 0 * e (.data x) ^ i else v0) = b at *
  have hg1' : gama - 1 ≠ 0 := sub_ne_zero.2 hg1
  have hp : f.pressure gama = 1 / (gama * Minf ^ 2) := by
    rw [hf, Flow.pressure]; field_simp; ring
  refine ⟨by rw [hf], by rw [hf], by rw [hf], ?_, hp⟩
  rw [Flow.temperature, hp, hf]; field_simp

/-- Distance to the nearer side wall. -/
noncomputable def sideDistance (L z : ℝ) : ℝ := if z ≤ L / 2 then z else L - z

/-- Value of a profile at a distance from its wall: the polynomial inside the boundary layer, one outside. -/
noncomputable def profile (c : List ℝ) (edge d : ℝ) : ℝ := if d < edge then descending c d else 1

theorem twoWall_flow (w1 w2 : Wall) (x1 x2 : String) (L : ℝ) (e : Env) :
    let y := e (.data x1)
    let z := e (.data x2)
    let d := sideDistance L z
    let u1 := profile w1.rhou w1.edge y
    let u2 := profile w2.rhou w2.edge d
    let T := profile w1.g w1.edge y * profile w2.g w2.edge d * (1 - e (.const "Twall")) + e (.const "Twall")
    let v := (if y < w1.edge then descending w1.normal.coeffs y else w1.normal.free) * u2
    let w := (if z ≤ L / 2 then 1 else -1) * ((if d < w2.edge then descending w2.normal.coeffs d else w2.normal.free * (1 - (d - w2.edge) / (0.5 * L - w2.edge))) * u1)
    flow (run (twoWall w1 w2 (.data x1) (.data x2) L) e) =
      ⟨1 / T, u1 * u2, v, w, 1 / T * T / (e (.const "gama") * (e (.const "gama") - 1) * e (.const "Minf") ^ 2) + 0.5 * ((u1 * u2) ^ 2 + v ^ 2 + w ^ 2) / (1 / T)⟩ := by
  simp only [flow, run, twoWall, List.foldl_cons, List.foldl_nil, rhoEquation, store, energy, piecewise, profile, sideDistance]
  by_cases h1 : e (.data x1) < w1.edge <;> by_cases h2 : e (.data x2) ≤ L / 2
  · by_cases h3 : e (.data x2) < w2.edge <;> simp [h1, h2, h3]
  · by_cases h3 : L - e (.data x2) < w2.edge <;> simp [h1, h2, h3]
  · by_cases h3 : e (.data x2) < w2.edge <;> simp [h1, h2, h3]
  · by_cases h3 : L - e (.data x2) < w2.edge <;> simp [h1, h2, h3]

/-- **C74, side walls: pressure.** With side walls the pressure is `1/(γ M²)` everywhere as well, for any profiles, as long as the temperature `T₁T₂(1-Tw)+Tw` is not zero; that is the temperature of the state. -/
theorem C74_side_walls_pressure (w1 w2 : Wall) (x1 x2 : String) (L : ℝ) (e : Env) (gama Minf Tw : ℝ) (hg : e (.const "gama") = gama) (hM : e (.const "Minf") = Minf)
    (hw : e (.const "Twall") = Tw) (hg0 : gama ≠ 0) (hg1 : gama ≠ 1) (hM0 : Minf ≠ 0)
    (hT : profile w1.g w1.edge (e (.data x1)) * profile w2.g w2.edge (sideDistance L (e (.data x2))) * (1 - Tw) + Tw ≠ 0) :
    let f := flow (run (twoWall w1 w2 (.data x1) (.data x2) L) e)
    f.pressure gama = 1 / (gama * Minf ^ 2) ∧
    f.temperature gama Minf = profile w1.g w1.edge (e (.data x1)) * profile w2.g w2.edge (sideDistance L (e (.data x2))) * (1 - Tw) + Tw ∧
    f.rhou0 = profile w1.rhou w1.edge (e (.data x1)) * profile w2.rhou w2.edge (sideDistance L (e (.data x2))) := by
  intro f
  have hf : f = _ := twoWall_flow w1 w2 x1 x2 L e
  simp only [hg, hM, hw] at hf
  generalize profile w1.g w1.edge (e (.data x1)) * profile w2.g w2.edge (sideDistance L (e (.data x2))) * (1 - Tw) + Tw = t at *
  generalize profile w1.rhou w1.edge (e (.data x1)) = u1 at *
  generalize profile w2.rhou w2.edge (sideDistance L (e (.data x2))) = u2 at *
  generalize (if e (.data x1) < w1.edge then descending w1.normal.coeffs (e (.data x1)) else w1.normal.free) * u2 = v at *
  generalize (if e (.data x2) ≤ L / 2 then (1 : ℝ) else -1) * _ = w at *
  have hg1' : gama - 1 ≠ 0 := sub_ne_zero.2 hg1
  have hp : f.pressure gama = 1 / (gama * Minf ^ 2) := by
    rw [hf, Flow.pressure]; field_simp; ring
  refine ⟨hp, ?_, by rw [hf]⟩
  rw [Flow.temperature, hp, hf]; field_simp

/-- **C74, side walls: symmetry.** When the boundary layer is thinner than half the width, the state is symmetric about the middle: at `z` and `L - z` it is the same except that the spanwise momentum is opposite; in the
middle that is zero. -/
theorem C74_side_walls_symmetric (w1 w2 : Wall) (x1 x2 : String) (hx : x1 ≠ x2) (L : ℝ) (hL : w2.edge < L / 2) (e : Env) :
    let f := flow (run (twoWall w1 w2 (.data x1) (.data x2) L) e)
    let g := flow (run (twoWall w1 w2 (.data x1) (.data x2) L) (update e (.data x2) (L - e (.data x2))))
    g = { f with rhou2 := -f.rhou2 } ∧ (e (.data x2) = L / 2 → f.rhou2 = 0) := by
  intro f g
  have hf : f = _ := twoWall_flow w1 w2 x1 x2 L e
  have hg : g = _ := twoWall_flow w1 w2 x1 x2 L (update e (.data x2) (L - e (.data x2)))
  have h1 : update e (.data x2) (L - e (.data x2)) (.data x1) = e (.data x1) := update_of_ne (by simpa using hx) _ _
  have h2 : update e (.data x2) (L - e (.data x2)) (.data x2) = L - e (.data x2) := update_self ..
  have h3 : ∀ s, update e (.data x2) (L - e (.data x2)) (.const s) = e (.const s) := fun s => update_of_ne (by simp) _ _
  simp only [h1, h2, h3] at hg
  have hd : sideDistance L (L - e (.data x2)) = sideDistance L (e (.data x2)) := by
    unfold sideDistance
    split_ifs <;> linarith
  rw [hd] at hg
  have hmid : e (.data x2) = L / 2 → f.rhou2 = 0 := by
    intro hz
    rw [hf]
    have e1 : sideDistance L (L / 2) = L / 2 := if_pos le_rfl
    have e2 : (L / 2 - w2.edge) / (0.5 * L - w2.edge) = 1 := by
      rw [show 0.5 * L = L / 2 by ring]
      exact div_self (by linarith)
    simp only [hz, e1, e2]
    rw [if_neg (not_lt.2 hL.le)]
    simp
  refine ⟨?_, hmid⟩
  by_cases hz : e (.data x2) = L / 2
  · have : L - e (.data x2) = e (.data x2) := by rw [hz]; ring
    have hgf : g = f := by
      show flow (run _ (update e (.data x2) (L - e (.data x2)))) = flow (run _ e)
      rw [this, update_eq_self]
    rw [hgf, hmid hz]
    conv_lhs => rw [show f = ⟨f.rho, f.rhou0, f.rhou1, f.rhou2, f.rhoE⟩ from rfl, hmid hz]
    simp
  · have hs : (if L - e (.data x2) ≤ L / 2 then (1 : ℝ) else -1) = -(if e (.data x2) ≤ L / 2 then (1 : ℝ) else -1) := by
      rcases lt_or_gt_of_ne hz with h | h
      · rw [if_neg (by linarith), if_pos (by linarith)]
      · rw [if_pos (by linarith), if_neg (by linarith)]; norm_num
    rw [hs] at hg
    rw [hg, hf]
    simp only [neg_mul, neg_sq]

/-- **C74, side walls: free stream.** Outside both boundary layers density, streamwise momentum and temperature are one. -/
theorem C74_side_walls_free_stream (w1 w2 : Wall) (x1 x2 : String) (L : ℝ) (e : Env) (h1 : w1.edge ≤ e (.data x1)) (h2 : w2.edge ≤ sideDistance L (e (.data x2))) :
    (flow (run (twoWall w1 w2 (.data x1) (.data x2) L) e)).rho = 1 ∧ (flow (run (twoWall w1 w2 (.data x1) (.data x2) L) e)).rhou0 = 1 := by
  have hf := twoWall_flow w1 w2 x1 x2 L e
  simp only [profile, if_neg (not_lt.2 h1), if_neg (not_lt.2 h2)] at hf
  rw [hf]
  simp

/-- **Which directions.** Without a boundary layer, with too few or too many directions or with fewer than ten coefficients the request is refused; boundary layers in three directions are refused. -/
theorem C74_requests_refused (ndim nCoeffs : ℕ) (inputs : List (Bool × Var)) (rhou rhov T : Fit) (edge : ℝ) (w1 w2 : Wall) (L : ℝ) (eqs : List Assign)
    (h : initial ndim nCoeffs inputs rhou rhov T edge w1 w2 L = .ok eqs) :
    inputs.length = ndim ∧ 10 ≤ nCoeffs ∧ ((inputs.filter Prod.fst).length = 1 ∨ (inputs.filter Prod.fst).length = 2 ∧ 3 ≤ ndim) := by
  unfold initial at h
  simp only at h
  split at h
  · cases h
  split at h
  · cases h
  split at h
  · cases h
  rename_i h1 h2 h3
  refine ⟨by omega, by omega, ?_⟩
  split at h
  · rename_i hl; left; rw [hl]; rfl
  · rename_i hl
    right
    rw [hl]
    refine ⟨rfl, ?_⟩
    split at h
    · rename_i h4
      have := List.getElem?_eq_some_iff.1 h4
      obtain ⟨h5, -⟩ := this
      omega
    · cases h
  · cases h

/-- **The second wall is always taken in the third direction.** Asked for boundary layers in the first two directions, the state does not depend on the second coordinate at all. -/
theorem C74_second_direction_ignored (nCoeffs : ℕ) (hn : 10 ≤ nCoeffs) (x0 x1 x2 : String) (h01 : x0 ≠ x1) (h21 : x2 ≠ x1) (rhou rhov T : Fit) (edge : ℝ) (w1 w2 : Wall) (L : ℝ) :
    ∃ eqs, initial 3 nCoeffs [(true, .data x0), (true, .data x1), (false, .data x2)] rhou rhov T edge w1 w2 L = .ok eqs ∧
      ∀ (e : Env) (t : ℝ), flow (run eqs (update e (.data x1) t)) = flow (run eqs e) := by
  refine ⟨twoWall w1 w2 (.data x0) (.data x2) L, ?_, fun e t => ?_⟩
  · simp [initial, hn.not_gt]
  · have h1 := twoWall_flow w1 w2 x0 x2 L (update e (.data x1) t)
    have e0 : update e (.data x1) t (.data x0) = e (.data x0) := update_of_ne (by simpa using h01) _ _
    have e2 : update e (.data x1) t (.data x2) = e (.data x2) := update_of_ne (by simpa using h21) _ _
    have e3 : ∀ s, update e (.data x1) t (.const s) = e (.const s) := fun s => update_of_ne (by simp) _ _
    simp only [e0, e2, e3] at h1
    rw [h1, twoWall_flow w1 w2 x0 x2 L e]

/-! ## Non-vacuity -/

/-- A flat-plate state: linear momentum, constant temperature. -/
example : (flow (run (oneWall 2 ⟨fitted [0, 1 / 2], 1⟩ ⟨fitted [0], 0⟩ ⟨fitted [1], 1⟩ (.data "x1") 2)
    (fun v => if v = .const "gama" then 7 / 5 else if v = .const "Minf" then 2 else if v = .data "x1" then 1 else 0))).pressure (7 / 5) = 1 / (7 / 5 * 2 ^ 2) :=
  (C74_one_wall 2 [0, 1 / 2] [0] [1] 1 0 1 "x1" 2 _ (by norm_num) (by norm_num) (7 / 5) 2 (by simp) (by simp) (by norm_num) (by norm_num) (by norm_num) (Or.inr (by simp))).2.2.2.2

example : 0 < trapezoid 1 (fun i => (1 : ℝ) - if i = 0 then 0 else 1) 2 := by
  simp [trapezoid, Finset.sum_range_succ]

/-- A solver meeting the hypotheses of `C74_affine_exact`: it returns its start values. -/
example (p : Params) (hT : p.Tw < 0) (hg : 1 ≤ p.gama) :
    |(similarity p (fun vs => vs) (fun vs => vs 2) (fun vs => vs 3) (fun _ => 0)).1 2 - 1| + |(similarity p (fun vs => vs) (fun vs => vs 2) (fun vs => vs 3) (fun _ => 0)).1 3 - 1| <
      1 / 10 ^ 10 :=
  C74_affine_exact p hT hg (fun vs => vs) (fun vs => vs 2) (fun vs => vs 3) (fun _ => 0) 1 0 0 1 0 0 (by norm_num) (by simp [wallValues])

end OpenSBLI.Katzer
