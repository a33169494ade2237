import Verif.Props.C03_C05_RungeKutta
import Mathlib.Analysis.Calculus.MeanValue
import Mathlib.Analysis.Calculus.ContDiff.Operations
import Mathlib.Analysis.Calculus.ContDiff.RCLike
import Mathlib.Analysis.Calculus.Deriv.Pow
import Mathlib.Analysis.Calculus.Deriv.Shift
import Mathlib.Analysis.Normed.Module.FiniteDimension
import Mathlib.Analysis.SpecialFunctions.Exp
import Mathlib.Topology.MetricSpace.Thickening

/-!
# Errors of Runge-Kutta methods

Helper lemmas for C89: a step of an explicit method of order three along a solution of a differential equation.
-/
namespace OpenSBLI.TimeOrder
set_option linter.unusedSectionVars false
open Spec Set Metric

/-! ## Quantities of some order in the step -/

section order
variable {ι : Type*} {V W : Type*} [NormedAddCommGroup V] [NormedSpace ℝ V] [NormedAddCommGroup W] [NormedSpace ℝ W] {h : ι → ℝ}

/-- At most a constant times the power `p` of the step, in all situations. -/
def Oh (h : ι → ℝ) (p : ℕ) (f : ι → V) : Prop := ∃ C, ∀ i, ‖f i‖ ≤ C * h i ^ p

theorem Oh.nonneg {p : ℕ} {f : ι → V} (h0 : ∀ i, 0 ≤ h i) (hf : Oh h p f) : ∃ C, 0 ≤ C ∧ ∀ i, ‖f i‖ ≤ C * h i ^ p := by
  obtain ⟨C, hC⟩ := hf
  exact ⟨|C|, abs_nonneg C, fun i => (hC i).trans (mul_le_mul_of_nonneg_right (le_abs_self C) (pow_nonneg (h0 i) p))⟩

theorem Oh.add {p : ℕ} {f g : ι → V} (hf : Oh h p f) (hg : Oh h p g) : Oh h p fun i => f i + g i := by
  obtain ⟨C, hC⟩ := hf
  obtain ⟨C', hC'⟩ := hg
  exact ⟨C + C', fun i => (norm_add_le _ _).trans (by rw [add_mul]; exact add_le_add (hC i) (hC' i))⟩

theorem Oh.neg {p : ℕ} {f : ι → V} (hf : Oh h p f) : Oh h p fun i => -f i := by
  obtain ⟨C, hC⟩ := hf
  exact ⟨C, fun i => by rw [norm_neg]; exact hC i⟩

theorem Oh.sub {p : ℕ} {f g : ι → V} (hf : Oh h p f) (hg : Oh h p g) : Oh h p fun i => f i - g i := by
  simpa [sub_eq_add_neg] using hf.add hg.neg

theorem Oh.zero {p : ℕ} : Oh h p fun _ => (0 : V) := ⟨0, fun i => by simp⟩

theorem Oh.sum {p s : ℕ} {f : Fin s → ι → V} (hf : ∀ j, Oh h p (f j)) : Oh h p fun i => ∑ j, f j i := by
  choose C hC using hf
  exact ⟨∑ j, C j, fun i => (norm_sum_le _ _).trans (by rw [Finset.sum_mul]; exact Finset.sum_le_sum fun j _ => hC j i)⟩

theorem Oh.smul {p : ℕ} {f : ι → V} (c : ℝ) (hf : Oh h p f) : Oh h p fun i => c • f i := by
  obtain ⟨C, hC⟩ := hf
  exact ⟨|c| * C, fun i => by rw [norm_smul, Real.norm_eq_abs, mul_assoc]; exact mul_le_mul_of_nonneg_left (hC i) (abs_nonneg c)⟩

theorem Oh.step {p : ℕ} {f : ι → V} (h0 : ∀ i, 0 ≤ h i) (hf : Oh h p f) : Oh h (p + 1) fun i => h i • f i := by
  obtain ⟨C, hC⟩ := hf
  exact ⟨C, fun i => by
    rw [norm_smul, Real.norm_eq_abs, abs_of_nonneg (h0 i), pow_succ, ← mul_assoc, mul_comm (h i)]
    exact mul_le_mul_of_nonneg_right (hC i) (h0 i)⟩

theorem Oh.apply {p : ℕ} {f : ι → V} {A : ι → V →L[ℝ] W} (h0 : ∀ i, 0 ≤ h i) {L : ℝ} (hA : ∀ i, ‖A i‖ ≤ L) (hf : Oh h p f) : Oh h p fun i => A i (f i) := by
  obtain ⟨C, hC0, hC⟩ := hf.nonneg h0
  refine ⟨L * C, fun i => ((A i).le_opNorm _).trans ?_⟩
  rw [mul_assoc]
  have := hC i
  exact mul_le_mul (hA i) this (norm_nonneg _) ((norm_nonneg _).trans (hA i))

theorem Oh.congr {p : ℕ} {f g : ι → V} (hf : Oh h p f) (e : ∀ i, f i = g i) : Oh h p g := by
  obtain ⟨C, hC⟩ := hf
  exact ⟨C, fun i => by rw [← e]; exact hC i⟩

theorem Oh.lower {p : ℕ} {f : ι → V} (h0 : ∀ i, 0 ≤ h i) (h1 : ∀ i, h i ≤ 1) (hf : Oh h (p + 1) f) : Oh h p f := by
  obtain ⟨C, hC0, hC⟩ := hf.nonneg h0
  exact ⟨C, fun i => (hC i).trans (mul_le_mul_of_nonneg_left (pow_le_pow_of_le_one (h0 i) (h1 i) (Nat.le_succ p)) hC0)⟩

end order

variable {V : Type} [NormedAddCommGroup V] [NormedSpace ℝ V]

/-! ## Taylor's formula -/

/-- One integration: a function that vanishes at 0 and whose derivative is of order `p`. -/
theorem integrate {f f' : ℝ → V} {a K : ℝ} (p : ℕ) (hK : 0 ≤ K) (h0 : f 0 = 0) (hd : ∀ τ, |τ| ≤ a → HasDerivAt f (f' τ) τ) (hb : ∀ τ, |τ| ≤ a → ‖f' τ‖ ≤ K * |τ| ^ p) :
    ∀ τ, |τ| ≤ a → ‖f τ‖ ≤ K * |τ| ^ (p + 1) := by
  intro τ hτ
  have := (convex_Icc (-|τ|) |τ|).norm_image_sub_le_of_norm_hasDerivWithin_le (f := f) (f' := f') (C := K * |τ| ^ p) (x := 0) (y := τ)
    (fun σ hσ => (hd σ ((abs_le.2 hσ).trans hτ)).hasDerivWithinAt)
    (fun σ hσ => (hb σ ((abs_le.2 hσ).trans hτ)).trans (mul_le_mul_of_nonneg_left (pow_le_pow_left₀ (abs_nonneg _) (abs_le.2 hσ) p) hK))
    ⟨by simp, by simp⟩ ⟨neg_abs_le τ, le_abs_self τ⟩
  rw [h0, sub_zero, sub_zero, Real.norm_eq_abs] at this
  rw [pow_succ, ← mul_assoc]
  exact this

/-- A solution and its derivatives around `t`. -/
theorem taylor {y1 y2 y3 y4 : ℝ → V} {t a K : ℝ} (hK : 0 ≤ K) (h1 : ∀ τ, |τ| ≤ a → HasDerivAt y1 (y2 (t + τ)) (t + τ)) (h2 : ∀ τ, |τ| ≤ a → HasDerivAt y2 (y3 (t + τ)) (t + τ))
    (h3 : ∀ τ, |τ| ≤ a → HasDerivAt y3 (y4 (t + τ)) (t + τ)) (hb : ∀ τ, |τ| ≤ a → ‖y4 (t + τ)‖ ≤ K) :
    ∀ τ, |τ| ≤ a → ‖y1 (t + τ) - y1 t - τ • y2 t - (τ ^ 2 / 2) • y3 t‖ ≤ K * |τ| ^ 3 := by
  have sh : ∀ {f : ℝ → V} {f' : V} {τ : ℝ}, HasDerivAt f f' (t + τ) → HasDerivAt (fun τ => f (t + τ)) f' τ := fun {f f' τ} h => by
    simpa using h.comp_const_add t τ
  have a1 : ∀ τ, |τ| ≤ a → ‖y3 (t + τ) - y3 t‖ ≤ K * |τ| ^ 1 :=
    integrate 0 hK (by simp) (fun τ hτ => (sh (h3 τ hτ)).sub_const _) (fun τ hτ => by simpa using hb τ hτ)
  have a2 : ∀ τ, |τ| ≤ a → ‖y2 (t + τ) - y2 t - τ • y3 t‖ ≤ K * |τ| ^ 2 :=
    integrate 1 hK (by simp) (fun τ hτ => by
      have := ((sh (h2 τ hτ)).sub_const (y2 t)).fun_sub ((hasDerivAt_id τ).smul_const (y3 t))
      simpa using this) a1
  refine integrate 2 hK (by simp) (fun τ hτ => ?_) a2
  have := (((sh (h1 τ hτ)).sub_const (y1 t)).fun_sub ((hasDerivAt_id τ).smul_const (y2 t))).fun_sub (((hasDerivAt_pow 2 τ).div_const 2).smul_const (y3 t))
  simpa using this

/-! ## Right hand sides near a solution -/

/-- Bounds of a function and its derivative on the ball of radius `r` around a point. -/
structure Near (F : V → V) (p : V) (r K L Q : ℝ) : Prop where
  diff : ∀ w ∈ ball p r, DifferentiableAt ℝ F w
  value : ∀ w ∈ ball p r, ‖F w‖ ≤ K
  slope : ∀ w ∈ ball p r, ‖fderiv ℝ F w‖ ≤ L
  bend : ∀ w ∈ ball p r, ‖fderiv ℝ F w - fderiv ℝ F p‖ ≤ Q * ‖w - p‖

theorem Near.lip {F : V → V} {p : V} {r K L Q : ℝ} (hN : Near F p r K L Q) {u v : V} (hu : u ∈ ball p r) (hv : v ∈ ball p r) : ‖F u - F v‖ ≤ L * ‖u - v‖ :=
  (convex_ball p r).norm_image_sub_le_of_norm_hasFDerivWithin_le (fun w hw => (hN.diff w hw).hasFDerivAt.hasFDerivWithinAt) hN.slope hv hu

theorem Near.lin {F : V → V} {p : V} {r K L Q ρ : ℝ} (hN : Near F p r K L Q) (hQ : 0 ≤ Q) (hρ : ρ < r) {u v : V} (hu : ‖u - p‖ ≤ ρ) (hv : ‖v - p‖ ≤ ρ) :
    ‖F u - F v - fderiv ℝ F p (u - v)‖ ≤ Q * ρ * ‖u - v‖ := by
  have hsub : ∀ w ∈ closedBall p ρ, w ∈ ball p r := fun w hw => mem_ball.2 ((mem_closedBall.1 hw).trans_lt hρ)
  refine (convex_closedBall p ρ).norm_image_sub_le_of_norm_hasFDerivWithin_le' (f' := fderiv ℝ F) (fun w hw => (hN.diff w (hsub w hw)).hasFDerivAt.hasFDerivWithinAt)
    (fun w hw => (hN.bend w (hsub w hw)).trans (mul_le_mul_of_nonneg_left ?_ hQ)) (mem_closedBall_iff_norm.2 hv) (mem_closedBall_iff_norm.2 hu)
  exact mem_closedBall_iff_norm.1 hw

/-! ## The error of one step -/

variable {s : ℕ} (T : Tableau ℝ s)

/-- Stage values. -/
def stageValue (h : ℝ) (u : V) (k : Fin s → V) (i : Fin s) : V := u + h • ∑ j, T.A i j • k j

/-- Sum of the absolute values of all coefficients. -/
def size : ℝ := (∑ i, ∑ j, |T.A i j|) + ∑ i, |T.b i|

theorem size_row (i : Fin s) : ∑ j, |T.A i j| ≤ size T := by
  refine (Finset.single_le_sum (f := fun i => ∑ j, |T.A i j|) (fun i _ => Finset.sum_nonneg fun j _ => abs_nonneg _) (Finset.mem_univ i)).trans ?_
  exact le_add_of_nonneg_right (Finset.sum_nonneg fun _ _ => abs_nonneg _)

theorem size_b : ∑ i, |T.b i| ≤ size T := le_add_of_nonneg_left (Finset.sum_nonneg fun _ _ => Finset.sum_nonneg fun _ _ => abs_nonneg _)

theorem size_nonneg : 0 ≤ size T := add_nonneg (Finset.sum_nonneg fun _ _ => Finset.sum_nonneg fun _ _ => abs_nonneg _) (Finset.sum_nonneg fun _ _ => abs_nonneg _)

theorem sum_bound {c : Fin s → ℝ} {k : Fin s → V} {K a : ℝ} (hK : 0 ≤ K) (ha : ∑ j, |c j| ≤ a) (hk : ∀ j, c j ≠ 0 → ‖k j‖ ≤ K) : ‖∑ j, c j • k j‖ ≤ a * K := by
  refine (norm_sum_le _ _).trans (le_trans ?_ (mul_le_mul_of_nonneg_right ha hK))
  rw [Finset.sum_mul]
  refine Finset.sum_le_sum fun j _ => ?_
  rw [norm_smul, Real.norm_eq_abs]
  by_cases h : c j = 0
  · simp [h]
  · exact mul_le_mul_of_nonneg_left (hk j h) (abs_nonneg _)

/-- Stage values of an explicit method stay near the solution. -/
theorem stages_near {F : V → V} {p : V} {r K L Q : ℝ} (hN : Near F p r K L Q) (hK : 0 ≤ K) (hT : T.explicit) {h : ℝ} (h0 : 0 ≤ h) (hr : h * (size T * K) ≤ r / 2) {u : V} (hu : ‖u - p‖ < r / 2) {k : Fin s → V}
    (hk : T.IsSlopes F id h u k) (i : Fin s) : ‖stageValue T h u k i - u‖ ≤ h * (size T * K) ∧ stageValue T h u k i ∈ ball p r ∧ ‖k i‖ ≤ K := by
  induction i using WellFoundedLT.induction with
  | _ i ih =>
    have h1 : ‖∑ j, T.A i j • k j‖ ≤ size T * K := sum_bound hK (size_row T i) fun j hj => (ih j (not_le.1 fun h => hj (hT i j h))).2.2
    have h2 : ‖stageValue T h u k i - u‖ ≤ h * (size T * K) := by
      rw [stageValue, add_sub_cancel_left, norm_smul, Real.norm_eq_abs, abs_of_nonneg h0]
      exact mul_le_mul_of_nonneg_left h1 h0
    have h3 : stageValue T h u k i ∈ ball p r := by
      rw [mem_ball_iff_norm]
      calc ‖stageValue T h u k i - p‖ = ‖(stageValue T h u k i - u) + (u - p)‖ := by rw [sub_add_sub_cancel]
        _ ≤ _ := norm_add_le _ _
        _ < r := by linarith
    refine ⟨h2, h3, ?_⟩
    rw [hk i]
    exact hN.value _ h3

/-- A step depends on its start with a factor `1 + O(h)`. -/
theorem step_stable {F : V → V} {p : V} {r K L Q : ℝ} (hN : Near F p r K L Q) (hK : 0 ≤ K) (hL : 0 ≤ L) (hT : T.explicit) {h : ℝ} (h0 : 0 ≤ h) (hr : h * (size T * K) ≤ r / 2) (hL2 : h * (size T * L) ≤ 1 / 2)
    {u v : V} (hu : ‖u - p‖ < r / 2) (hv : ‖v - p‖ < r / 2) {k l : Fin s → V} (hk : T.IsSlopes F id h u k) (hl : T.IsSlopes F id h v l) :
    ‖T.result id h u k - T.result id h v l‖ ≤ (1 + h * (size T * (2 * L))) * ‖u - v‖ := by
  have ha := size_nonneg T
  have hb : ∀ i, ‖k i - l i‖ ≤ 2 * L * ‖u - v‖ := by
    intro i
    have : Nonempty (Fin s) := ⟨i⟩
    obtain ⟨j, hj⟩ := Finite.exists_max fun i => ‖k i - l i‖
    refine (hj i).trans ?_
    have h1 : ‖∑ j', T.A j j' • (k j' - l j')‖ ≤ size T * ‖k j - l j‖ := sum_bound (norm_nonneg _) (size_row T j) fun j' _ => hj j'
    have h2 : stageValue T h u k j - stageValue T h v l j = (u - v) + h • ∑ j', T.A j j' • (k j' - l j') := by
      simp only [stageValue, smul_sub, Finset.sum_sub_distrib]
      abel
    have h3 : ‖stageValue T h u k j - stageValue T h v l j‖ ≤ ‖u - v‖ + h * (size T * ‖k j - l j‖) := by
      rw [h2]
      refine (norm_add_le _ _).trans (add_le_add_right ?_ _)
      rw [norm_smul, Real.norm_eq_abs, abs_of_nonneg h0]
      exact mul_le_mul_of_nonneg_left h1 h0
    have h4 : ‖k j - l j‖ ≤ L * ‖stageValue T h u k j - stageValue T h v l j‖ := by
      have := hN.lip (stages_near T hN hK hT h0 hr hu hk j).2.1 (stages_near T hN hK hT h0 hr hv hl j).2.1
      rw [hk j, hl j]
      exact this
    have h5 := h4.trans (mul_le_mul_of_nonneg_left h3 hL)
    have h6 := mul_le_mul_of_nonneg_right hL2 (norm_nonneg (k j - l j))
    nlinarith
  have h1 : ‖∑ j', T.b j' • (k j' - l j')‖ ≤ size T * (2 * L * ‖u - v‖) := sum_bound (by positivity) (size_b T) fun j' _ => hb j'
  have h2 : T.result id h u k - T.result id h v l = (u - v) + h • ∑ j', T.b j' • (k j' - l j') := by
    simp only [Tableau.result, id, smul_sub, Finset.sum_sub_distrib]
    abel
  rw [h2]
  refine (norm_add_le _ _).trans ?_
  rw [norm_smul, Real.norm_eq_abs, abs_of_nonneg h0, add_mul, one_mul]
  refine add_le_add_right ?_ _
  refine (mul_le_mul_of_nonneg_left h1 h0).trans (le_of_eq ?_)
  ring

/-- The error of one step from a point of the solution, in all situations `i`. -/
theorem step_error {ι : Type} {F : V → V} {y y2 y3 y4 : ℝ → V} {t h : ι → ℝ} {k : ι → Fin s → V} {a r K L Q M : ℝ} (hT : T.explicit) (h3 : T.Order3)
    (hN : ∀ i, Near F (y (t i)) r K L Q) (hr : 0 < r) (hK : 0 ≤ K) (hQ : 0 ≤ Q) (hM : 0 ≤ M) (h0 : ∀ i, 0 ≤ h i) (h1 : ∀ i, h i ≤ 1) (ha : ∀ i, h i ≤ a) (hc : ∀ i j, |T.c j * h i| ≤ a) (hr2 : ∀ i, h i * (size T * K) < r / 2)
    (hk : ∀ i, T.IsSlopes F id (h i) (y (t i)) (k i))
    (d1 : ∀ i τ, |τ| ≤ a → HasDerivAt y (F (y (t i + τ))) (t i + τ)) (d2 : ∀ i τ, |τ| ≤ a → HasDerivAt (fun t => F (y t)) (y2 (t i + τ)) (t i + τ))
    (d3 : ∀ i τ, |τ| ≤ a → HasDerivAt y2 (y3 (t i + τ)) (t i + τ)) (d4 : ∀ i τ, |τ| ≤ a → HasDerivAt y3 (y4 (t i + τ)) (t i + τ))
    (b2 : ∀ i, ‖y2 (t i)‖ ≤ M) (b3 : ∀ i, ‖y3 (t i)‖ ≤ M) (b3' : ∀ i τ, |τ| ≤ a → ‖y3 (t i + τ)‖ ≤ M) (b4 : ∀ i τ, |τ| ≤ a → ‖y4 (t i + τ)‖ ≤ M)
    (bz : ∀ i j, y (t i + T.c j * h i) ∈ ball (y (t i)) r) :
    Oh h 4 fun i => T.result id (h i) (y (t i)) (k i) - y (t i + h i) := by
  have hp0 : ∀ i, ‖y (t i) - y (t i)‖ < r / 2 := fun i => by simpa using hr
  have near := fun i j => stages_near T (hN i) hK hT (h0 i) (hr2 i).le (hp0 i) (hk i) j
  have hkF : ∀ i j, k i j = F (stageValue T (h i) (y (t i)) (k i) j) := fun i j => hk i j
  have hpp : ∀ i, y (t i) ∈ ball (y (t i)) r := fun i => mem_ball_self hr
  have bA : ∀ i, ‖fderiv ℝ F (y (t i))‖ ≤ L := fun i => (hN i).slope _ (hpp i)
  -- stage values and slopes to first order
  have Y1 : ∀ j, Oh h 1 fun i => stageValue T (h i) (y (t i)) (k i) j - y (t i) := fun j =>
    ⟨size T * K, fun i => (near i j).1.trans (by rw [pow_one, mul_comm])⟩
  have lipO : ∀ {p : ℕ} {u v : ι → V}, (∀ i, u i ∈ ball (y (t i)) r) → (∀ i, v i ∈ ball (y (t i)) r) → Oh h p (fun i => u i - v i) → Oh h p fun i => F (u i) - F (v i) := by
    intro p u v hu hv hO
    obtain ⟨C, hC0, hC⟩ := hO.nonneg h0
    refine ⟨|L| * C, fun i => ((hN i).lip (hu i) (hv i)).trans ?_⟩
    rw [mul_assoc]
    exact mul_le_mul (le_abs_self L) (hC i) (norm_nonneg _) (abs_nonneg _)
  have k1 : ∀ j, Oh h 1 fun i => k i j - F (y (t i)) := fun j =>
    (lipO (fun i => (near i j).2.1) hpp (Y1 j)).congr fun i => by rw [hkF i j]
  have Y2 : ∀ j, Oh h 2 fun i => stageValue T (h i) (y (t i)) (k i) j - y (t i) - (T.c j * h i) • F (y (t i)) := fun j =>
    ((Oh.sum fun j' => (k1 j').smul (T.A j j')).step h0).congr fun i => by
      simp only [stageValue, Tableau.c, smul_sub, Finset.sum_sub_distrib, ← Finset.sum_smul, smul_smul]
      rw [add_sub_cancel_left, mul_comm]
  -- the solution at the times of the stages
  have TZ : ∀ j, Oh h 3 fun i => y (t i + T.c j * h i) - y (t i) - (T.c j * h i) • F (y (t i)) - ((T.c j * h i) ^ 2 / 2) • y2 (t i) := fun j =>
    ⟨M * |T.c j| ^ 3, fun i => by
      have := taylor (y1 := y) (y2 := fun t => F (y t)) (y3 := y2) (y4 := y3) hM (d1 i) (d2 i) (d3 i) (b3' i) (T.c j * h i) (hc i j)
      refine this.trans (le_of_eq ?_)
      rw [abs_mul, abs_of_nonneg (h0 i)]
      ring⟩
  have TF : ∀ j, Oh h 3 fun i => F (y (t i + T.c j * h i)) - F (y (t i)) - (T.c j * h i) • y2 (t i) - ((T.c j * h i) ^ 2 / 2) • y3 (t i) := fun j =>
    ⟨M * |T.c j| ^ 3, fun i => by
      have := taylor (y1 := fun t => F (y t)) (y2 := y2) (y3 := y3) (y4 := y4) hM (d2 i) (d3 i) (d4 i) (b4 i) (T.c j * h i) (hc i j)
      refine this.trans (le_of_eq ?_)
      rw [abs_mul, abs_of_nonneg (h0 i)]
      ring⟩
  have q2 : ∀ (c : ℝ) (w : ι → V), (∀ i, ‖w i‖ ≤ M) → Oh h 2 fun i => (c * h i ^ 2) • w i := fun c w hw =>
    ⟨|c| * M, fun i => by
      rw [norm_smul, Real.norm_eq_abs, abs_mul, abs_of_nonneg (pow_nonneg (h0 i) 2)]
      have := mul_le_mul_of_nonneg_left (hw i) (mul_nonneg (abs_nonneg c) (pow_nonneg (h0 i) 2))
      linarith⟩
  have Z2 : ∀ j, Oh h 2 fun i => y (t i + T.c j * h i) - y (t i) - (T.c j * h i) • F (y (t i)) := fun j =>
    (((TZ j).lower h0 h1).add (q2 (T.c j ^ 2 / 2) (fun i => y2 (t i)) b2)).congr fun i => by module
  have F2 : ∀ j, Oh h 2 fun i => F (y (t i + T.c j * h i)) - F (y (t i)) - (T.c j * h i) • y2 (t i) := fun j =>
    (((TF j).lower h0 h1).add (q2 (T.c j ^ 2 / 2) (fun i => y3 (t i)) b3)).congr fun i => by module
  have D2 : ∀ j, Oh h 2 fun i => stageValue T (h i) (y (t i)) (k i) j - y (t i + T.c j * h i) := fun j =>
    ((Y2 j).sub (Z2 j)).congr fun i => by abel
  have k2 : ∀ j, Oh h 2 fun i => k i j - F (y (t i)) - (T.c j * h i) • y2 (t i) := fun j =>
    ((lipO (fun i => (near i j).2.1) (fun i => bz i j) (D2 j)).add (F2 j)).congr fun i => by rw [← hkF i j]; abel
  have Y3 : ∀ j, Oh h 3 fun i => stageValue T (h i) (y (t i)) (k i) j - y (t i) - (T.c j * h i) • F (y (t i)) - (T.Ac j * h i ^ 2) • y2 (t i) := fun j =>
    ((Oh.sum fun j' => (k2 j').smul (T.A j j')).step h0).congr fun i => by
      have e1 : ∑ j', T.A j j' • (k i j' - F (y (t i)) - (T.c j' * h i) • y2 (t i)) = (∑ j', T.A j j' • k i j') - T.c j • F (y (t i)) - (T.Ac j * h i) • y2 (t i) := by
        have e2 : T.c j • F (y (t i)) = ∑ j', T.A j j' • F (y (t i)) := by rw [Tableau.c, Finset.sum_smul]
        have e3 : (T.Ac j * h i) • y2 (t i) = ∑ j', (T.A j j' * T.c j' * h i) • y2 (t i) := by rw [Tableau.Ac, Finset.sum_mul, Finset.sum_smul]
        rw [e2, e3, ← Finset.sum_sub_distrib, ← Finset.sum_sub_distrib]
        exact Finset.sum_congr rfl fun j' _ => by module
      rw [e1, stageValue]
      module
  have D3 : ∀ j, Oh h 3 fun i => stageValue T (h i) (y (t i)) (k i) j - y (t i + T.c j * h i) - ((T.Ac j - T.c j ^ 2 / 2) * h i ^ 2) • y2 (t i) := fun j =>
    ((Y3 j).sub (TZ j)).congr fun i => by module
  -- linearisation
  have Z1 : ∀ j, Oh h 1 fun i => y (t i + T.c j * h i) - y (t i) := fun j => ((Y1 j).sub ((D2 j).lower h0 h1)).congr fun i => by abel
  have lin : ∀ j, Oh h 3 fun i => k i j - F (y (t i + T.c j * h i)) - fderiv ℝ F (y (t i)) (stageValue T (h i) (y (t i)) (k i) j - y (t i + T.c j * h i)) := by
    intro j
    obtain ⟨C1, hC10, hC1⟩ := (Y1 j).nonneg h0
    obtain ⟨C2, hC20, hC2⟩ := (Z1 j).nonneg h0
    obtain ⟨C3, hC30, hC3⟩ := (D2 j).nonneg h0
    refine ⟨Q * (C1 + C2) * C3, fun i => ?_⟩
    have h5 := (hN i).lin hQ (max_lt (mem_ball_iff_norm.1 (near i j).2.1) (mem_ball_iff_norm.1 (bz i j))) (le_max_left _ _) (le_max_right _ _)
    rw [← hkF i j] at h5
    refine h5.trans ?_
    have h6 : max ‖stageValue T (h i) (y (t i)) (k i) j - y (t i)‖ ‖y (t i + T.c j * h i) - y (t i)‖ ≤ (C1 + C2) * h i := by
      have e1 := hC1 i
      have e2 := hC2 i
      rw [pow_one] at e1 e2
      have e3 := mul_nonneg hC10 (h0 i)
      have e4 := mul_nonneg hC20 (h0 i)
      exact max_le (by linarith) (by linarith)
    have h7 := mul_le_mul (mul_le_mul_of_nonneg_left h6 hQ) (hC3 i) (norm_nonneg _) (mul_nonneg hQ (mul_nonneg (add_nonneg hC10 hC20) (h0 i)))
    refine h7.trans (le_of_eq ?_)
    ring
  have R : ∀ j, Oh h 3 fun i => k i j - F (y (t i)) - (T.c j * h i) • y2 (t i) - ((T.c j * h i) ^ 2 / 2) • y3 (t i) - ((T.Ac j - T.c j ^ 2 / 2) * h i ^ 2) • fderiv ℝ F (y (t i)) (y2 (t i)) := fun j =>
    (((lin j).add ((D3 j).apply h0 bA)).add (TF j)).congr fun i => by
      simp only [map_sub, map_smul]
      module
  have T4 : Oh h 4 fun i => y (t i + h i) - y (t i) - h i • F (y (t i)) - (h i ^ 2 / 2) • y2 (t i) - (h i ^ 3 / 6) • y3 (t i) :=
    ⟨M, fun i => by
      have tf := taylor (y1 := fun t => F (y t)) (y2 := y2) (y3 := y3) (y4 := y4) hM (d2 i) (d3 i) (d4 i) (b4 i)
      have := integrate (f := fun τ => y (t i + τ) - y (t i) - τ • F (y (t i)) - (τ ^ 2 / 2) • y2 (t i) - (τ ^ 3 / 6) • y3 (t i)) 3 hM (by simp) (fun τ hτ => ?_) tf (h i) (by rw [abs_of_nonneg (h0 i)]; exact ha i)
      · simpa only [abs_of_nonneg (h0 i)] using this
      · have sh : HasDerivAt (fun τ => y (t i + τ)) (F (y (t i + τ))) τ := by simpa using (d1 i τ hτ).comp_const_add (t i) τ
        have := (((sh.sub_const (y (t i))).fun_sub ((hasDerivAt_id τ).smul_const (F (y (t i))))).fun_sub (((hasDerivAt_pow 2 τ).div_const 2).smul_const (y2 (t i)))).fun_sub (((hasDerivAt_pow 3 τ).div_const 6).smul_const (y3 (t i)))
        refine this.congr_deriv ?_
        simp only [Nat.cast_ofNat, Nat.add_one_sub_one, pow_one]
        module⟩
  refine (((Oh.sum fun j => (R j).smul (T.b j)).step h0).sub T4).congr fun i => ?_
  obtain ⟨o1, o2, o31, o32⟩ := h3
  have key : ∑ j, T.b j • k i j = ∑ j, T.b j • (k i j - F (y (t i)) - (T.c j * h i) • y2 (t i) - ((T.c j * h i) ^ 2 / 2) • y3 (t i) - ((T.Ac j - T.c j ^ 2 / 2) * h i ^ 2) • fderiv ℝ F (y (t i)) (y2 (t i)))
      + (∑ j, T.b j) • F (y (t i)) + ((∑ j, T.b j * T.c j) * h i) • y2 (t i) + ((∑ j, T.b j * T.c j ^ 2) * (h i ^ 2 / 2)) • y3 (t i)
      + ((∑ j, T.b j * T.Ac j) * h i ^ 2) • fderiv ℝ F (y (t i)) (y2 (t i)) - ((∑ j, T.b j * T.c j ^ 2) * (h i ^ 2 / 2)) • fderiv ℝ F (y (t i)) (y2 (t i)) := by
    simp only [Finset.sum_mul, Finset.sum_smul, ← Finset.sum_sub_distrib, ← Finset.sum_add_distrib]
    exact Finset.sum_congr rfl fun j _ => by module
  have e1 : ∑ j, T.b j = 1 := sub_eq_zero.1 o1
  have e2 : ∑ j, T.b j * T.c j = 1 / 2 := sub_eq_zero.1 o2
  have e31 : ∑ j, T.b j * T.c j ^ 2 = 1 / 3 := sub_eq_zero.1 o31
  have e32 : ∑ j, T.b j * T.Ac j = 1 / 6 := sub_eq_zero.1 o32
  rw [Tableau.result, id, key, e1, e2, e31, e32]
  module

end OpenSBLI.TimeOrder
