import Verif.Lemmas.TimeOrderGlobal
import Verif.Spec.TimeOrder4
import Mathlib.Topology.MetricSpace.Lipschitz

/-!
# Errors of Runge-Kutta methods that nearly have order four

Helper lemmas for C89: as `TimeOrder.lean`, with one more term and with conditions of order that hold up to `η`. The constants do not depend on the method, only on the size of
its coefficients.
-/
namespace OpenSBLI.TimeOrder
set_option linter.unusedSectionVars false
open Spec Set Metric

section order
variable {ι : Type*} {V W : Type*} [NormedAddCommGroup V] [NormedSpace ℝ V] [NormedAddCommGroup W] [NormedSpace ℝ W] {h : ι → ℝ}

theorem Oh.scale {p : ℕ} {f : ι → V} {c : ι → ℝ} {B : ℝ} (h0 : ∀ i, 0 ≤ h i) (hc : ∀ i, |c i| ≤ B) (hf : Oh h p f) : Oh h p fun i => c i • f i := by
  obtain ⟨C, hC0, hC⟩ := hf.nonneg h0
  refine ⟨B * C, fun i => ?_⟩
  rw [norm_smul, Real.norm_eq_abs, mul_assoc]
  exact mul_le_mul (hc i) (hC i) (norm_nonneg _) ((abs_nonneg _).trans (hc i))

/-- Bounded quantities times powers of the step. -/
theorem Oh.power {p : ℕ} {f : ι → V} {c : ι → ℝ} {B M : ℝ} (h0 : ∀ i, 0 ≤ h i) (hc : ∀ i, |c i| ≤ B) (hf : ∀ i, ‖f i‖ ≤ M) : Oh h p fun i => (c i * h i ^ p) • f i := by
  refine ⟨B * M, fun i => ?_⟩
  rw [norm_smul, Real.norm_eq_abs, abs_mul, abs_of_nonneg (pow_nonneg (h0 i) p)]
  have h1 := mul_le_mul (hc i) (hf i) (norm_nonneg _) ((abs_nonneg _).trans (hc i))
  have := mul_le_mul_of_nonneg_right h1 (pow_nonneg (h0 i) p)
  linarith

/-- Operators of some order. -/
theorem Oh.comp {p q : ℕ} {A : ι → V →L[ℝ] W} {f : ι → V} (h0 : ∀ i, 0 ≤ h i) (hA : Oh h p A) (hf : Oh h q f) : Oh h (p + q) fun i => A i (f i) := by
  obtain ⟨C, hC0, hC⟩ := hA.nonneg h0
  obtain ⟨C', hC0', hC'⟩ := hf.nonneg h0
  refine ⟨C * C', fun i => ((A i).le_opNorm _).trans ?_⟩
  have := mul_le_mul (hC i) (hC' i) (norm_nonneg _) (mul_nonneg hC0 (pow_nonneg (h0 i) p))
  rw [pow_add]
  linarith

end order

variable {V : Type} [NormedAddCommGroup V] [NormedSpace ℝ V]

/-! ## Taylor's formula -/

theorem shift {W : Type} [NormedAddCommGroup W] [NormedSpace ℝ W] {t τ : ℝ} {f : ℝ → W} {f' : W} (h : HasDerivAt f f' (t + τ)) : HasDerivAt (fun τ => f (t + τ)) f' τ := by
  simpa using h.comp_const_add t τ

theorem taylor2 {W : Type} [NormedAddCommGroup W] [NormedSpace ℝ W] {y1 y2 y3 : ℝ → W} {t a K : ℝ} (hK : 0 ≤ K) (h1 : ∀ τ, |τ| ≤ a → HasDerivAt y1 (y2 (t + τ)) (t + τ))
    (h2 : ∀ τ, |τ| ≤ a → HasDerivAt y2 (y3 (t + τ)) (t + τ)) (hb : ∀ τ, |τ| ≤ a → ‖y3 (t + τ)‖ ≤ K) : ∀ τ, |τ| ≤ a → ‖y1 (t + τ) - y1 t - τ • y2 t‖ ≤ K * |τ| ^ 2 := by
  have a1 : ∀ τ, |τ| ≤ a → ‖y2 (t + τ) - y2 t‖ ≤ K * |τ| ^ 1 :=
    integrate 0 hK (by simp) (fun τ hτ => (shift (h2 τ hτ)).sub_const _) (fun τ hτ => by simpa using hb τ hτ)
  refine integrate 1 hK (by simp) (fun τ hτ => ?_) a1
  have := ((shift (h1 τ hτ)).sub_const (y1 t)).fun_sub ((hasDerivAt_id τ).smul_const (y2 t))
  simpa using this

theorem taylor4 {y1 y2 y3 y4 y5 : ℝ → V} {t a K : ℝ} (hK : 0 ≤ K) (h1 : ∀ τ, |τ| ≤ a → HasDerivAt y1 (y2 (t + τ)) (t + τ)) (h2 : ∀ τ, |τ| ≤ a → HasDerivAt y2 (y3 (t + τ)) (t + τ))
    (h3 : ∀ τ, |τ| ≤ a → HasDerivAt y3 (y4 (t + τ)) (t + τ)) (h4 : ∀ τ, |τ| ≤ a → HasDerivAt y4 (y5 (t + τ)) (t + τ)) (hb : ∀ τ, |τ| ≤ a → ‖y5 (t + τ)‖ ≤ K) :
    ∀ τ, |τ| ≤ a → ‖y1 (t + τ) - y1 t - τ • y2 t - (τ ^ 2 / 2) • y3 t - (τ ^ 3 / 6) • y4 t‖ ≤ K * |τ| ^ 4 := by
  refine integrate 3 hK (by simp) (fun τ hτ => ?_) (taylor hK h2 h3 h4 hb)
  have := ((((shift (h1 τ hτ)).sub_const (y1 t)).fun_sub ((hasDerivAt_id τ).smul_const (y2 t))).fun_sub (((hasDerivAt_pow 2 τ).div_const 2).smul_const (y3 t))).fun_sub
    (((hasDerivAt_pow 3 τ).div_const 6).smul_const (y4 t))
  refine this.congr_deriv ?_
  simp only [Nat.cast_ofNat, Nat.add_one_sub_one, pow_one]
  module

theorem taylor5 {y1 y2 y3 y4 y5 y6 : ℝ → V} {t a K : ℝ} (hK : 0 ≤ K) (h1 : ∀ τ, |τ| ≤ a → HasDerivAt y1 (y2 (t + τ)) (t + τ)) (h2 : ∀ τ, |τ| ≤ a → HasDerivAt y2 (y3 (t + τ)) (t + τ))
    (h3 : ∀ τ, |τ| ≤ a → HasDerivAt y3 (y4 (t + τ)) (t + τ)) (h4 : ∀ τ, |τ| ≤ a → HasDerivAt y4 (y5 (t + τ)) (t + τ)) (h5 : ∀ τ, |τ| ≤ a → HasDerivAt y5 (y6 (t + τ)) (t + τ))
    (hb : ∀ τ, |τ| ≤ a → ‖y6 (t + τ)‖ ≤ K) :
    ∀ τ, |τ| ≤ a → ‖y1 (t + τ) - y1 t - τ • y2 t - (τ ^ 2 / 2) • y3 t - (τ ^ 3 / 6) • y4 t - (τ ^ 4 / 24) • y5 t‖ ≤ K * |τ| ^ 5 := by
  refine integrate 4 hK (by simp) (fun τ hτ => ?_) (taylor4 hK h2 h3 h4 h5 hb)
  have := (((((shift (h1 τ hτ)).sub_const (y1 t)).fun_sub ((hasDerivAt_id τ).smul_const (y2 t))).fun_sub (((hasDerivAt_pow 2 τ).div_const 2).smul_const (y3 t))).fun_sub
    (((hasDerivAt_pow 3 τ).div_const 6).smul_const (y4 t))).fun_sub (((hasDerivAt_pow 4 τ).div_const 24).smul_const (y5 t))
  refine this.congr_deriv ?_
  simp only [Nat.cast_ofNat, Nat.add_one_sub_one, pow_one]
  module

/-! ## Coefficients -/

variable {s : ℕ}

theorem size_A (T : Tableau ℝ s) (i j : Fin s) : |T.A i j| ≤ size T :=
  (Finset.single_le_sum (f := fun j => |T.A i j|) (fun _ _ => abs_nonneg _) (Finset.mem_univ j)).trans (size_row T i)

theorem size_bj (T : Tableau ℝ s) (j : Fin s) : |T.b j| ≤ size T :=
  (Finset.single_le_sum (f := fun j => |T.b j|) (fun _ _ => abs_nonneg _) (Finset.mem_univ j)).trans (size_b T)

theorem size_sum (T : Tableau ℝ s) (i : Fin s) {v : Fin s → ℝ} {B : ℝ} (hv : ∀ j, |v j| ≤ B) : |∑ j, T.A i j * v j| ≤ size T * B := by
  have hB : 0 ≤ B := (abs_nonneg _).trans (hv i)
  refine (Finset.abs_sum_le_sum_abs _ _).trans (le_trans ?_ (mul_le_mul_of_nonneg_right (size_row T i) hB))
  rw [Finset.sum_mul]
  exact Finset.sum_le_sum fun j _ => by rw [abs_mul]; exact mul_le_mul_of_nonneg_left (hv j) (abs_nonneg _)

theorem size_c (T : Tableau ℝ s) (i : Fin s) : |T.c i| ≤ size T := (Finset.abs_sum_le_sum_abs _ _).trans (size_row T i)

theorem size_Ac (T : Tableau ℝ s) (i : Fin s) : |T.Ac i| ≤ size T * size T := size_sum T i fun j => size_c T j

theorem size_Ac2 (T : Tableau ℝ s) (i : Fin s) : |T.Ac2 i| ≤ size T * size T ^ 2 := size_sum T i fun j => by rw [abs_pow]; exact pow_le_pow_left₀ (abs_nonneg _) (size_c T j) 2

theorem size_AAc (T : Tableau ℝ s) (i : Fin s) : |T.AAc i| ≤ size T * (size T * size T) := size_sum T i fun j => size_Ac T j

/-! ## The error of one step -/

/-- The error of one step from a point of the solution, in all situations `i`, which include the method. -/
theorem step_error4 {ι : Type} {F : V → V} {y y2 y3 y4 y5 : ℝ → V} {J1 J2 : ℝ → V →L[ℝ] V} {t h η : ι → ℝ} {T : ι → Tableau ℝ s} {k : ι → Fin s → V} {a r K L Q M σ : ℝ} (hT : ∀ i, (T i).explicit) (hσ : ∀ i, size (T i) ≤ σ) (hη : ∀ i, NearOrder4 (T i) (η i))
    (hN : ∀ i, Near F (y (t i)) r K L Q) (hNZ : ∀ i j, Near F (y (t i + (T i).c j * h i)) r K L Q) (hr : 0 < r) (hK : 0 ≤ K) (hQ : 0 ≤ Q) (hM : 0 ≤ M) (h0 : ∀ i, 0 ≤ h i) (h1 : ∀ i, h i ≤ 1) (ha : ∀ i, h i ≤ a)
    (hc : ∀ i j, |(T i).c j * h i| ≤ a) (hr2 : ∀ i, h i * (size (T i) * K) < r / 2)
    (hk : ∀ i, (T i).IsSlopes F id (h i) (y (t i)) (k i))
    (d1 : ∀ i τ, |τ| ≤ a → HasDerivAt y (F (y (t i + τ))) (t i + τ)) (d2 : ∀ i τ, |τ| ≤ a → HasDerivAt (fun t => F (y t)) (y2 (t i + τ)) (t i + τ))
    (d3 : ∀ i τ, |τ| ≤ a → HasDerivAt y2 (y3 (t i + τ)) (t i + τ)) (d4 : ∀ i τ, |τ| ≤ a → HasDerivAt y3 (y4 (t i + τ)) (t i + τ)) (d5 : ∀ i τ, |τ| ≤ a → HasDerivAt y4 (y5 (t i + τ)) (t i + τ))
    (dJ1 : ∀ i τ, |τ| ≤ a → HasDerivAt (fun t => fderiv ℝ F (y t)) (J1 (t i + τ)) (t i + τ)) (dJ2 : ∀ i τ, |τ| ≤ a → HasDerivAt J1 (J2 (t i + τ)) (t i + τ))
    (b2 : ∀ i, ‖y2 (t i)‖ ≤ M) (b3 : ∀ i, ‖y3 (t i)‖ ≤ M) (b4 : ∀ i, ‖y4 (t i)‖ ≤ M) (b4' : ∀ i τ, |τ| ≤ a → ‖y4 (t i + τ)‖ ≤ M) (b5 : ∀ i τ, |τ| ≤ a → ‖y5 (t i + τ)‖ ≤ M)
    (bJ1 : ∀ i, ‖J1 (t i)‖ ≤ M) (bJ2 : ∀ i τ, |τ| ≤ a → ‖J2 (t i + τ)‖ ≤ M)
    (bz : ∀ i j, y (t i + (T i).c j * h i) ∈ ball (y (t i)) (r / 2)) :
    ∃ C, 0 ≤ C ∧ ∀ i, ‖(T i).result id (h i) (y (t i)) (k i) - y (t i + h i)‖ ≤ C * (h i ^ 5 + h i * η i) := by
  have hp0 : ∀ i, ‖y (t i) - y (t i)‖ < r / 2 := fun i => by simpa using hr
  have near := fun i j => stages_near (T i) (hN i) hK (hT i) (h0 i) (hr2 i).le (hp0 i) (hk i) j
  have hkF : ∀ i j, k i j = F (stageValue (T i) (h i) (y (t i)) (k i) j) := fun i j => hk i j
  have hpp : ∀ i, y (t i) ∈ ball (y (t i)) r := fun i => mem_ball_self hr
  have bz' : ∀ i j, y (t i + (T i).c j * h i) ∈ ball (y (t i)) r := fun i j => ball_subset_ball (by linarith) (bz i j)
  have bA : ∀ i, ‖fderiv ℝ F (y (t i))‖ ≤ L := fun i => (hN i).slope _ (hpp i)
  -- coefficients
  have hs0 : ∀ i, 0 ≤ size (T i) := fun i => size_nonneg _
  have cA : ∀ j j', ∀ i, |(T i).A j j'| ≤ σ := fun j j' i => (size_A _ _ _).trans (hσ i)
  have cb : ∀ j, ∀ i, |(T i).b j| ≤ σ := fun j i => (size_bj _ _).trans (hσ i)
  have cc : ∀ j, ∀ i, |(T i).c j| ≤ σ := fun j i => (size_c _ _).trans (hσ i)
  -- stage values and slopes to first order
  have Y1 : ∀ j, Oh h 1 fun i => stageValue (T i) (h i) (y (t i)) (k i) j - y (t i) := fun j =>
    ⟨σ * K, fun i => (near i j).1.trans (by rw [pow_one, mul_comm]; exact mul_le_mul_of_nonneg_right (mul_le_mul_of_nonneg_right (hσ i) hK) (h0 i))⟩
  have lipO : ∀ {p : ℕ} {u v : ι → V}, (∀ i, u i ∈ ball (y (t i)) r) → (∀ i, v i ∈ ball (y (t i)) r) → Oh h p (fun i => u i - v i) → Oh h p fun i => F (u i) - F (v i) := by
    intro p u v hu hv hO
    obtain ⟨C, hC0, hC⟩ := hO.nonneg h0
    refine ⟨|L| * C, fun i => ((hN i).lip (hu i) (hv i)).trans ?_⟩
    rw [mul_assoc]
    exact mul_le_mul (le_abs_self L) (hC i) (norm_nonneg _) (abs_nonneg _)
  have k1 : ∀ j, Oh h 1 fun i => k i j - F (y (t i)) := fun j =>
    (lipO (fun i => (near i j).2.1) hpp (Y1 j)).congr fun i => by rw [hkF i j]
  have Y2 : ∀ j, Oh h 2 fun i => stageValue (T i) (h i) (y (t i)) (k i) j - y (t i) - ((T i).c j * h i) • F (y (t i)) := fun j =>
    ((Oh.sum fun j' => (k1 j').scale h0 (cA j j')).step h0).congr fun i => by
      simp only [stageValue, Tableau.c, smul_sub, Finset.sum_sub_distrib, ← Finset.sum_smul, smul_smul]
      rw [add_sub_cancel_left, mul_comm]
  -- the solution at the times of the stages
  have cpow : ∀ (q : ℕ) (j : Fin s) (i : ι), M * |(T i).c j * h i| ^ q ≤ M * σ ^ q * h i ^ q := fun q j i => by
    rw [abs_mul, abs_of_nonneg (h0 i), mul_pow, mul_assoc]
    exact mul_le_mul_of_nonneg_left (mul_le_mul_of_nonneg_right (pow_le_pow_left₀ (abs_nonneg _) (cc j i) q) (pow_nonneg (h0 i) q)) hM
  have TZ4 : ∀ j, Oh h 4 fun i => y (t i + (T i).c j * h i) - y (t i) - ((T i).c j * h i) • F (y (t i)) - (((T i).c j * h i) ^ 2 / 2) • y2 (t i) - (((T i).c j * h i) ^ 3 / 6) • y3 (t i) := fun j =>
    ⟨M * σ ^ 4, fun i => (taylor4 (y1 := y) (y2 := fun t => F (y t)) (y3 := y2) (y4 := y3) (y5 := y4) hM (d1 i) (d2 i) (d3 i) (d4 i) (b4' i) _ (hc i j)).trans (cpow 4 j i)⟩
  have TF4 : ∀ j, Oh h 4 fun i => F (y (t i + (T i).c j * h i)) - F (y (t i)) - ((T i).c j * h i) • y2 (t i) - (((T i).c j * h i) ^ 2 / 2) • y3 (t i) - (((T i).c j * h i) ^ 3 / 6) • y4 (t i) := fun j =>
    ⟨M * σ ^ 4, fun i => (taylor4 (y1 := fun t => F (y t)) (y2 := y2) (y3 := y3) (y4 := y4) (y5 := y5) hM (d2 i) (d3 i) (d4 i) (d5 i) (b5 i) _ (hc i j)).trans (cpow 4 j i)⟩
  have TJ : ∀ j, Oh h 2 fun i => fderiv ℝ F (y (t i + (T i).c j * h i)) - fderiv ℝ F (y (t i)) - ((T i).c j * h i) • J1 (t i) := fun j =>
    ⟨M * σ ^ 2, fun i => (taylor2 (y1 := fun t => fderiv ℝ F (y t)) (y2 := J1) (y3 := J2) hM (dJ1 i) (dJ2 i) (bJ2 i) _ (hc i j)).trans (cpow 2 j i)⟩
  have c2 : ∀ j i, |(T i).c j ^ 2 / 2| ≤ σ ^ 2 / 2 := fun j i => by
    rw [abs_div, abs_pow, abs_two]
    exact div_le_div_of_nonneg_right (pow_le_pow_left₀ (abs_nonneg _) (cc j i) 2) (by norm_num)
  have c3 : ∀ j i, |(T i).c j ^ 3 / 6| ≤ σ ^ 3 / 6 := fun j i => by
    rw [abs_div, abs_pow, abs_of_pos (by norm_num : (0 : ℝ) < 6)]
    exact div_le_div_of_nonneg_right (pow_le_pow_left₀ (abs_nonneg _) (cc j i) 3) (by norm_num)
  have TZ : ∀ j, Oh h 3 fun i => y (t i + (T i).c j * h i) - y (t i) - ((T i).c j * h i) • F (y (t i)) - (((T i).c j * h i) ^ 2 / 2) • y2 (t i) := fun j =>
    (((TZ4 j).lower h0 h1).add (Oh.power h0 (c3 j) b3)).congr fun i => by module
  have TF : ∀ j, Oh h 3 fun i => F (y (t i + (T i).c j * h i)) - F (y (t i)) - ((T i).c j * h i) • y2 (t i) - (((T i).c j * h i) ^ 2 / 2) • y3 (t i) := fun j =>
    (((TF4 j).lower h0 h1).add (Oh.power h0 (c3 j) b4)).congr fun i => by module
  have Z2 : ∀ j, Oh h 2 fun i => y (t i + (T i).c j * h i) - y (t i) - ((T i).c j * h i) • F (y (t i)) := fun j =>
    (((TZ j).lower h0 h1).add (Oh.power h0 (c2 j) b2)).congr fun i => by module
  have F2 : ∀ j, Oh h 2 fun i => F (y (t i + (T i).c j * h i)) - F (y (t i)) - ((T i).c j * h i) • y2 (t i) := fun j =>
    (((TF j).lower h0 h1).add (Oh.power h0 (c2 j) b3)).congr fun i => by module
  have D2 : ∀ j, Oh h 2 fun i => stageValue (T i) (h i) (y (t i)) (k i) j - y (t i + (T i).c j * h i) := fun j =>
    ((Y2 j).sub (Z2 j)).congr fun i => by abel
  have k2 : ∀ j, Oh h 2 fun i => k i j - F (y (t i)) - ((T i).c j * h i) • y2 (t i) := fun j =>
    ((lipO (fun i => (near i j).2.1) (fun i => bz' i j) (D2 j)).add (F2 j)).congr fun i => by rw [← hkF i j]; abel
  have Y3 : ∀ j, Oh h 3 fun i => stageValue (T i) (h i) (y (t i)) (k i) j - y (t i) - ((T i).c j * h i) • F (y (t i)) - ((T i).Ac j * h i ^ 2) • y2 (t i) := fun j =>
    ((Oh.sum fun j' => (k2 j').scale h0 (cA j j')).step h0).congr fun i => by
      have e1 : ∑ j', (T i).A j j' • (k i j' - F (y (t i)) - ((T i).c j' * h i) • y2 (t i)) = (∑ j', (T i).A j j' • k i j') - (T i).c j • F (y (t i)) - ((T i).Ac j * h i) • y2 (t i) := by
        have e2 : (T i).c j • F (y (t i)) = ∑ j', (T i).A j j' • F (y (t i)) := by rw [Tableau.c, Finset.sum_smul]
        have e3 : ((T i).Ac j * h i) • y2 (t i) = ∑ j', ((T i).A j j' * (T i).c j' * h i) • y2 (t i) := by rw [Tableau.Ac, Finset.sum_mul, Finset.sum_smul]
        rw [e2, e3, ← Finset.sum_sub_distrib, ← Finset.sum_sub_distrib]
        exact Finset.sum_congr rfl fun j' _ => by module
      rw [e1, stageValue]
      module
  have D3 : ∀ j, Oh h 3 fun i => stageValue (T i) (h i) (y (t i)) (k i) j - y (t i + (T i).c j * h i) - (((T i).Ac j - (T i).c j ^ 2 / 2) * h i ^ 2) • y2 (t i) := fun j =>
    ((Y3 j).sub (TZ j)).congr fun i => by module
  -- linearisation at the solution at the times of the stages
  have lin4 : ∀ j, Oh h 4 fun i => k i j - F (y (t i + (T i).c j * h i)) - fderiv ℝ F (y (t i + (T i).c j * h i)) (stageValue (T i) (h i) (y (t i)) (k i) j - y (t i + (T i).c j * h i)) := by
    intro j
    obtain ⟨C3, hC30, hC3⟩ := (D2 j).nonneg h0
    refine ⟨Q * C3 * C3, fun i => ?_⟩
    have hYZ : ‖stageValue (T i) (h i) (y (t i)) (k i) j - y (t i + (T i).c j * h i)‖ < r := by
      have e1 := (near i j).1
      have e2 := mem_ball_iff_norm.1 (bz i j)
      have e3 := hr2 i
      calc ‖stageValue (T i) (h i) (y (t i)) (k i) j - y (t i + (T i).c j * h i)‖ = ‖(stageValue (T i) (h i) (y (t i)) (k i) j - y (t i)) - (y (t i + (T i).c j * h i) - y (t i))‖ := by rw [sub_sub_sub_cancel_right]
        _ ≤ _ := norm_sub_le _ _
        _ < r := by linarith
    have h5 := (hNZ i j).lin hQ hYZ (le_refl _) (by rw [sub_self, norm_zero]; exact norm_nonneg _)
    rw [← hkF i j] at h5
    refine h5.trans ?_
    have h7 := mul_le_mul (mul_le_mul_of_nonneg_left (hC3 i) hQ) (hC3 i) (norm_nonneg _) (mul_nonneg hQ (mul_nonneg hC30 (pow_nonneg (h0 i) 2)))
    refine h7.trans (le_of_eq ?_)
    ring
  -- slopes to second order
  have R : ∀ j, Oh h 3 fun i => k i j - F (y (t i)) - ((T i).c j * h i) • y2 (t i) - (((T i).c j * h i) ^ 2 / 2) • y3 (t i) - (((T i).Ac j - (T i).c j ^ 2 / 2) * h i ^ 2) • fderiv ℝ F (y (t i)) (y2 (t i)) := by
    intro j
    have J0 : Oh h 1 fun i => fderiv ℝ F (y (t i + (T i).c j * h i)) - fderiv ℝ F (y (t i)) :=
      (((TJ j).lower h0 h1).add (Oh.power (p := 1) h0 (cc j) bJ1)).congr fun i => by
        rw [pow_one]
        abel
    have J0' := J0.comp h0 (D2 j)
    refine (((((lin4 j).lower h0 h1).add J0').add ((D3 j).apply h0 bA)).add (TF j)).congr fun i => ?_
    simp only [map_sub, map_smul, sub_apply]
    module
  have Y4 : ∀ j, Oh h 4 fun i => stageValue (T i) (h i) (y (t i)) (k i) j - y (t i) - ((T i).c j * h i) • F (y (t i)) - ((T i).Ac j * h i ^ 2) • y2 (t i) - ((T i).Ac2 j / 2 * h i ^ 3) • y3 (t i)
      - (((T i).AAc j - (T i).Ac2 j / 2) * h i ^ 3) • fderiv ℝ F (y (t i)) (y2 (t i)) := fun j =>
    ((Oh.sum fun j' => (R j').scale h0 (cA j j')).step h0).congr fun i => by
      have e1 : ∑ j', (T i).A j j' • (k i j' - F (y (t i)) - ((T i).c j' * h i) • y2 (t i) - (((T i).c j' * h i) ^ 2 / 2) • y3 (t i) - (((T i).Ac j' - (T i).c j' ^ 2 / 2) * h i ^ 2) • fderiv ℝ F (y (t i)) (y2 (t i)))
          = (∑ j', (T i).A j j' • k i j') - (T i).c j • F (y (t i)) - ((T i).Ac j * h i) • y2 (t i) - ((T i).Ac2 j * (h i ^ 2 / 2)) • y3 (t i) - ((T i).AAc j * h i ^ 2) • fderiv ℝ F (y (t i)) (y2 (t i))
            + ((T i).Ac2 j * (h i ^ 2 / 2)) • fderiv ℝ F (y (t i)) (y2 (t i)) := by
        have e2 : (T i).c j • F (y (t i)) = ∑ j', (T i).A j j' • F (y (t i)) := by rw [Tableau.c, Finset.sum_smul]
        have e3 : ((T i).Ac j * h i) • y2 (t i) = ∑ j', ((T i).A j j' * (T i).c j' * h i) • y2 (t i) := by rw [Tableau.Ac, Finset.sum_mul, Finset.sum_smul]
        have e4 : ∀ v : V, ((T i).Ac2 j * (h i ^ 2 / 2)) • v = ∑ j', ((T i).A j j' * (T i).c j' ^ 2 * (h i ^ 2 / 2)) • v := fun v => by rw [Tableau.Ac2, Finset.sum_mul, Finset.sum_smul]
        have e5 : ∀ v : V, ((T i).AAc j * h i ^ 2) • v = ∑ j', ((T i).A j j' * (T i).Ac j' * h i ^ 2) • v := fun v => by rw [Tableau.AAc, Finset.sum_mul, Finset.sum_smul]
        rw [e2, e3, e4, e4, e5, ← Finset.sum_sub_distrib, ← Finset.sum_sub_distrib, ← Finset.sum_sub_distrib, ← Finset.sum_sub_distrib, ← Finset.sum_add_distrib]
        exact Finset.sum_congr rfl fun j' _ => by module
      rw [e1, stageValue]
      module
  have D4 : ∀ j, Oh h 4 fun i => stageValue (T i) (h i) (y (t i)) (k i) j - y (t i + (T i).c j * h i) - (((T i).Ac j - (T i).c j ^ 2 / 2) * h i ^ 2) • y2 (t i) - (((T i).Ac2 j / 2 - (T i).c j ^ 3 / 6) * h i ^ 3) • y3 (t i)
      - (((T i).AAc j - (T i).Ac2 j / 2) * h i ^ 3) • fderiv ℝ F (y (t i)) (y2 (t i)) := fun j =>
    ((Y4 j).sub (TZ4 j)).congr fun i => by module
  -- slopes to third order
  have R4 : ∀ j, Oh h 4 fun i => k i j - F (y (t i)) - ((T i).c j * h i) • y2 (t i) - (((T i).c j * h i) ^ 2 / 2) • y3 (t i) - (((T i).c j * h i) ^ 3 / 6) • y4 (t i)
      - (((T i).Ac j - (T i).c j ^ 2 / 2) * h i ^ 2) • fderiv ℝ F (y (t i)) (y2 (t i)) - (((T i).Ac2 j / 2 - (T i).c j ^ 3 / 6) * h i ^ 3) • fderiv ℝ F (y (t i)) (y3 (t i))
      - (((T i).AAc j - (T i).Ac2 j / 2) * h i ^ 3) • fderiv ℝ F (y (t i)) (fderiv ℝ F (y (t i)) (y2 (t i))) - ((T i).c j * ((T i).Ac j - (T i).c j ^ 2 / 2) * h i ^ 3) • J1 (t i) (y2 (t i)) := by
    intro j
    have a1 := (TJ j).comp h0 (D2 j)
    have a2 := (((D3 j).apply h0 bJ1).scale h0 (cc j)).step h0
    refine ((((((lin4 j).add a1).add a2).add ((D4 j).apply h0 bA)).add (TF4 j))).congr fun i => ?_
    simp only [map_sub, map_smul, sub_apply, smul_apply]
    module
  have T5 : Oh h 5 fun i => y (t i + h i) - y (t i) - h i • F (y (t i)) - (h i ^ 2 / 2) • y2 (t i) - (h i ^ 3 / 6) • y3 (t i) - (h i ^ 4 / 24) • y4 (t i) :=
    ⟨M, fun i => by
      have := taylor5 (y1 := y) (y2 := fun t => F (y t)) (y3 := y2) (y4 := y3) (y5 := y4) (y6 := y5) hM (d1 i) (d2 i) (d3 i) (d4 i) (d5 i) (b5 i) (h i) (by rw [abs_of_nonneg (h0 i)]; exact ha i)
      rwa [abs_of_nonneg (h0 i)] at this⟩
  have main := ((Oh.sum fun j => (R4 j).scale h0 (cb j)).step h0).sub T5
  -- the defects of the conditions of order
  have hη0 : ∀ i, 0 ≤ η i := fun i => (abs_nonneg _).trans (hη i).t1
  have small : ∀ (x : ι → ℝ) (q : ℕ), (∀ i, |x i| ≤ 2 * η i) → ∀ i, |x i * h i ^ q| ≤ 2 * η i := fun x q hx i => by
    rw [abs_mul, abs_of_nonneg (pow_nonneg (h0 i) q)]
    exact (mul_le_of_le_one_right (abs_nonneg _) (pow_le_one₀ (h0 i) (h1 i))).trans (hx i)
  have defect : ∀ (x : ι → ℝ) (q : ℕ) (v : ι → V) (G : ℝ), (∀ i, |x i| ≤ 2 * η i) → (∀ i, ‖v i‖ ≤ G) → Oh η 1 fun i => (x i * h i ^ q) • v i := fun x q v G hx hv =>
    ⟨2 * G, fun i => by
      rw [norm_smul, Real.norm_eq_abs, pow_one]
      have := mul_le_mul (small x q hx i) (hv i) (norm_nonneg _) (by have := hη0 i; positivity)
      linarith⟩
  have bF : ∀ i, ‖F (y (t i))‖ ≤ K := fun i => (hN i).value _ (hpp i)
  have op : ∀ {A : ι → V →L[ℝ] V} {v : ι → V} {P G : ℝ}, (∀ i, ‖A i‖ ≤ P) → (∀ i, ‖v i‖ ≤ G) → ∀ i, ‖A i (v i)‖ ≤ P * G := fun {A v P G} hA hv i =>
    ((A i).le_opNorm _).trans (mul_le_mul (hA i) (hv i) (norm_nonneg _) ((norm_nonneg _).trans (hA i)))
  have half : ∀ {x y' e : ℝ}, |x| ≤ e → |y'| ≤ e → |x - y' / 2| ≤ 2 * e := fun {x y' e} hx hy => by
    have e0 := (abs_nonneg _).trans hx
    refine (abs_sub _ _).trans ?_
    rw [abs_div, abs_two]
    linarith
  have sixth : ∀ {x y' e : ℝ}, |x| ≤ e → |y'| ≤ e → |x / 2 - y' / 6| ≤ 2 * e := fun {x y' e} hx hy => by
    have e0 := (abs_nonneg _).trans hx
    refine (abs_sub _ _).trans ?_
    rw [abs_div, abs_div, abs_two, abs_of_pos (by norm_num : (0 : ℝ) < 6)]
    linarith
  have one : ∀ {x e : ℝ} (d : ℝ), 1 ≤ d → |x| ≤ e → |x / d| ≤ 2 * e := fun {x e} d hd hx => by
    have e0 := (abs_nonneg _).trans hx
    rw [abs_div, abs_of_pos (by linarith : 0 < d), div_le_iff₀ (by linarith)]
    nlinarith
  have def1 := defect (fun i => (T i).t1 / 1) 0 (fun i => F (y (t i))) K (fun i => one 1 le_rfl (hη i).t1) bF
  have def2 := defect (fun i => (T i).t2 / 1) 1 (fun i => y2 (t i)) M (fun i => one 1 le_rfl (hη i).t2) b2
  have def3 := defect (fun i => (T i).t31 / 2) 2 (fun i => y3 (t i)) M (fun i => one 2 (by norm_num) (hη i).t31) b3
  have def4 := defect (fun i => (T i).t32 - (T i).t31 / 2) 2 (fun i => fderiv ℝ F (y (t i)) (y2 (t i))) (L * M) (fun i => half (hη i).t32 (hη i).t31) (op bA b2)
  have def5 := defect (fun i => (T i).t41 / 6) 3 (fun i => y4 (t i)) M (fun i => one 6 (by norm_num) (hη i).t41) b4
  have def6 := defect (fun i => (T i).t43 / 2 - (T i).t41 / 6) 3 (fun i => fderiv ℝ F (y (t i)) (y3 (t i))) (L * M) (fun i => sixth (hη i).t43 (hη i).t41) (op bA b3)
  have def7 := defect (fun i => (T i).t44 - (T i).t43 / 2) 3 (fun i => fderiv ℝ F (y (t i)) (fderiv ℝ F (y (t i)) (y2 (t i)))) (L * (L * M)) (fun i => half (hη i).t44 (hη i).t43) (op bA (op bA b2))
  have def8 := defect (fun i => (T i).t42 - (T i).t41 / 2) 3 (fun i => J1 (t i) (y2 (t i))) (M * M) (fun i => half (hη i).t42 (hη i).t41) (op bJ1 b2)
  obtain ⟨C1, hC10, hC1⟩ := main.nonneg h0
  obtain ⟨C2, hC20, hC2⟩ := (((((((def1.add def2).add def3).add def4).add def5).add def6).add def7).add def8).nonneg hη0
  refine ⟨C1 + C2, add_nonneg hC10 hC20, fun i => ?_⟩
  have key : (T i).result id (h i) (y (t i)) (k i) - y (t i + h i) = (h i • ∑ j, (T i).b j • (k i j - F (y (t i)) - ((T i).c j * h i) • y2 (t i) - (((T i).c j * h i) ^ 2 / 2) • y3 (t i) - (((T i).c j * h i) ^ 3 / 6) • y4 (t i)
      - (((T i).Ac j - (T i).c j ^ 2 / 2) * h i ^ 2) • fderiv ℝ F (y (t i)) (y2 (t i)) - (((T i).Ac2 j / 2 - (T i).c j ^ 3 / 6) * h i ^ 3) • fderiv ℝ F (y (t i)) (y3 (t i))
      - (((T i).AAc j - (T i).Ac2 j / 2) * h i ^ 3) • fderiv ℝ F (y (t i)) (fderiv ℝ F (y (t i)) (y2 (t i))) - ((T i).c j * ((T i).Ac j - (T i).c j ^ 2 / 2) * h i ^ 3) • J1 (t i) (y2 (t i)))
      - (y (t i + h i) - y (t i) - h i • F (y (t i)) - (h i ^ 2 / 2) • y2 (t i) - (h i ^ 3 / 6) • y3 (t i) - (h i ^ 4 / 24) • y4 (t i)))
      + h i • (((T i).t1 / 1 * h i ^ 0) • F (y (t i)) + ((T i).t2 / 1 * h i ^ 1) • y2 (t i) + ((T i).t31 / 2 * h i ^ 2) • y3 (t i) + (((T i).t32 - (T i).t31 / 2) * h i ^ 2) • fderiv ℝ F (y (t i)) (y2 (t i))
        + ((T i).t41 / 6 * h i ^ 3) • y4 (t i) + (((T i).t43 / 2 - (T i).t41 / 6) * h i ^ 3) • fderiv ℝ F (y (t i)) (y3 (t i))
        + (((T i).t44 - (T i).t43 / 2) * h i ^ 3) • fderiv ℝ F (y (t i)) (fderiv ℝ F (y (t i)) (y2 (t i))) + (((T i).t42 - (T i).t41 / 2) * h i ^ 3) • J1 (t i) (y2 (t i))) := by
    generalize fderiv ℝ F (y (t i)) (fderiv ℝ F (y (t i)) (y2 (t i))) = g1
    generalize fderiv ℝ F (y (t i)) (y2 (t i)) = g2
    generalize fderiv ℝ F (y (t i)) (y3 (t i)) = g3
    generalize J1 (t i) (y2 (t i)) = g4
    have e : ∑ j, (T i).b j • (k i j - F (y (t i)) - ((T i).c j * h i) • y2 (t i) - (((T i).c j * h i) ^ 2 / 2) • y3 (t i) - (((T i).c j * h i) ^ 3 / 6) • y4 (t i)
      - (((T i).Ac j - (T i).c j ^ 2 / 2) * h i ^ 2) • g2 - (((T i).Ac2 j / 2 - (T i).c j ^ 3 / 6) * h i ^ 3) • g3 - (((T i).AAc j - (T i).Ac2 j / 2) * h i ^ 3) • g1 - ((T i).c j * ((T i).Ac j - (T i).c j ^ 2 / 2) * h i ^ 3) • g4)
      = ∑ j, (T i).b j • k i j - (∑ j, (T i).b j) • F (y (t i)) - ((∑ j, (T i).b j * (T i).c j) * h i) • y2 (t i) - ((∑ j, (T i).b j * (T i).c j ^ 2) * (h i ^ 2 / 2)) • y3 (t i)
        - ((∑ j, (T i).b j * (T i).c j ^ 3) * (h i ^ 3 / 6)) • y4 (t i) - ((∑ j, (T i).b j * (T i).Ac j) * h i ^ 2) • g2 + ((∑ j, (T i).b j * (T i).c j ^ 2) * (h i ^ 2 / 2)) • g2
        - ((∑ j, (T i).b j * (T i).Ac2 j) * (h i ^ 3 / 2)) • g3 + ((∑ j, (T i).b j * (T i).c j ^ 3) * (h i ^ 3 / 6)) • g3 - ((∑ j, (T i).b j * (T i).AAc j) * h i ^ 3) • g1 + ((∑ j, (T i).b j * (T i).Ac2 j) * (h i ^ 3 / 2)) • g1
        - ((∑ j, (T i).b j * (T i).c j * (T i).Ac j) * h i ^ 3) • g4 + ((∑ j, (T i).b j * (T i).c j ^ 3) * (h i ^ 3 / 2)) • g4 := by
      simp only [Finset.sum_mul, Finset.sum_smul, ← Finset.sum_sub_distrib, ← Finset.sum_add_distrib]
      exact Finset.sum_congr rfl fun j _ => by module
    rw [e, Tableau.result, id]
    simp only [Tableau.t1, Tableau.t2, Tableau.t31, Tableau.t32, Tableau.t41, Tableau.t42, Tableau.t43, Tableau.t44]
    module
  rw [key]
  refine (norm_add_le _ _).trans ?_
  rw [norm_smul (h i), Real.norm_eq_abs, abs_of_nonneg (h0 i)]
  have e1 := hC1 i
  have e2 := mul_le_mul_of_nonneg_left (hC2 i) (h0 i)
  have e5 : h i * (C2 * η i ^ 1) = C2 * (h i * η i) := by ring
  have e3 : 0 ≤ C2 * h i ^ 5 := mul_nonneg hC20 (pow_nonneg (h0 i) 5)
  have e4 : 0 ≤ C1 * (h i * η i) := mul_nonneg hC10 (mul_nonneg (h0 i) (hη0 i))
  refine (add_le_add e1 e2).trans ?_
  have e6 : (C1 + C2) * (h i ^ 5 + h i * η i) = C1 * h i ^ (4 + 1) + C2 * (h i * η i) + C2 * h i ^ 5 + C1 * (h i * η i) := by ring
  rw [e5, e6]
  linarith

/-! ## Many steps -/

/-- A solution has one more derivative than the right hand side. -/
theorem solution_smooth4 {F : V → V} {Ω : Set V} {J : Set ℝ} (hJ : IsOpen J) (hF : ContDiffOn ℝ 4 F Ω) {y : ℝ → V} (hy : ∀ t ∈ J, y t ∈ Ω ∧ HasDerivAt y (F (y t)) t) :
    ContDiffOn ℝ 4 (fun t => F (y t)) J := by
  have up : ∀ n : ℕ, n ≤ 3 → ContDiffOn ℝ n (fun t => F (y t)) J → ContDiffOn ℝ (n + 1 : ℕ) (fun t => F (y t)) J := by
    intro n hn h
    have hy' : ContDiffOn ℝ (n + 1 : ℕ) y J := by
      push_cast
      rw [contDiffOn_succ_iff_deriv_of_isOpen hJ]
      refine ⟨fun t ht => (hy t ht).2.differentiableAt.differentiableWithinAt, by simp, h.congr fun t ht => (hy t ht).2.deriv⟩
    refine (hF.of_le ?_).comp hy' fun t ht => (hy t ht).1
    exact_mod_cast (by omega : n + 1 ≤ 4)
  have h0 : ContDiffOn ℝ 0 (fun t => F (y t)) J := by
    rw [contDiffOn_zero]
    exact hF.continuousOn.comp (fun t ht => (hy t ht).2.continuousAt.continuousWithinAt) fun t ht => (hy t ht).1
  exact_mod_cast up 3 (by norm_num) (up 2 (by norm_num) (up 1 (by norm_num) (up 0 (by norm_num) (by exact_mod_cast h0))))

/-- The error of a step from a point of the solution, with the bounds near the solution. -/
theorem local4 [FiniteDimensional ℝ V] (s : ℕ) (σ : ℝ) {Ω : Set V} (hΩ : IsOpen Ω) {F : V → V} (hF : ContDiffOn ℝ 4 F Ω) {y : ℝ → V} {time ε : ℝ} (hε : 0 < ε)
    (hy : ∀ t ∈ Ioo (-ε) (time + ε), y t ∈ Ω ∧ HasDerivAt y (F (y t)) t) :
    ∃ C r B L Q H, 0 ≤ C ∧ 0 < r ∧ 0 ≤ B ∧ 0 ≤ L ∧ 0 < H ∧ (∀ h, 0 ≤ h → h ≤ H → h ≤ 1 ∧ h * (σ * B) ≤ r / 2 ∧ h * (σ * L) ≤ 1 / 2) ∧ (∀ t ∈ Icc 0 time, Near F (y t) r B L Q) ∧
      ∀ (T : Tableau ℝ s) (η : ℝ), T.explicit → size T ≤ σ → NearOrder4 T η → ∀ t ∈ Icc 0 time, ∀ h, 0 ≤ h → h ≤ H → ∀ l, T.IsSlopes F id h (y t) l → ‖T.result id h (y t) l - y (t + h)‖ ≤ C * (h ^ 5 + h * η) := by
  have hJ : IsOpen (Ioo (-ε) (time + ε)) := isOpen_Ioo
  have hI : Icc (-(ε / 2)) (time + ε / 2) ⊆ Ioo (-ε) (time + ε) := fun t ht => ⟨by linarith [ht.1], by linarith [ht.2]⟩
  -- derivatives of the solution
  have s1 := solution_smooth4 hJ hF hy
  set y2 := deriv fun t => F (y t) with hy2
  have s2 : ContDiffOn ℝ 3 y2 (Ioo (-ε) (time + ε)) := s1.deriv_of_isOpen hJ (by norm_num)
  set y3 := deriv y2 with hy3
  have s3 : ContDiffOn ℝ 2 y3 (Ioo (-ε) (time + ε)) := s2.deriv_of_isOpen hJ (by norm_num)
  set y4 := deriv y3 with hy4
  have s4 : ContDiffOn ℝ 1 y4 (Ioo (-ε) (time + ε)) := s3.deriv_of_isOpen hJ (by norm_num)
  set y5 := deriv y4 with hy5
  have s5 : ContDiffOn ℝ 0 y5 (Ioo (-ε) (time + ε)) := s4.deriv_of_isOpen hJ (by norm_num)
  have sy : ContDiffOn ℝ 2 y (Ioo (-ε) (time + ε)) := by
    rw [show (2 : WithTop ℕ∞) = 1 + 1 by norm_num, contDiffOn_succ_iff_deriv_of_isOpen hJ]
    exact ⟨fun t ht => (hy t ht).2.differentiableAt.differentiableWithinAt, by simp, (s1.of_le (by norm_num)).congr fun t ht => (hy t ht).2.deriv⟩
  have sJ : ContDiffOn ℝ 2 (fun t => fderiv ℝ F (y t)) (Ioo (-ε) (time + ε)) :=
    (hF.fderiv_of_isOpen hΩ (by norm_num) : ContDiffOn ℝ 2 (fderiv ℝ F) Ω).comp sy fun t ht => (hy t ht).1
  set J1 := deriv fun t => fderiv ℝ F (y t) with hJ1
  have sJ1 : ContDiffOn ℝ 1 J1 (Ioo (-ε) (time + ε)) := sJ.deriv_of_isOpen hJ (by norm_num)
  set J2 := deriv J1 with hJ2
  have sJ2 : ContDiffOn ℝ 0 J2 (Ioo (-ε) (time + ε)) := sJ1.deriv_of_isOpen hJ (by norm_num)
  have dJ1 : ∀ t ∈ Ioo (-ε) (time + ε), HasDerivAt (fun t => fderiv ℝ F (y t)) (J1 t) t := fun t ht => ((sJ.differentiableOn (by norm_num)).differentiableAt (hJ.mem_nhds ht)).hasDerivAt
  have dJ2 : ∀ t ∈ Ioo (-ε) (time + ε), HasDerivAt J1 (J2 t) t := fun t ht => ((sJ1.differentiableOn (by norm_num)).differentiableAt (hJ.mem_nhds ht)).hasDerivAt
  have d2 : ∀ t ∈ Ioo (-ε) (time + ε), HasDerivAt (fun t => F (y t)) (y2 t) t := fun t ht => ((s1.differentiableOn (by norm_num)).differentiableAt (hJ.mem_nhds ht)).hasDerivAt
  have d3 : ∀ t ∈ Ioo (-ε) (time + ε), HasDerivAt y2 (y3 t) t := fun t ht => ((s2.differentiableOn (by norm_num)).differentiableAt (hJ.mem_nhds ht)).hasDerivAt
  have d4 : ∀ t ∈ Ioo (-ε) (time + ε), HasDerivAt y3 (y4 t) t := fun t ht => ((s3.differentiableOn (by norm_num)).differentiableAt (hJ.mem_nhds ht)).hasDerivAt
  have d5 : ∀ t ∈ Ioo (-ε) (time + ε), HasDerivAt y4 (y5 t) t := fun t ht => ((s4.differentiableOn (by norm_num)).differentiableAt (hJ.mem_nhds ht)).hasDerivAt
  obtain ⟨M2, hM2⟩ := isCompact_Icc.exists_bound_of_continuousOn (s2.continuousOn.mono hI)
  obtain ⟨M3, hM3⟩ := isCompact_Icc.exists_bound_of_continuousOn (s3.continuousOn.mono hI)
  obtain ⟨M4, hM4⟩ := isCompact_Icc.exists_bound_of_continuousOn (s4.continuousOn.mono hI)
  obtain ⟨M5, hM5⟩ := isCompact_Icc.exists_bound_of_continuousOn (s5.continuousOn.mono hI)
  obtain ⟨N1, hN1⟩ := isCompact_Icc.exists_bound_of_continuousOn (sJ1.continuousOn.mono hI)
  obtain ⟨N2, hN2⟩ := isCompact_Icc.exists_bound_of_continuousOn (sJ2.continuousOn.mono hI)
  set M := |M2| + |M3| + |M4| + |M5| + |N1| + |N2| with hM
  have m2 : M2 ≤ M := by rw [hM]; linarith [le_abs_self M2, abs_nonneg M3, abs_nonneg M4, abs_nonneg M5, abs_nonneg N1, abs_nonneg N2]
  have m3 : M3 ≤ M := by rw [hM]; linarith [le_abs_self M3, abs_nonneg M2, abs_nonneg M4, abs_nonneg M5, abs_nonneg N1, abs_nonneg N2]
  have m4 : M4 ≤ M := by rw [hM]; linarith [le_abs_self M4, abs_nonneg M3, abs_nonneg M2, abs_nonneg M5, abs_nonneg N1, abs_nonneg N2]
  have m5 : M5 ≤ M := by rw [hM]; linarith [le_abs_self M5, abs_nonneg M3, abs_nonneg M4, abs_nonneg M2, abs_nonneg N1, abs_nonneg N2]
  have n1 : N1 ≤ M := by rw [hM]; linarith [le_abs_self N1, abs_nonneg M3, abs_nonneg M4, abs_nonneg M5, abs_nonneg M2, abs_nonneg N2]
  have n2 : N2 ≤ M := by rw [hM]; linarith [le_abs_self N2, abs_nonneg M3, abs_nonneg M4, abs_nonneg M5, abs_nonneg N1, abs_nonneg M2]
  have hM0 : 0 ≤ M := by positivity
  -- bounds near the solution
  have hyc : ContinuousOn y (Icc (-(ε / 2)) (time + ε / 2)) := fun t ht => (hy t (hI ht)).2.continuousAt.continuousWithinAt
  obtain ⟨r, hr, B, L, Q, hB, hL, hQ, hN⟩ := tube hΩ (hF.of_le (by norm_num)) (isCompact_Icc.image_of_continuousOn hyc) (image_subset_iff.2 fun t ht => (hy t (hI ht)).1)
  have hN' : ∀ t ∈ Icc (-(ε / 2)) (time + ε / 2), Near F (y t) r B L Q := fun t ht => hN _ (mem_image_of_mem y ht)
  -- how small steps have to be
  obtain ⟨h1, p1, q1⟩ := small 1 1 one_pos
  obtain ⟨h2, p2, q2⟩ := small 1 (ε / 2) (by positivity)
  obtain ⟨h3', p3, q3⟩ := small σ (ε / 2) (by positivity)
  obtain ⟨h4, p4, q4⟩ := small (σ * B) (r / 2) (by positivity)
  obtain ⟨h5, p5, q5⟩ := small (σ * L) (1 / 2) (by positivity)
  obtain ⟨h6, p6, q6⟩ := small (B * σ) (r / 2) (by positivity)
  set H := min h1 (min h2 (min h3' (min h4 (min h5 h6)))) with hH
  have hH0 : 0 < H := by simp [*]
  have hle : ∀ h, h ≤ H → h ≤ h1 ∧ h ≤ h2 ∧ h ≤ h3' ∧ h ≤ h4 ∧ h ≤ h5 ∧ h ≤ h6 := fun h hh => by simpa [hH] using hh
  have cj : ∀ (T : Tableau ℝ s) h, size T ≤ σ → 0 ≤ h → ∀ j, |T.c j * h| ≤ h * σ := fun T h hT h0 j => by
    rw [abs_mul, abs_of_nonneg h0, mul_comm]
    exact mul_le_mul_of_nonneg_left ((size_c T j).trans hT) h0
  have sz : ∀ (T : Tableau ℝ s) h X, size T ≤ σ → 0 ≤ h → 0 ≤ X → h * (size T * X) ≤ h * (σ * X) := fun T h X hT h0 hX => mul_le_mul_of_nonneg_left (mul_le_mul_of_nonneg_right hT hX) h0
  -- the error of a step
  let ι : Type := {q : (Tableau ℝ s × ℝ) × ℝ × ℝ × (Fin s → V) // (q.1.1.explicit ∧ size q.1.1 ≤ σ ∧ NearOrder4 q.1.1 q.1.2) ∧ q.2.1 ∈ Icc 0 time ∧ 0 ≤ q.2.2.1 ∧ q.2.2.1 ≤ H ∧ q.1.1.IsSlopes F id q.2.2.1 (y q.2.1) q.2.2.2}
  have inI : ∀ t ∈ Icc (0 : ℝ) time, ∀ τ, |τ| ≤ ε / 2 → t + τ ∈ Icc (-(ε / 2)) (time + ε / 2) := fun t ht τ hτ => by
    have := abs_le.1 hτ
    exact ⟨by linarith [ht.1], by linarith [ht.2]⟩
  have inI0 : ∀ t ∈ Icc (0 : ℝ) time, t ∈ Icc (-(ε / 2)) (time + ε / 2) := fun t ht => ⟨by linarith [ht.1], by linarith [ht.2]⟩
  have hcj : ∀ (q : ι) j, |q.1.1.1.c j * q.1.2.2.1| ≤ ε / 2 := fun q j => (cj _ _ q.2.1.2.1 q.2.2.2.1 j).trans (q3 _ q.2.2.2.1 (hle _ q.2.2.2.2.1).2.2.1).le
  have E := step_error4 (ι := ι) (F := F) (y := y) (y2 := y2) (y3 := y3) (y4 := y4) (y5 := y5) (J1 := J1) (J2 := J2) (t := fun q => q.1.2.1) (h := fun q => q.1.2.2.1) (η := fun q => q.1.1.2) (T := fun q => q.1.1.1) (k := fun q => q.1.2.2.2)
    (a := ε / 2) (r := r) (K := B) (L := L) (Q := Q) (M := M) (σ := σ) (fun q => q.2.1.1) (fun q => q.2.1.2.1) (fun q => q.2.1.2.2)
    (fun q => hN' _ (inI0 _ q.2.2.1)) (fun q j => hN' _ (inI _ q.2.2.1 _ (hcj q j))) hr hB hQ hM0 (fun q => q.2.2.2.1) (fun q => by have := q1 _ q.2.2.2.1 (hle _ q.2.2.2.2.1).1; linarith)
    (fun q => by have := q2 _ q.2.2.2.1 (hle _ q.2.2.2.2.1).2.1; linarith)
    hcj (fun q => (sz _ _ _ q.2.1.2.1 q.2.2.2.1 hB).trans_lt (q4 _ q.2.2.2.1 (hle _ q.2.2.2.2.1).2.2.2.1)) (fun q => q.2.2.2.2.2)
    (fun q τ hτ => (hy _ (hI (inI _ q.2.2.1 τ hτ))).2) (fun q τ hτ => d2 _ (hI (inI _ q.2.2.1 τ hτ))) (fun q τ hτ => d3 _ (hI (inI _ q.2.2.1 τ hτ))) (fun q τ hτ => d4 _ (hI (inI _ q.2.2.1 τ hτ)))
    (fun q τ hτ => d5 _ (hI (inI _ q.2.2.1 τ hτ))) (fun q τ hτ => dJ1 _ (hI (inI _ q.2.2.1 τ hτ))) (fun q τ hτ => dJ2 _ (hI (inI _ q.2.2.1 τ hτ)))
    (fun q => (hM2 _ (inI0 _ q.2.2.1)).trans m2) (fun q => (hM3 _ (inI0 _ q.2.2.1)).trans m3) (fun q => (hM4 _ (inI0 _ q.2.2.1)).trans m4)
    (fun q τ hτ => (hM4 _ (inI _ q.2.2.1 τ hτ)).trans m4) (fun q τ hτ => (hM5 _ (inI _ q.2.2.1 τ hτ)).trans m5)
    (fun q => (hN1 _ (inI0 _ q.2.2.1)).trans n1) (fun q τ hτ => (hN2 _ (inI _ q.2.2.1 τ hτ)).trans n2)
    (fun q j => by
      have := integrate (f := fun τ => y (q.1.2.1 + τ) - y q.1.2.1) (f' := fun τ => F (y (q.1.2.1 + τ))) (a := ε / 2) (K := B) 0 hB (by simp)
        (fun τ hτ => by simpa using ((hy _ (hI (inI _ q.2.2.1 τ hτ))).2.comp_const_add q.1.2.1 τ).sub_const (y q.1.2.1))
        (fun τ hτ => by simpa using (hN' _ (inI _ q.2.2.1 τ hτ)).value _ (mem_ball_self hr)) _ (hcj q j)
      rw [mem_ball_iff_norm]
      refine this.trans_lt ?_
      rw [zero_add, pow_one]
      refine (mul_le_mul_of_nonneg_left (cj _ _ q.2.1.2.1 q.2.2.2.1 j) hB).trans_lt ?_
      have := q6 _ q.2.2.2.1 (hle _ q.2.2.2.2.1).2.2.2.2.2
      linarith)
  obtain ⟨C, hC0, hC⟩ := E
  exact ⟨C, r, B, L, Q, H, hC0, hr, hB, hL, hH0, fun h h0 hh => ⟨by have := q1 h h0 (hle h hh).1; linarith, (q4 h h0 (hle h hh).2.2.2.1).le, (q5 h h0 (hle h hh).2.2.2.2.1).le⟩, fun t ht => hN' t (inI0 t ht),
    fun T η hT hσ hη t ht h h0 hh l hl => hC ⟨((T, η), t, h, l), ⟨hT, hσ, hη⟩, ht, h0, hh, hl⟩⟩

/-- Explicit methods that nearly have order four converge with the fourth power of the step, up to the defects of their conditions of order. -/
theorem converges4 [FiniteDimensional ℝ V] (s : ℕ) (σ : ℝ) (hσ0 : 0 ≤ σ) {Ω : Set V} (hΩ : IsOpen Ω) {F : V → V} (hF : ContDiffOn ℝ 4 F Ω) {y : ℝ → V} {time ε : ℝ} (hε : 0 < ε)
    (hy : ∀ t ∈ Ioo (-ε) (time + ε), y t ∈ Ω ∧ HasDerivAt y (F (y t)) t) :
    ∃ C h₀ η₀, 0 < h₀ ∧ 0 < η₀ ∧ ∀ (T : Tableau ℝ s) (η : ℝ), T.explicit → size T ≤ σ → NearOrder4 T η → η ≤ η₀ → ∀ h, 0 ≤ h → h ≤ h₀ → ∀ u : ℕ → V, u 0 = y 0 → (∀ n, ∃ k, T.IsSlopes F id h (u n) k ∧ u (n + 1) = T.result id h (u n) k) → ∀ n : ℕ, n * h ≤ time → ‖u n - y (n * h)‖ ≤ C * (h ^ 4 + η) := by
  obtain ⟨C, r, B, L, Q, H, hC0, hr, hB, hL, hH0, hle, hN, hC⟩ := local4 s σ hΩ hF hε hy
  have sz : ∀ (T : Tableau ℝ s) h X, size T ≤ σ → 0 ≤ h → 0 ≤ X → h * (size T * X) ≤ h * (σ * X) := fun T h X hT h0 hX => mul_le_mul_of_nonneg_left (mul_le_mul_of_nonneg_right hT hX) h0
  -- many steps
  set Λ := σ * (2 * L) with hΛ
  have hΛ0 : 0 ≤ Λ := mul_nonneg hσ0 (by positivity)
  set G := C * |time| * Real.exp (Λ * |time|) with hG
  have hG0 : 0 ≤ G := by positivity
  obtain ⟨h7, p7, q7⟩ := small G (r / 4) (by positivity)
  obtain ⟨η₀, p8, q8⟩ := small G (r / 4) (by positivity)
  refine ⟨G, min H h7, η₀, lt_min hH0 p7, p8, ?_⟩
  intro T η hT hσ hη hη₀ h h0 hh u hu0 hu n hn
  have hη0 : 0 ≤ η := (abs_nonneg _).trans hη.t1
  have hhH := hh.trans (min_le_left _ _)
  have hl1 : h ≤ 1 := (hle h h0 hhH).1
  have tot : ∀ j : ℕ, j ≤ n → C * (h ^ 5 + h * η) * j * Real.exp (Λ * (j * h)) ≤ G * (h ^ 4 + η) := by
    intro j hj
    have h8 : (j : ℝ) * h ≤ |time| := by
      have : (j : ℝ) ≤ n := by exact_mod_cast hj
      exact (mul_le_mul_of_nonneg_right this h0).trans (hn.trans (le_abs_self _))
    have h9 : Real.exp (Λ * (j * h)) ≤ Real.exp (Λ * |time|) := Real.exp_le_exp.2 (mul_le_mul_of_nonneg_left h8 hΛ0)
    have h10 := mul_le_mul h8 h9 (Real.exp_pos _).le (abs_nonneg _)
    have h11 := mul_le_mul_of_nonneg_left h10 (mul_nonneg hC0 (by positivity : 0 ≤ h ^ 4 + η))
    rw [hG]
    calc C * (h ^ 5 + h * η) * j * Real.exp (Λ * (j * h)) = C * (h ^ 4 + η) * (j * h * Real.exp (Λ * (j * h))) := by ring
      _ ≤ C * (h ^ 4 + η) * (|time| * Real.exp (Λ * |time|)) := h11
      _ = _ := by ring
  have acc := accumulate (Λ := Λ) (C := C * (h ^ 5 + h * η)) (h := h) hΛ0 (by positivity) h0 (e := fun n => ‖u n - y (n * h)‖) (fun _ => norm_nonneg _) (by simp [hu0]) n (by
    intro j hj hjb
    obtain ⟨k, hk, hk'⟩ := hu j
    have htj : (j : ℝ) * h ∈ Icc 0 time := by
      refine ⟨by positivity, le_trans ?_ hn⟩
      have : (j : ℝ) ≤ n := by exact_mod_cast hj.le
      exact mul_le_mul_of_nonneg_right this h0
    obtain ⟨l, hl⟩ := slopes_exist T hT F h (y (j * h))
    have e1 := hC T η hT hσ hη _ htj h h0 hhH l hl
    have hub : ‖u j - y (j * h)‖ < r / 2 := by
      refine (hjb.trans (tot j hj.le)).trans_lt ?_
      have e7 := q7 h h0 (hh.trans (min_le_right _ _))
      have e8 := q8 η hη0 hη₀
      have h12 : h ^ 4 ≤ h := by
        calc h ^ 4 ≤ h ^ 1 := pow_le_pow_of_le_one h0 hl1 (by norm_num)
          _ = h := pow_one h
      have := mul_le_mul_of_nonneg_left h12 hG0
      linarith
    have e2 := step_stable T (hN _ htj) hB hL hT h0 ((sz T h B hσ h0 hB).trans (hle h h0 hhH).2.1) ((sz T h L hσ h0 hL).trans (hle h h0 hhH).2.2) hub (by simpa using hr) hk hl
    have e2' := e2.trans (mul_le_mul_of_nonneg_right (add_le_add le_rfl (sz T h (2 * L) hσ h0 (by positivity))) (norm_nonneg _))
    show ‖u (j + 1) - y ((j + 1 : ℕ) * h)‖ ≤ (1 + h * Λ) * ‖u j - y (j * h)‖ + C * (h ^ 5 + h * η)
    have e3 : u (j + 1) - y ((j + 1 : ℕ) * h) = (T.result id h (u j) k - T.result id h (y (j * h)) l) + (T.result id h (y (j * h)) l - y (j * h + h)) := by
      rw [hk']
      have : ((j + 1 : ℕ) : ℝ) * h = j * h + h := by push_cast; ring
      rw [this]
      abel
    rw [e3]
    exact (norm_add_le _ _).trans (add_le_add e2' e1))
  exact acc.trans (tot n le_rfl)

/-- Steps of an explicit method depend on where they start, when the right hand side is Lipschitz continuous. -/
theorem step_lipschitz (T : Tableau ℝ s) {F : V → V} {L : ℝ} (hL : 0 ≤ L) (hF : ∀ v w, ‖F v - F w‖ ≤ L * ‖v - w‖) {h : ℝ} (h0 : 0 ≤ h) (hL2 : h * (size T * L) ≤ 1 / 2)
    {u v : V} {k l : Fin s → V} (hk : T.IsSlopes F id h u k) (hl : T.IsSlopes F id h v l) :
    ‖T.result id h u k - T.result id h v l‖ ≤ (1 + h * (size T * (2 * L))) * ‖u - v‖ := by
  have ha := size_nonneg T
  have hb : ∀ i, ‖k i - l i‖ ≤ 2 * L * ‖u - v‖ := by
    intro i
    have : Nonempty (Fin s) := ⟨i⟩
    obtain ⟨j, hj⟩ := Finite.exists_max fun i => ‖k i - l i‖
    refine (hj i).trans ?_
    have h1 : ‖∑ j', T.A j j' • (k j' - l j')‖ ≤ size T * ‖k j - l j‖ := sum_bound (norm_nonneg _) (size_row T j) fun j' _ => hj j'
    have h2 : stageValue T h u k j - stageValue T h v l j = (u - v) + h • ∑ j', T.A j j' • (k j' - l j') := by
      simp only [stageValue, smul_sub, Finset.sum_sub_distrib]
      abel
    have h3 : ‖stageValue T h u k j - stageValue T h v l j‖ ≤ ‖u - v‖ + h * (size T * ‖k j - l j‖) := by
      rw [h2]
      refine (norm_add_le _ _).trans (add_le_add_right ?_ _)
      rw [norm_smul, Real.norm_eq_abs, abs_of_nonneg h0]
      exact mul_le_mul_of_nonneg_left h1 h0
    have h4 : ‖k j - l j‖ ≤ L * ‖stageValue T h u k j - stageValue T h v l j‖ := by
      rw [hk j, hl j]
      exact hF _ _
    have h5 := h4.trans (mul_le_mul_of_nonneg_left h3 hL)
    have h6 := mul_le_mul_of_nonneg_right hL2 (norm_nonneg (k j - l j))
    nlinarith
  have h1 : ‖∑ j', T.b j' • (k j' - l j')‖ ≤ size T * (2 * L * ‖u - v‖) := sum_bound (by positivity) (size_b T) fun j' _ => hb j'
  have h2 : T.result id h u k - T.result id h v l = (u - v) + h • ∑ j', T.b j' • (k j' - l j') := by
    simp only [Tableau.result, id, smul_sub, Finset.sum_sub_distrib]
    abel
  rw [h2]
  refine (norm_add_le _ _).trans ?_
  rw [norm_smul, Real.norm_eq_abs, abs_of_nonneg h0, add_mul, one_mul]
  refine add_le_add_right ?_ _
  refine (mul_le_mul_of_nonneg_left h1 h0).trans (le_of_eq ?_)
  ring

/-- With a Lipschitz continuous right hand side the conditions of order may hold up to anything. -/
theorem converges4_lipschitz [FiniteDimensional ℝ V] (s : ℕ) (σ : ℝ) (hσ0 : 0 ≤ σ) {Ω : Set V} (hΩ : IsOpen Ω) {F : V → V} (hF : ContDiffOn ℝ 4 F Ω) {L : ℝ} (hL : 0 ≤ L) (hFL : ∀ v w, ‖F v - F w‖ ≤ L * ‖v - w‖) {y : ℝ → V} {time ε : ℝ} (hε : 0 < ε)
    (hy : ∀ t ∈ Ioo (-ε) (time + ε), y t ∈ Ω ∧ HasDerivAt y (F (y t)) t) :
    ∃ C h₀, 0 < h₀ ∧ ∀ (T : Tableau ℝ s) (η : ℝ), T.explicit → size T ≤ σ → NearOrder4 T η → ∀ h, 0 ≤ h → h ≤ h₀ → ∀ u : ℕ → V, u 0 = y 0 → (∀ n, ∃ k, T.IsSlopes F id h (u n) k ∧ u (n + 1) = T.result id h (u n) k) → ∀ n : ℕ, n * h ≤ time → ‖u n - y (n * h)‖ ≤ C * (h ^ 4 + η) := by
  obtain ⟨C, -, -, -, -, H, hC0, -, -, -, hH0, -, -, hC⟩ := local4 s σ hΩ hF hε hy
  have sz : ∀ (T : Tableau ℝ s) h X, size T ≤ σ → 0 ≤ h → 0 ≤ X → h * (size T * X) ≤ h * (σ * X) := fun T h X hT h0 hX => mul_le_mul_of_nonneg_left (mul_le_mul_of_nonneg_right hT hX) h0
  -- many steps
  set Λ := σ * (2 * L) with hΛ
  have hΛ0 : 0 ≤ Λ := mul_nonneg hσ0 (by positivity)
  set G := C * |time| * Real.exp (Λ * |time|) with hG
  have hG0 : 0 ≤ G := by positivity
  obtain ⟨h7, p7, q7⟩ := small (σ * L) (1 / 2) (by positivity)
  refine ⟨G, min H h7, lt_min hH0 p7, ?_⟩
  intro T η hT hσ hη h h0 hh u hu0 hu n hn
  have hη0 : 0 ≤ η := (abs_nonneg _).trans hη.t1
  have hhH := hh.trans (min_le_left _ _)
  have tot : ∀ j : ℕ, j ≤ n → C * (h ^ 5 + h * η) * j * Real.exp (Λ * (j * h)) ≤ G * (h ^ 4 + η) := by
    intro j hj
    have h8 : (j : ℝ) * h ≤ |time| := by
      have : (j : ℝ) ≤ n := by exact_mod_cast hj
      exact (mul_le_mul_of_nonneg_right this h0).trans (hn.trans (le_abs_self _))
    have h9 : Real.exp (Λ * (j * h)) ≤ Real.exp (Λ * |time|) := Real.exp_le_exp.2 (mul_le_mul_of_nonneg_left h8 hΛ0)
    have h10 := mul_le_mul h8 h9 (Real.exp_pos _).le (abs_nonneg _)
    have h11 := mul_le_mul_of_nonneg_left h10 (mul_nonneg hC0 (by positivity : 0 ≤ h ^ 4 + η))
    rw [hG]
    calc C * (h ^ 5 + h * η) * j * Real.exp (Λ * (j * h)) = C * (h ^ 4 + η) * (j * h * Real.exp (Λ * (j * h))) := by ring
      _ ≤ C * (h ^ 4 + η) * (|time| * Real.exp (Λ * |time|)) := h11
      _ = _ := by ring
  have acc := accumulate (Λ := Λ) (C := C * (h ^ 5 + h * η)) (h := h) hΛ0 (by positivity) h0 (e := fun n => ‖u n - y (n * h)‖) (fun _ => norm_nonneg _) (by simp [hu0]) n (by
    intro j hj _
    obtain ⟨k, hk, hk'⟩ := hu j
    have htj : (j : ℝ) * h ∈ Icc 0 time := by
      refine ⟨by positivity, le_trans ?_ hn⟩
      have : (j : ℝ) ≤ n := by exact_mod_cast hj.le
      exact mul_le_mul_of_nonneg_right this h0
    obtain ⟨l, hl⟩ := slopes_exist T hT F h (y (j * h))
    have e1 := hC T η hT hσ hη _ htj h h0 hhH l hl
    have e2 := step_lipschitz T hL hFL h0 ((sz T h L hσ h0 hL).trans (q7 h h0 (hh.trans (min_le_right _ _))).le) hk hl
    have e2' := e2.trans (mul_le_mul_of_nonneg_right (add_le_add le_rfl (sz T h (2 * L) hσ h0 (by positivity))) (norm_nonneg _))
    show ‖u (j + 1) - y ((j + 1 : ℕ) * h)‖ ≤ (1 + h * Λ) * ‖u j - y (j * h)‖ + C * (h ^ 5 + h * η)
    have e3 : u (j + 1) - y ((j + 1 : ℕ) * h) = (T.result id h (u j) k - T.result id h (y (j * h)) l) + (T.result id h (y (j * h)) l - y (j * h + h)) := by
      rw [hk']
      have : ((j + 1 : ℕ) : ℝ) * h = j * h + h := by push_cast; ring
      rw [this]
      abel
    rw [e3]
    exact (norm_add_le _ _).trans (add_le_add e2' e1))
  exact acc.trans (tot n le_rfl)

end OpenSBLI.TimeOrder
