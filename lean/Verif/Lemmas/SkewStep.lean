import Mathlib.Analysis.InnerProductSpace.Basic
import Mathlib.Analysis.InnerProductSpace.PiL2
import Mathlib.Tactic.Module
import Mathlib.Tactic.LinearCombination

/-!
# Third order Runge-Kutta steps with a skew operator
-/
namespace OpenSBLI.Order
open scoped RealInnerProductSpace

variable {H : Type} [NormedAddCommGroup H] [InnerProductSpace ℝ H]

/-- The step of a third order method for a linear problem. -/
noncomputable def amplify (A : H →ₗ[ℝ] H) (dt : ℝ) (v : H) : H := v + dt • A v + (dt ^ 2 / 2) • A (A v) + (dt ^ 3 / 6) • A (A (A v))

theorem amplify_sub (A : H →ₗ[ℝ] H) (dt : ℝ) (v w : H) : amplify A dt (v - w) = amplify A dt v - amplify A dt w := by
  simp only [amplify, map_sub, smul_sub]
  abel

/-- Norms do not grow within the stability limit. -/
theorem amplify_norm (A : H →ₗ[ℝ] H) (hA : ∀ v w, ⟪A v, w⟫ = -⟪v, A w⟫) (K dt : ℝ) (hK : ∀ v, ‖A v‖ ≤ K * ‖v‖) (hdt : 0 ≤ dt) (hcfl : dt * K ≤ √3) (v : H) : ‖amplify A dt v‖ ≤ ‖v‖ := by
  have hz : ∀ w, ⟪A w, w⟫ = 0 := fun w => by
    have := hA w w
    rw [real_inner_comm] at this
    have h2 : ⟪w, A w⟫ = ⟪A w, w⟫ := real_inner_comm _ _
    linarith
  have hz' : ∀ w, ⟪w, A w⟫ = 0 := fun w => by rw [real_inner_comm]; exact hz w
  set a := A v
  set b := A a
  set c := A b
  have e1 : ⟪v, a⟫ = 0 := hz' v
  have e2 : ⟪v, b⟫ = -⟪a, a⟫ := by have := hA v a; linarith
  have e3 : ⟪v, c⟫ = 0 := by
    have h1 := hA v b
    have h2 : ⟪a, b⟫ = 0 := hz' a
    linarith
  have e4 : ⟪a, b⟫ = 0 := hz' a
  have e5 : ⟪a, c⟫ = -⟪b, b⟫ := by have := hA a b; linarith
  have e6 : ⟪b, c⟫ = 0 := hz' b
  have hexp : ‖amplify A dt v‖ ^ 2 = ‖v‖ ^ 2 - dt ^ 4 / 12 * ‖b‖ ^ 2 + dt ^ 6 / 36 * ‖c‖ ^ 2 := by
    rw [← real_inner_self_eq_norm_sq, ← real_inner_self_eq_norm_sq, ← real_inner_self_eq_norm_sq, ← real_inner_self_eq_norm_sq]
    have e1' : ⟪a, v⟫ = 0 := by rw [real_inner_comm]; exact e1
    have e2' : ⟪b, v⟫ = -⟪a, a⟫ := by rw [real_inner_comm]; exact e2
    have e3' : ⟪c, v⟫ = 0 := by rw [real_inner_comm]; exact e3
    have e4' : ⟪b, a⟫ = 0 := by rw [real_inner_comm]; exact e4
    have e5' : ⟪c, a⟫ = -⟪b, b⟫ := by rw [real_inner_comm]; exact e5
    have e6' : ⟪c, b⟫ = 0 := by rw [real_inner_comm]; exact e6
    change ⟪v + dt • a + (dt ^ 2 / 2) • b + (dt ^ 3 / 6) • c, v + dt • a + (dt ^ 2 / 2) • b + (dt ^ 3 / 6) • c⟫ = _
    simp only [inner_add_left, inner_add_right, real_inner_smul_left, real_inner_smul_right, e1, e2, e3, e4, e5, e6, e1', e2', e3', e4', e5', e6']
    ring
  have hc : dt ^ 2 * ‖c‖ ^ 2 ≤ 3 * ‖b‖ ^ 2 := by
    have h1 : dt * ‖c‖ ≤ √3 * ‖b‖ := by
      calc dt * ‖c‖ ≤ dt * (K * ‖b‖) := mul_le_mul_of_nonneg_left (hK b) hdt
        _ = dt * K * ‖b‖ := by ring
        _ ≤ √3 * ‖b‖ := mul_le_mul_of_nonneg_right hcfl (norm_nonneg _)
    have h2 := pow_le_pow_left₀ (by positivity) h1 2
    rw [mul_pow, mul_pow, Real.sq_sqrt (by norm_num)] at h2
    exact h2
  have hsq : ‖amplify A dt v‖ ^ 2 ≤ ‖v‖ ^ 2 := by
    rw [hexp]
    have : dt ^ 6 / 36 * ‖c‖ ^ 2 ≤ dt ^ 4 / 12 * ‖b‖ ^ 2 := by
      have := mul_le_mul_of_nonneg_left hc (show 0 ≤ dt ^ 4 / 36 by positivity)
      calc dt ^ 6 / 36 * ‖c‖ ^ 2 = dt ^ 4 / 36 * (dt ^ 2 * ‖c‖ ^ 2) := by ring
        _ ≤ dt ^ 4 / 36 * (3 * ‖b‖ ^ 2) := this
        _ = _ := by ring
    linarith
  exact le_of_sq_le_sq hsq (norm_nonneg _)

/-- Errors add up. -/
theorem amplify_error (A : H →ₗ[ℝ] H) (hA : ∀ v w, ⟪A v, w⟫ = -⟪v, A w⟫) (K dt : ℝ) (hK : ∀ v, ‖A v‖ ≤ K * ‖v‖) (hdt : 0 ≤ dt) (hcfl : dt * K ≤ √3) (u v : ℕ → H) (ε : ℝ) (N : ℕ)
    (hu : ∀ k, u (k + 1) = amplify A dt (u k)) (hv : ∀ k < N, ‖v (k + 1) - amplify A dt (v k)‖ ≤ ε) (h0 : u 0 = v 0) : ∀ k ≤ N, ‖u k - v k‖ ≤ k * ε := by
  intro k
  induction k with
  | zero => intro _; simp [h0]
  | succ k ih =>
    intro hk
    have h1 : u (k + 1) - v (k + 1) = amplify A dt (u k - v k) - (v (k + 1) - amplify A dt (v k)) := by rw [hu, amplify_sub]; abel
    rw [h1]
    refine (norm_sub_le _ _).trans ?_
    have h2 := amplify_norm A hA K dt hK hdt hcfl (u k - v k)
    have h3 := ih (by omega)
    have h4 := hv k (by omega)
    push_cast
    linarith

end OpenSBLI.Order
