import Verif.Lemmas.SkewStep
import Mathlib.Tactic.Linarith
import Mathlib.Tactic.Positivity

/-!
# Steps of five stages with a skew operator
-/
namespace OpenSBLI.Order
open scoped RealInnerProductSpace

variable {H : Type} [NormedAddCommGroup H] [InnerProductSpace ℝ H]

/-- The step of an explicit five stage method for a linear problem. -/
noncomputable def amplify5 (p : ℕ → ℝ) (A : H →ₗ[ℝ] H) (dt : ℝ) (v : H) : H :=
  v + (dt * p 1) • A v + (dt ^ 2 * p 2) • A (A v) + (dt ^ 3 * p 3) • A (A (A v)) + (dt ^ 4 * p 4) • A (A (A (A v))) + (dt ^ 5 * p 5) • A (A (A (A (A v))))

theorem amplify5_sub (p : ℕ → ℝ) (A : H →ₗ[ℝ] H) (dt : ℝ) (v w : H) : amplify5 p A dt (v - w) = amplify5 p A dt v - amplify5 p A dt w := by
  simp only [amplify5, map_sub, smul_sub]
  abel

/-- The modulus of the polynomial on the imaginary axis does not exceed one up to `10/3`. -/
structure Modulus (p : ℕ → ℝ) : Prop where
  c1 : p 1 ^ 2 - 2 * p 2 ≤ -2/10^15
  c2 : p 2 ^ 2 + 2 * p 4 - 2 * p 1 * p 3 ≤ 3/10^14
  c3 : p 3 ^ 2 - 2 * p 2 * p 4 + 2 * p 1 * p 5 ≤ -3888/10^6
  c4 : p 4 ^ 2 - 2 * p 3 * p 5 ≤ 695/10^7
  c5 : p 5 ^ 2 ≤ 2501/10^8

/-- A middle term is dominated by its neighbours. -/
theorem middle_le {x1 x2 x3 : ℝ} (n1 : 0 ≤ x1) (n3 : 0 ≤ x3) (l2 : x2 ^ 2 ≤ x1 * x3) : 3/10^14 * x2 ≤ 2/10^15 * x1 + 1/10^5 * x3 := by
  have h0 : 0 ≤ 2/10^15 * x1 + 1/10^5 * x3 := by positivity
  refine le_of_sq_le_sq ?_ h0
  have hx : 0 ≤ x1 * x3 := mul_nonneg n1 n3
  have e1 : (3/10^14 * x2) ^ 2 = (9/10^28 : ℝ) * x2 ^ 2 := by ring
  have e2 : (2/10^15 * x1 + 1/10^5 * x3) ^ 2 = (2/10^15 * x1 - 1/10^5 * x3) ^ 2 + (8/10^20 : ℝ) * (x1 * x3) := by ring
  have h3 := sq_nonneg (2/10^15 * x1 - 1/10^5 * x3)
  have h4 : (9/10^28 : ℝ) * x2 ^ 2 ≤ 9/10^28 * (x1 * x3) := mul_le_mul_of_nonneg_left l2 (by positivity)
  have h5 : (9/10^28 : ℝ) * (x1 * x3) ≤ 8/10^20 * (x1 * x3) := mul_le_mul_of_nonneg_right (by norm_num) hx
  rw [e1, e2]
  linarith

theorem Modulus.sum_nonpos {p : ℕ → ℝ} (hp : Modulus p) {x1 x2 x3 x4 x5 : ℝ} (n1 : 0 ≤ x1) (n2 : 0 ≤ x2) (n3 : 0 ≤ x3) (n4 : 0 ≤ x4) (l2 : x2 ^ 2 ≤ x1 * x3) (l4 : x4 ≤ 100/9 * x3) (l5 : x5 ≤ 100/9 * x4) (n5 : 0 ≤ x5) :
    (p 1 ^ 2 - 2 * p 2) * x1 + (p 2 ^ 2 + 2 * p 4 - 2 * p 1 * p 3) * x2 + (p 3 ^ 2 - 2 * p 2 * p 4 + 2 * p 1 * p 5) * x3 + (p 4 ^ 2 - 2 * p 3 * p 5) * x4 + p 5 ^ 2 * x5 ≤ 0 := by
  have t1 := mul_le_mul_of_nonneg_right hp.c1 n1
  have t2 := mul_le_mul_of_nonneg_right hp.c2 n2
  have t3 := mul_le_mul_of_nonneg_right hp.c3 n3
  have t4 := mul_le_mul_of_nonneg_right hp.c4 n4
  have t5 := mul_le_mul_of_nonneg_right hp.c5 n5
  have hm := middle_le n1 n3 l2
  have s5 : (2501/10^8 : ℝ) * x5 ≤ 2501/10^8 * (100/9 * (100/9 * x3)) := mul_le_mul_of_nonneg_left (by linarith) (by positivity)
  have s4 : (695/10^7 : ℝ) * x4 ≤ 695/10^7 * (100/9 * x3) := mul_le_mul_of_nonneg_left l4 (by positivity)
  have s3 : (695/10^7 : ℝ) * (100/9 * x3) + 2501/10^8 * (100/9 * (100/9 * x3)) + 1/10^5 * x3 ≤ 3888/10^6 * x3 := by
    have : (695/10^7 : ℝ) * (100/9 * x3) + 2501/10^8 * (100/9 * (100/9 * x3)) + 1/10^5 * x3 = (695/10^7 * (100/9) + 2501/10^8 * (100/9 * (100/9)) + 1/10^5) * x3 := by ring
    rw [this]
    exact mul_le_mul_of_nonneg_right (by norm_num) n3
  have u1 : (-2/10^15 : ℝ) * x1 = -(2/10^15 * x1) := by ring
  have u3 : (-3888/10^6 : ℝ) * x3 = -(3888/10^6 * x3) := by ring
  rw [u1] at t1
  rw [u3] at t3
  linarith

/-- Norms do not grow within the stability limit. -/
theorem amplify5_norm {p : ℕ → ℝ} (hp : Modulus p) (A : H →ₗ[ℝ] H) (hA : ∀ v w, ⟪A v, w⟫ = -⟪v, A w⟫) (K dt : ℝ) (hK : ∀ v, ‖A v‖ ≤ K * ‖v‖) (hdt : 0 ≤ dt) (hcfl : dt * K ≤ 10/3) (v : H) :
    ‖amplify5 p A dt v‖ ≤ ‖v‖ := by
  have hz' : ∀ w, ⟪w, A w⟫ = 0 := fun w => by
    have := hA w w
    have h2 : ⟪w, A w⟫ = ⟪A w, w⟫ := real_inner_comm _ _
    linarith
  set a := A v
  set b := A a
  set c := A b
  set d := A c
  set e := A d
  have va : ⟪v, a⟫ = 0 := hz' v
  have ab : ⟪a, b⟫ = 0 := hz' a
  have bc : ⟪b, c⟫ = 0 := hz' b
  have cd : ⟪c, d⟫ = 0 := hz' c
  have de : ⟪d, e⟫ = 0 := hz' d
  have vb : ⟪v, b⟫ = -⟪a, a⟫ := by have := hA v a; linarith
  have ac : ⟪a, c⟫ = -⟪b, b⟫ := by have := hA a b; linarith
  have bd : ⟪b, d⟫ = -⟪c, c⟫ := by have := hA b c; linarith
  have ce : ⟪c, e⟫ = -⟪d, d⟫ := by have := hA c d; linarith
  have vc : ⟪v, c⟫ = 0 := by have := hA v b; linarith
  have ad : ⟪a, d⟫ = 0 := by have := hA a c; linarith
  have be : ⟪b, e⟫ = 0 := by have := hA b d; linarith
  have vd : ⟪v, d⟫ = ⟪b, b⟫ := by have := hA v c; linarith
  have ae : ⟪a, e⟫ = ⟪c, c⟫ := by have := hA a d; linarith
  have ve : ⟪v, e⟫ = 0 := by have := hA v d; linarith
  have hexp : ‖amplify5 p A dt v‖ ^ 2 = ‖v‖ ^ 2 + (p 1 ^ 2 - 2 * p 2) * (dt ^ 2 * ‖a‖ ^ 2) + (p 2 ^ 2 + 2 * p 4 - 2 * p 1 * p 3) * (dt ^ 4 * ‖b‖ ^ 2)
      + (p 3 ^ 2 - 2 * p 2 * p 4 + 2 * p 1 * p 5) * (dt ^ 6 * ‖c‖ ^ 2) + (p 4 ^ 2 - 2 * p 3 * p 5) * (dt ^ 8 * ‖d‖ ^ 2) + p 5 ^ 2 * (dt ^ 10 * ‖e‖ ^ 2) := by
    simp only [← real_inner_self_eq_norm_sq]
    have va' : ⟪a, v⟫ = 0 := by rw [real_inner_comm]; exact va
    have ab' : ⟪b, a⟫ = 0 := by rw [real_inner_comm]; exact ab
    have bc' : ⟪c, b⟫ = 0 := by rw [real_inner_comm]; exact bc
    have cd' : ⟪d, c⟫ = 0 := by rw [real_inner_comm]; exact cd
    have de' : ⟪e, d⟫ = 0 := by rw [real_inner_comm]; exact de
    have vb' : ⟪b, v⟫ = -⟪a, a⟫ := by rw [real_inner_comm]; exact vb
    have ac' : ⟪c, a⟫ = -⟪b, b⟫ := by rw [real_inner_comm]; exact ac
    have bd' : ⟪d, b⟫ = -⟪c, c⟫ := by rw [real_inner_comm]; exact bd
    have ce' : ⟪e, c⟫ = -⟪d, d⟫ := by rw [real_inner_comm]; exact ce
    have vc' : ⟪c, v⟫ = 0 := by rw [real_inner_comm]; exact vc
    have ad' : ⟪d, a⟫ = 0 := by rw [real_inner_comm]; exact ad
    have be' : ⟪e, b⟫ = 0 := by rw [real_inner_comm]; exact be
    have vd' : ⟪d, v⟫ = ⟪b, b⟫ := by rw [real_inner_comm]; exact vd
    have ae' : ⟪e, a⟫ = ⟪c, c⟫ := by rw [real_inner_comm]; exact ae
    have ve' : ⟪e, v⟫ = 0 := by rw [real_inner_comm]; exact ve
    change ⟪v + (dt * p 1) • a + (dt ^ 2 * p 2) • b + (dt ^ 3 * p 3) • c + (dt ^ 4 * p 4) • d + (dt ^ 5 * p 5) • e,
      v + (dt * p 1) • a + (dt ^ 2 * p 2) • b + (dt ^ 3 * p 3) • c + (dt ^ 4 * p 4) • d + (dt ^ 5 * p 5) • e⟫ = _
    simp only [inner_add_left, inner_add_right, real_inner_smul_left, real_inner_smul_right, va, ab, bc, cd, de, vb, ac, bd, ce, vc, ad, be, vd, ae, ve, va', ab', bc', cd', de', vb', ac', bd', ce', vc', ad', be', vd', ae', ve']
    ring
  have step : ∀ w, dt ^ 2 * ‖A w‖ ^ 2 ≤ 100/9 * ‖w‖ ^ 2 := by
    intro w
    have h1 : dt * ‖A w‖ ≤ 10/3 * ‖w‖ := by
      calc dt * ‖A w‖ ≤ dt * (K * ‖w‖) := mul_le_mul_of_nonneg_left (hK w) hdt
        _ = dt * K * ‖w‖ := by ring
        _ ≤ 10/3 * ‖w‖ := mul_le_mul_of_nonneg_right hcfl (norm_nonneg _)
    have h2 := pow_le_pow_left₀ (by positivity) h1 2
    rw [mul_pow, mul_pow] at h2
    linarith
  obtain ⟨x1, h1⟩ : ∃ x, x = dt ^ 2 * ‖a‖ ^ 2 := ⟨_, rfl⟩
  obtain ⟨x2, h2⟩ : ∃ x, x = dt ^ 4 * ‖b‖ ^ 2 := ⟨_, rfl⟩
  obtain ⟨x3, h3⟩ : ∃ x, x = dt ^ 6 * ‖c‖ ^ 2 := ⟨_, rfl⟩
  obtain ⟨x4, h4⟩ : ∃ x, x = dt ^ 8 * ‖d‖ ^ 2 := ⟨_, rfl⟩
  obtain ⟨x5, h5⟩ : ∃ x, x = dt ^ 10 * ‖e‖ ^ 2 := ⟨_, rfl⟩
  have n1 : 0 ≤ x1 := by rw [h1]; positivity
  have n2 : 0 ≤ x2 := by rw [h2]; positivity
  have n3 : 0 ≤ x3 := by rw [h3]; positivity
  have n4 : 0 ≤ x4 := by rw [h4]; positivity
  have n5 : 0 ≤ x5 := by rw [h5]; positivity
  have l4 : x4 ≤ 100/9 * x3 := by
    have := mul_le_mul_of_nonneg_left (step c) (show 0 ≤ dt ^ 6 by positivity)
    rw [h4, h3]; change dt ^ 6 * (dt ^ 2 * ‖d‖ ^ 2) ≤ _ at this; linarith
  have l5 : x5 ≤ 100/9 * x4 := by
    have := mul_le_mul_of_nonneg_left (step d) (show 0 ≤ dt ^ 8 by positivity)
    rw [h5, h4]; change dt ^ 8 * (dt ^ 2 * ‖e‖ ^ 2) ≤ _ at this; linarith
  have l2 : x2 ^ 2 ≤ x1 * x3 := by
    have hb : ‖b‖ ^ 2 ≤ ‖a‖ * ‖c‖ := by
      rw [← real_inner_self_eq_norm_sq]
      have := abs_real_inner_le_norm a c
      rw [ac, abs_neg] at this
      exact (le_abs_self _).trans this
    have hb2 := pow_le_pow_left₀ (by positivity) hb 2
    rw [h1, h2, h3]
    calc (dt ^ 4 * ‖b‖ ^ 2) ^ 2 = dt ^ 8 * (‖b‖ ^ 2) ^ 2 := by ring
      _ ≤ dt ^ 8 * (‖a‖ * ‖c‖) ^ 2 := mul_le_mul_of_nonneg_left hb2 (by positivity)
      _ = _ := by ring
  have hsq : ‖amplify5 p A dt v‖ ^ 2 ≤ ‖v‖ ^ 2 := by
    rw [hexp, ← h1, ← h2, ← h3, ← h4, ← h5]
    have := hp.sum_nonpos n1 n2 n3 n4 l2 l4 l5 n5
    linarith
  exact le_of_sq_le_sq hsq (norm_nonneg _)

/-- Errors add up. -/
theorem amplify5_error {p : ℕ → ℝ} (hp : Modulus p) (A : H →ₗ[ℝ] H) (hA : ∀ v w, ⟪A v, w⟫ = -⟪v, A w⟫) (K dt : ℝ) (hK : ∀ v, ‖A v‖ ≤ K * ‖v‖) (hdt : 0 ≤ dt) (hcfl : dt * K ≤ 10/3) (u v : ℕ → H) (ε : ℝ)
    (N : ℕ) (hu : ∀ k, u (k + 1) = amplify5 p A dt (u k)) (hv : ∀ k < N, ‖v (k + 1) - amplify5 p A dt (v k)‖ ≤ ε) (h0 : u 0 = v 0) : ∀ k ≤ N, ‖u k - v k‖ ≤ k * ε := by
  intro k
  induction k with
  | zero => intro _; simp [h0]
  | succ k ih =>
    intro hk
    have h1 : u (k + 1) - v (k + 1) = amplify5 p A dt (u k - v k) - (v (k + 1) - amplify5 p A dt (v k)) := by rw [hu, amplify5_sub]; abel
    rw [h1]
    refine (norm_sub_le _ _).trans ?_
    have h2 := amplify5_norm hp A hA K dt hK hdt hcfl (u k - v k)
    have h3 := ih (by omega)
    have h4 := hv k (by omega)
    push_cast
    linarith

end OpenSBLI.Order
