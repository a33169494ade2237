import Verif.Model.Teno
import Verif.Props.C09_C10_Weno

/-!
# C11, C12, C13: TENO
-/
namespace OpenSBLI.Teno
open Weno (Side funcPoint)
open Finset Polynomial Spec

set_option linter.unusedSectionVars false

/-! ## C12 -/

theorem enoCoeff_cast (side : Side) (k r j : ℕ) :
    Weno.enoCoeff ℝ side k r j = ((Weno.enoCoeff ℚ side k r j : ℚ) : ℝ) := by
  unfold Weno.enoCoeff
  push_cast
  rfl

/-- The ENO candidate each TENO stencil corresponds to: `(k, r)`. -/
def stencilOf : Side → ℕ → ℕ × ℕ
  | .right, 0 => (3, 1)
  | .right, 1 => (3, 0)
  | .right, 2 => (3, 2)
  | .right, _ => (4, 0)
  | .left, 0 => (3, 1)
  | .left, 1 => (3, 2)
  | .left, 2 => (3, 0)
  | .left, _ => (4, 3)

theorem points_eq (side : Side) (i : ℕ) (hi : i < 4) :
    points side i = (List.range (stencilOf side i).1).map
      (fun j => funcPoint side (stencilOf side i).2 j) := by
  interval_cases i <;> cases side <;> decide

theorem coeffs_eq (side : Side) (i : ℕ) (hi : i < 4) :
    (coeffs side i : List ℚ) = (List.range (stencilOf side i).1).map
      (fun j => Weno.enoCoeff ℚ side (stencilOf side i).1 (stencilOf side i).2 j) := by
  interval_cases i <;> cases side <;> decide +kernel

theorem coeffs_cast (side : Side) (i : ℕ) :
    (coeffs side i : List ℝ) = (coeffs side i : List ℚ).map (fun q : ℚ => (q:ℝ)) := by
  rcases i with _ | _ | _ | _ | i <;> cases side <;> simp [coeffs]

theorem candidate_eq (side : Side) (i : ℕ) (hi : i < 4) (f : ℤ → ℝ) :
    candidate side i f = Weno.candidate side (stencilOf side i).1 (stencilOf side i).2 f := by
  unfold candidate Weno.candidate
  rw [coeffs_cast, coeffs_eq side i hi, points_eq side i hi, List.map_map, List.zip_map',
    List.map_map, Weno.list_sum_range]
  apply Finset.sum_congr rfl
  intro j _
  simp only [Function.comp_apply]
  rw [enoCoeff_cast, mul_comm]

/-- Number of cells of stencil `i`. -/
theorem length_points (side : Side) (i : ℕ) (hi : i < 4) :
    (points side i).length = if i = 3 then 4 else 3 := by
  interval_cases i <;> cases side <;> rfl

/-- **C12.** Every TENO candidate is exact on cell averages of polynomials with fewer coefficients
than the stencil has cells. -/
theorem C12_candidate_exact (o : Order) (side : Side) (i : ℕ) (hi : i < o.n) (P : ℝ[X])
    (hP : P.natDegree < (points side i).length) (x h : ℝ) (hh : h ≠ 0) :
    candidate side i (cellAverage P x h) = P.eval x := by
  have h4 : i < 4 := lt_of_lt_of_le hi (by cases o <;> decide)
  rw [candidate_eq side i h4]
  apply Weno.C06_candidate_exact_on_polynomials _ _ _ _ _ _ _ hh
  rw [points_eq side i h4, List.length_map, List.length_range] at hP
  exact hP

/-- **C12.** The linear weights sum to one. -/
theorem C12_linear_weights_sum_to_one (o : Order) : ∑ r ∈ range o.n, (opt o r : ℝ) = 1 := by
  cases o <;> simp [Order.n, opt, Finset.sum_range_succ] <;> norm_num

/-- **C12.** The linear weights are positive. -/
theorem C12_linear_weights_positive (o : Order) (r : ℕ) (hr : r < o.n) : (0:ℝ) < opt o r := by
  cases o <;> simp only [Order.n] at hr <;> interval_cases r <;> norm_num [opt]

/-- The linear scheme: candidates combined with the linear weights. -/
noncomputable def linearScheme (o : Order) (side : Side) (f : ℤ → ℝ) : ℝ :=
  ∑ r ∈ range o.n, opt o r * candidate side r f

/-- Degree up to which the linear scheme is exact. -/
def exactDegree : Order → ℕ
  | .five => 3
  | .six => 4

theorem cellAverage_monomials (P : ℝ[X]) (n : ℕ) (hP : P.natDegree < n) (x h : ℝ) (hh : h ≠ 0) :
    ∃ a : ℕ → ℝ, P.eval x = a 0 ∧ ∀ m : ℤ, cellAverage P x h m =
      ∑ i ∈ range n, a i * (((m:ℝ))^(i+1) - ((m:ℝ)-1)^(i+1)) / (i+1) := by
  set Q := P.comp (C x + C h * X) with hQ
  have hQd : Q.natDegree < n := by
    refine lt_of_le_of_lt natDegree_comp_le ?_
    have : (C x + C h * X : ℝ[X]).natDegree ≤ 1 := by
      refine (natDegree_add_le _ _).trans (max_le (by simp) ?_)
      exact (natDegree_C_mul_le _ _).trans natDegree_X_le
    calc P.natDegree * _ ≤ P.natDegree * 1 := Nat.mul_le_mul_left _ this
      _ < n := by omega
  refine ⟨Q.coeff, ?_, ?_⟩
  · rw [coeff_zero_eq_eval_zero, hQ]; simp
  · intro m
    unfold cellAverage
    have e : ∫ y in (x + ((m:ℝ)-1)*h)..(x + (m:ℝ)*h), P.eval y =
        h * ∫ z in ((m:ℝ)-1)..(m:ℝ), Q.eval z := by
      have := intervalIntegral.integral_comp_add_mul (a := (m:ℝ)-1) (b := m)
        (fun y => P.eval y) (c := h) hh x
      rw [hQ]
      simp only [eval_comp, eval_add, eval_C, eval_mul, eval_X]
      rw [this, smul_eq_mul, ← mul_assoc, mul_inv_cancel₀ hh, one_mul]
      congr 1 <;> ring
    rw [e, mul_div_assoc, mul_comm, div_mul_cancel₀ _ hh]
    simp only [eval_eq_sum_range' hQd]
    rw [intervalIntegral.integral_finsetSum]
    · apply Finset.sum_congr rfl
      intro i _
      rw [intervalIntegral.integral_const_mul, integral_pow]
      ring
    · intro i _
      exact Continuous.intervalIntegrable (by fun_prop) _ _

/-- **C12** (partial).  The linear schemes are exact on cell averages of polynomials of degree at
most 3 (order 5) and 4 (order 6).  Missing: exactness up to `order - 1`, which is false, see
`C12_five_not_fifth_order` and `C12_six_not_sixth_order`. -/
theorem C12_linear_scheme_exact_partial (o : Order) (side : Side) (P : ℝ[X])
    (hP : P.natDegree ≤ exactDegree o) (x h : ℝ) (hh : h ≠ 0) :
    linearScheme o side (cellAverage P x h) = P.eval x := by
  cases o with
  | five =>
    obtain ⟨a, h0, ha⟩ := cellAverage_monomials P 4 (Nat.lt_succ_of_le hP) x h hh
    rw [h0]
    unfold linearScheme candidate
    cases side <;>
      simp [Order.n, Finset.sum_range_succ, points, coeffs, opt, ha] <;> ring
  | six =>
    obtain ⟨a, h0, ha⟩ := cellAverage_monomials P 5 (Nat.lt_succ_of_le hP) x h hh
    rw [h0]
    unfold linearScheme candidate
    cases side <;>
      simp [Order.n, Finset.sum_range_succ, points, coeffs, opt, ha] <;> ring

theorem cellAverage_X_pow (n : ℕ) (m : ℤ) :
    cellAverage (X^n : ℝ[X]) 0 1 m = (((m:ℝ))^(n+1) - ((m:ℝ)-1)^(n+1)) / (n+1) := by
  unfold cellAverage
  simp [integral_pow]

/-- **C12** (finding).  The fifth order TENO scheme is not exact on quartics. -/
theorem C12_five_not_fifth_order (side : Side) :
    ∃ P : ℝ[X], P.natDegree < 5 ∧ linearScheme .five side (cellAverage P 0 1) ≠ P.eval 0 := by
  refine ⟨X^4, by rw [natDegree_X_pow]; norm_num, ?_⟩
  unfold linearScheme candidate
  cases side <;>
    simp [Order.n, Finset.sum_range_succ, points, coeffs, opt, cellAverage_X_pow] <;> norm_num

/-- **C12** (finding).  The sixth order TENO scheme is not exact on quintics. -/
theorem C12_six_not_sixth_order (side : Side) :
    ∃ P : ℝ[X], P.natDegree < 6 ∧ linearScheme .six side (cellAverage P 0 1) ≠ P.eval 0 := by
  refine ⟨X^5, by rw [natDegree_X_pow]; norm_num, ?_⟩
  unfold linearScheme candidate
  cases side <;>
    simp [Order.n, Finset.sum_range_succ, points, coeffs, opt, cellAverage_X_pow] <;> norm_num

/-- Hypotheses of the exactness theorem: a cubic. -/
example : linearScheme .five .right (cellAverage (X^3 : ℝ[X]) 2 (1/10)) = 8 := by
  rw [C12_linear_scheme_exact_partial .five .right (X^3) (by simp [exactDegree]) 2 (1/10)
    (by norm_num)]
  norm_num

/-! ## C13 -/

theorem integral_quad_sq (p q r s t : ℝ) : ∫ y in s..t, (p + q*y + r*y^2)^2 =
    (p^2*t + p*q*t^2 + (q^2+2*p*r)*t^3/3 + q*r*t^4/2 + r^2*t^5/5) -
    (p^2*s + p*q*s^2 + (q^2+2*p*r)*s^3/3 + q*r*s^4/2 + r^2*s^5/5) := by
  apply intervalIntegral.integral_eq_sub_of_hasDerivAt
    (f := fun y => p^2*y + p*q*y^2 + (q^2+2*p*r)*y^3/3 + q*r*y^4/2 + r^2*y^5/5)
  · intro y _
    have h1 := (hasDerivAt_id y).const_mul (p^2)
    have h2 := (hasDerivAt_pow 2 y).const_mul (p*q)
    have h3 := ((hasDerivAt_pow 3 y).const_mul (q^2+2*p*r)).div_const 3
    have h4 := ((hasDerivAt_pow 4 y).const_mul (q*r)).div_const 2
    have h5 := ((hasDerivAt_pow 5 y).const_mul (r^2)).div_const 5
    have h : HasDerivAt
        (fun y => p^2*y + p*q*y^2 + (q^2+2*p*r)*y^3/3 + q*r*y^4/2 + r^2*y^5/5) _ y :=
      (((h1.add h2).add h3).add h4).add h5
    refine h.congr_deriv ?_
    norm_num
    ring
  · exact Continuous.intervalIntegrable (by fun_prop) _ _

theorem cellAverage_cubic (a b c d : ℝ) (m : ℤ) :
    cellAverage (C a + C b * X + C c * X^2 + C d * X^3) 0 1 m =
      (a*m + b*m^2/2 + c*m^3/3 + d*m^4/4) -
      (a*(m-1) + b*(m-1)^2/2 + c*(m-1)^3/3 + d*(m-1)^4/4) := by
  unfold cellAverage
  rw [div_one]
  have := intervalIntegral.integral_eq_sub_of_hasDerivAt (a := (0:ℝ) + ((m:ℝ)-1)*1)
    (b := (0:ℝ) + (m:ℝ)*1)
    (f := fun y : ℝ => a*y + b*y^2/2 + c*y^3/3 + d*y^4/4)
    (f' := fun y => (C a + C b * X + C c * X^2 + C d * X^3 : ℝ[X]).eval y)
    (by
      intro y _
      have h1 := (hasDerivAt_id y).const_mul a
      have h2 := ((hasDerivAt_pow 2 y).const_mul b).div_const 2
      have h3 := ((hasDerivAt_pow 3 y).const_mul c).div_const 3
      have h4 := ((hasDerivAt_pow 4 y).const_mul d).div_const 4
      have h : HasDerivAt (fun y : ℝ => a*y + b*y^2/2 + c*y^3/3 + d*y^4/4) _ y :=
        ((h1.add h2).add h3).add h4
      refine h.congr_deriv ?_
      simp
      ring)
    ((Polynomial.continuous _).intervalIntegrable _ _)
  rw [this]
  simp

theorem jiangShu_cubic (a b c d : ℝ) (s t : ℝ) :
    (∫ y in s..t, (((derivative^[1]) (C a + C b * X + C c * X^2 + C d * X^3 : ℝ[X])).eval y)^2 =
      ∫ y in s..t, (b + 2*c*y + 3*d*y^2)^2) ∧
    (∫ y in s..t, (((derivative^[2]) (C a + C b * X + C c * X^2 + C d * X^3 : ℝ[X])).eval y)^2 =
      ∫ y in s..t, (2*c + 6*d*y + 0*y^2)^2) ∧
    (∫ y in s..t, (((derivative^[3]) (C a + C b * X + C c * X^2 + C d * X^3 : ℝ[X])).eval y)^2 =
      ∫ y in s..t, (6*d + 0*y + 0*y^2)^2) := by
  refine ⟨?_, ?_, ?_⟩ <;> congr 1 <;> funext y <;> congr 1 <;> simp [Function.iterate_succ] <;> ring

theorem poly_lt_four (P : ℝ[X]) (hP : P.natDegree < 4) :
    P = C (P.coeff 0) + C (P.coeff 1) * X + C (P.coeff 2) * X^2 + C (P.coeff 3) * X^3 := by
  conv_lhs => rw [P.as_sum_range_C_mul_X_pow' hP]
  simp [Finset.sum_range_succ]

theorem beta_eq_weno (side : Side) (i : ℕ) (hi : i < 3 ∨ (i = 3 ∧ side = .left)) (f : ℤ → ℝ) :
    beta side i f = Weno.beta side (stencilOf side i).1 (stencilOf side i).2 1 f := by
  have h4 : i < 4 := by omega
  obtain ⟨P, hP, hf⟩ := Weno.C10_candidate_polynomial_exists side (stencilOf side i).1
    (stencilOf side i).2 (by interval_cases i <;> cases side <;> decide) f 0 1 one_ne_zero
  rw [Weno.C10_indicator_is_jiang_shu side _ _ (by interval_cases i <;> cases side <;> decide) 1
    one_ne_zero f P hP 0 1 one_ne_zero hf]
  have hP4 : P.natDegree < 4 := lt_of_lt_of_le hP (by interval_cases i <;> cases side <;> decide)
  have hc3 : i < 3 → P.coeff 3 = 0 := by
    intro h3
    apply coeff_eq_zero_of_natDegree_lt
    refine lt_of_lt_of_le hP ?_
    interval_cases i <;> cases side <;> decide
  obtain ⟨a, b, c, d, hPe, hd0⟩ : ∃ a b c d : ℝ,
      P = C a + C b * X + C c * X^2 + C d * X^3 ∧ (i < 3 → d = 0) :=
    ⟨_, _, _, _, poly_lt_four P hP4, hc3⟩
  subst hPe
  rcases hi with hi | ⟨rfl, rfl⟩
  · have hd := hd0 hi
    subst hd
    interval_cases i <;> cases side <;>
    · simp only [stencilOf] at hf ⊢
      have f0 := hf 0 (by norm_num)
      have f1 := hf 1 (by norm_num)
      have f2 := hf 2 (by norm_num)
      simp only [funcPoint, Side.c, cellAverage_cubic] at f0 f1 f2
      norm_num at f0 f1 f2
      rw [Finset.sum_Ico_succ_top (by norm_num), Finset.sum_Ico_succ_top (by norm_num),
        Finset.Ico_self, Finset.sum_empty, (jiangShu_cubic a b c 0 _ _).1,
        (jiangShu_cubic a b c 0 _ _).2.1, integral_quad_sq, integral_quad_sq]
      simp only [beta, Side.c]
      norm_num
      rw [← f0, ← f1, ← f2]
      ring
  · simp only [stencilOf] at hf ⊢
    have f0 := hf 0 (by norm_num)
    have f1 := hf 1 (by norm_num)
    have f2 := hf 2 (by norm_num)
    have f3 := hf 3 (by norm_num)
    simp only [funcPoint, Side.c, cellAverage_cubic] at f0 f1 f2 f3
    norm_num at f0 f1 f2 f3
    rw [Finset.sum_Ico_succ_top (by norm_num), Finset.sum_Ico_succ_top (by norm_num),
      Finset.sum_Ico_succ_top (by norm_num),
      Finset.Ico_self, Finset.sum_empty, (jiangShu_cubic a b c d _ _).1,
      (jiangShu_cubic a b c d _ _).2.1, (jiangShu_cubic a b c d _ _).2.2, integral_quad_sq,
      integral_quad_sq, integral_quad_sq]
    simp only [beta, Side.c]
    norm_num
    rw [← f0, ← f1, ← f2, ← f3]
    ring

/-- **C13** (partial).  For order 5 on both sides, and for the left-biased indicators of order 6, the
hand-written indicator is the Jiang–Shu indicator of the candidate polynomial `P` (the polynomial
of degree below the number of cells with the data as cell averages).  Missing: the right-biased
indicator 3 of order 6, for which this is false (`C13_six_right_indicator_negative`). -/
theorem C13_indicator_is_jiang_shu_partial (o : Order) (side : Side) (i : ℕ) (hi : i < o.n)
    (hok : o = .five ∨ side = .left ∨ i < 3) (f : ℤ → ℝ) (P : ℝ[X])
    (hP : P.natDegree < (points side i).length) (x h : ℝ) (hh : h ≠ 0)
    (hf : ∀ n ∈ points side i, cellAverage P x h n = f n) :
    beta side i f = ∑ l ∈ Ico 1 (points side i).length, h^(2*l-1) *
      ∫ y in (x + ((side.c:ℝ) - 1) * h)..(x + (side.c:ℝ) * h), (((derivative^[l]) P).eval y)^2 := by
  have h4 : i < 4 := lt_of_lt_of_le hi (by cases o <;> decide)
  have hok' : i < 3 ∨ (i = 3 ∧ side = .left) := by
    rcases hok with rfl | h | h
    · left; exact hi
    · by_cases h3 : i < 3
      · left; exact h3
      · right; exact ⟨by omega, h⟩
    · left; exact h
  rw [beta_eq_weno side i hok']
  have hlen : (points side i).length = (stencilOf side i).1 := by
    rw [points_eq side i h4, List.length_map, List.length_range]
  rw [hlen] at hP ⊢
  apply Weno.C10_indicator_is_jiang_shu side _ _
    (by interval_cases i <;> cases side <;> decide) 1 one_ne_zero f P hP x h hh
  intro j hj
  apply hf
  rw [points_eq side i h4, List.mem_map]
  exact ⟨j, List.mem_range.2 hj, rfl⟩

/-- **C13** (partial). Nonnegative for all data; same restriction. -/
theorem C13_indicator_nonneg_partial (o : Order) (side : Side) (i : ℕ) (hi : i < o.n)
    (hok : o = .five ∨ side = .left ∨ i < 3) (f : ℤ → ℝ) : 0 ≤ beta side i f := by
  have hok' : i < 3 ∨ (i = 3 ∧ side = .left) := by
    rcases hok with rfl | h | h
    · left; exact hi
    · by_cases h3 : i < 3
      · left; exact h3
      · right; exact ⟨by cases o <;> simp only [Order.n] at hi <;> omega, h⟩
    · left; exact h
  have h4 : i < 4 := by omega
  rw [beta_eq_weno side i hok']
  exact Weno.C10_indicator_nonneg _ _ _ (by interval_cases i <;> cases side <;> decide) _
    one_ne_zero f

/-- **C13.** Every indicator, of both orders and sides, vanishes on constant data. -/
theorem C13_indicator_constant (side : Side) (i : ℕ) (c : ℝ) : beta side i (fun _ => c) = 0 := by
  rcases i with _ | _ | _ | _ | i <;> cases side <;> simp only [beta] <;> ring

/-- **C13** (partial).  Mirror symmetry of the indicators shared by both orders. Missing: the fourth
indicator of order 6, where it fails (`C13_six_mirror_fails`). -/
theorem C13_indicator_mirror_partial (i : ℕ) (hi : i < 3) (f : ℤ → ℝ) :
    beta .left i f = beta .right i (fun n => f (1-n)) := by
  interval_cases i <;> simp [beta] <;> ring

/-- **C13.** The candidates of both orders are mirror images. -/
theorem C13_candidate_mirror (i : ℕ) (hi : i < 4) (f : ℤ → ℝ) :
    candidate .left i f = candidate .right i (fun n => f (1-n)) := by
  interval_cases i <;> simp [candidate, points, coeffs] <;> ring

/-- **C13** (finding).  The right-biased indicator 3 of order 6 can be negative. -/
theorem C13_six_right_indicator_negative : ∃ f : ℤ → ℝ, beta .right 3 f < 0 :=
  ⟨fun n => if n = 3 then -1/10 else 0, by norm_num [beta]⟩

/-- **C13** (finding).  For every `eps` up to `1/10`, there are data for which the denominator
`eps + beta_3` of the sixth order scheme is exactly zero. -/
theorem C13_six_zero_denominator (eps : ℝ) (h0 : 0 < eps) (h1 : eps ≤ 1/10) :
    ∃ f : ℤ → ℝ, eps + beta .right 3 f = 0 := by
  have hc : ContinuousOn (fun t : ℝ => eps + (43/36*t^2 - 781/720*t)) (Set.Icc 0 (1/2)) :=
    Continuous.continuousOn (by fun_prop)
  have := intermediate_value_Icc' (by norm_num : (0:ℝ) ≤ 1/2) hc
  have hmem : (0:ℝ) ∈ Set.Icc (eps + (43/36*(1/2:ℝ)^2 - 781/720*(1/2))) (eps + (43/36*0^2 - 781/720*0)) := by
    constructor <;> norm_num <;> linarith
  obtain ⟨t, _, ht⟩ := this hmem
  refine ⟨fun n => if n = 3 then -t else 0, ?_⟩
  simp only at ht
  have e : beta .right 3 (fun n : ℤ => if n = 3 then -t else 0) = 43/36*t^2 - 781/720*t := by
    norm_num [beta]
    ring
  rw [e]
  exact ht

/-- **C13** (finding).  The fourth indicators of order 6 are not mirror images. -/
theorem C13_six_mirror_fails :
    ∃ f : ℤ → ℝ, beta .left 3 f ≠ beta .right 3 (fun n => f (1-n)) :=
  ⟨fun n => if n = -2 then -1/10 else 0, by norm_num [beta]⟩

/-! ## C11 -/

/-- **C11.** The cut-off functions take only the values 0 and 1. -/
theorem C11_cutoff_sharp (o : Order) (CT : ℝ) (α : ℕ → ℝ) (r : ℕ) :
    delta o CT α r = 0 ∨ delta o CT α r = 1 := by
  unfold delta; split
  · exact Or.inl rfl
  · exact Or.inr rfl

theorem n_pos (o : Order) : 0 < o.n := by cases o <;> decide

theorem alpha_pos (o : Order) (eps : ℝ) (he : 0 < eps) (b : ℕ → ℝ) (r : ℕ) (hb : 0 ≤ b r) :
    0 < alpha o eps b r := by
  have ht : 0 ≤ tau o b := by cases o <;> exact abs_nonneg _
  unfold alpha
  positivity

theorem exists_survivor (o : Order) (CT : ℝ) (hCT : CT ≤ 1 / (o.n:ℝ)) (α : ℕ → ℝ)
    (hα : ∀ r < o.n, 0 < α r) : ∃ r < o.n, delta o CT α r = 1 := by
  set S := ∑ s ∈ range o.n, α s with hS
  have hn : (0:ℝ) < o.n := by exact_mod_cast n_pos o
  have hSp : 0 < S := Finset.sum_pos (fun i hi => hα i (mem_range.1 hi))
    ⟨0, mem_range.2 (n_pos o)⟩
  by_contra hcon
  push Not at hcon
  have hlt : ∀ r ∈ range o.n, α r < S / o.n := by
    intro r hr
    have h1 := hcon r (mem_range.1 hr)
    unfold delta at h1
    rw [← hS] at h1
    have h2 : α r * (1 / S) < CT := by
      by_contra h; rw [if_neg h] at h1; exact h1 rfl
    have h3 : α r * (1 / S) < 1 / o.n := lt_of_lt_of_le h2 hCT
    rw [mul_one_div, div_lt_div_iff₀ hSp hn, one_mul] at h3
    rw [lt_div_iff₀ hn]
    exact h3
  have := Finset.sum_lt_sum_of_nonempty ⟨0, mem_range.2 (n_pos o)⟩ hlt
  rw [← hS, Finset.sum_const, card_range, nsmul_eq_mul] at this
  have e : (o.n:ℝ) * (S / o.n) = S := by field_simp
  rw [e] at this
  exact lt_irrefl _ this

/-- **C11.** With nonnegative indicators, positive `eps` and a cut-off not above `1/(number of
stencils)`, at least one candidate survives, the weights are nonnegative, and they sum to one (so
no division by zero takes place). -/
theorem C11_weights_convex (o : Order) (eps CT : ℝ) (he : 0 < eps) (hCT : CT ≤ 1 / (o.n:ℝ))
    (b : ℕ → ℝ) (hb : ∀ r < o.n, 0 ≤ b r) :
    (∃ r < o.n, delta o CT (alpha o eps b) r = 1) ∧
    0 < omegaSum o (delta o CT (alpha o eps b)) ∧
    (∀ r < o.n, 0 ≤ weights o eps CT b r) ∧
    ∑ r ∈ range o.n, weights o eps CT b r = 1 := by
  obtain ⟨r0, hr0, hd⟩ := exists_survivor o CT hCT (alpha o eps b)
    (fun r hr => alpha_pos o eps he b r (hb r hr))
  have hδ : ∀ r, 0 ≤ delta o CT (alpha o eps b) r := by
    intro r; rcases C11_cutoff_sharp o CT (alpha o eps b) r with h | h <;> rw [h]; norm_num
  have hpos : 0 < omegaSum o (delta o CT (alpha o eps b)) := by
    unfold omegaSum
    apply Finset.sum_pos'
    · intro i hi
      exact mul_nonneg (C12_linear_weights_positive o i (mem_range.1 hi)).le (hδ i)
    · refine ⟨r0, mem_range.2 hr0, ?_⟩
      rw [hd, mul_one]
      exact C12_linear_weights_positive o r0 hr0
  refine ⟨⟨r0, hr0, hd⟩, hpos, ?_, ?_⟩
  · intro r hr
    unfold weights omega
    exact mul_nonneg (mul_nonneg (C12_linear_weights_positive o r hr).le (hδ r)) (by positivity)
  · unfold weights omega
    rw [← Finset.sum_mul]
    change omegaSum o _ * (1 / omegaSum o _) = 1
    field_simp

/-- **C11.** A weight is zero exactly when its candidate is cut. -/
theorem C11_weight_zero_iff_cut (o : Order) (eps CT : ℝ) (he : 0 < eps) (hCT : CT ≤ 1 / (o.n:ℝ))
    (b : ℕ → ℝ) (hb : ∀ r < o.n, 0 ≤ b r) (r : ℕ) (hr : r < o.n) :
    weights o eps CT b r = 0 ↔
      alpha o eps b r / ∑ s ∈ range o.n, alpha o eps b s < CT := by
  obtain ⟨_, hpos, _, _⟩ := C11_weights_convex o eps CT he hCT b hb
  have hp := C12_linear_weights_positive o r hr
  have hne : (1 / omegaSum o (delta o CT (alpha o eps b))) ≠ 0 := by positivity
  unfold weights omega
  rw [mul_eq_zero, or_iff_left hne, mul_eq_zero, or_iff_right hp.ne']
  unfold delta
  rw [mul_one_div]
  split <;> simp_all

/-- **C11.** When all candidates survive, the weights are the linear weights. -/
theorem C11_all_survive_linear (o : Order) (eps CT : ℝ) (b : ℕ → ℝ)
    (h : ∀ r < o.n, CT ≤ alpha o eps b r / ∑ s ∈ range o.n, alpha o eps b s) (r : ℕ)
    (hr : r < o.n) : weights o eps CT b r = opt o r := by
  have hδ : ∀ r < o.n, delta o CT (alpha o eps b) r = 1 := by
    intro r hr
    unfold delta
    rw [mul_one_div, if_neg (not_lt.2 (h r hr))]
  have hs : omegaSum o (delta o CT (alpha o eps b)) = 1 := by
    unfold omegaSum
    rw [← C12_linear_weights_sum_to_one o]
    apply Finset.sum_congr rfl
    intro i hi
    rw [hδ i (mem_range.1 hi), mul_one]
  unfold weights omega
  rw [hδ r hr, hs]
  ring

/-- **C11.** Where all candidates are equally smooth (for instance constant data), no candidate is
cut and the scheme is the underlying linear scheme. -/
theorem C11_equal_indicators_linear (o : Order) (side : Side) (eps CT : ℝ) (he : 0 < eps)
    (hCT : CT ≤ 1 / (o.n:ℝ)) (f : ℤ → ℝ) (B : ℝ) (hB : 0 ≤ B)
    (hf : ∀ r < o.n, beta side r f = B) :
    reconstruct o side eps CT f = linearScheme o side f := by
  unfold reconstruct linearScheme
  apply Finset.sum_congr rfl
  intro r hr
  rw [mem_range] at hr
  rw [C11_all_survive_linear o eps CT _ _ r hr]
  intro s hs
  have hα : ∀ s < o.n, alpha o eps (fun r => beta side r f) s =
      (1 + tau o (fun r => beta side r f) / (eps + B))^6 := by
    intro s hs
    unfold alpha
    simp only [hf s hs]
  have hp : 0 < (1 + tau o (fun r => beta side r f) / (eps + B))^6 := by
    have ht : 0 ≤ tau o (fun r => beta side r f) := by cases o <;> exact abs_nonneg _
    positivity
  have hsum : ∑ s ∈ range o.n, alpha o eps (fun r => beta side r f) s =
      (o.n:ℝ) * (1 + tau o (fun r => beta side r f) / (eps + B))^6 := by
    rw [Finset.sum_congr rfl (fun s hs => hα s (mem_range.1 hs)), Finset.sum_const, card_range,
      nsmul_eq_mul]
  have hn : (0:ℝ) < o.n := by exact_mod_cast n_pos o
  rw [hsum, hα s hs]
  refine le_of_le_of_eq hCT ?_
  rw [div_mul_cancel_right₀ hp.ne', one_div]

/-- **C11** (partial).  The reconstructed value lies between any bounds on the candidate values.
Missing: right-biased order 6, whose indicator may be negative. -/
theorem C11_between_candidates_partial (o : Order) (side : Side) (hok : o = .five ∨ side = .left)
    (eps CT : ℝ) (he : 0 < eps) (hCT : CT ≤ 1 / (o.n:ℝ)) (f : ℤ → ℝ) (lo hi : ℝ)
    (hlo : ∀ r < o.n, lo ≤ candidate side r f) (hhi : ∀ r < o.n, candidate side r f ≤ hi) :
    lo ≤ reconstruct o side eps CT f ∧ reconstruct o side eps CT f ≤ hi := by
  have hb : ∀ r < o.n, 0 ≤ beta side r f := by
    intro r hr
    apply C13_indicator_nonneg_partial o side r hr
    rcases hok with h | h
    · exact Or.inl h
    · exact Or.inr (Or.inl h)
  obtain ⟨_, _, h1, h2⟩ := C11_weights_convex o eps CT he hCT (fun r => beta side r f) hb
  unfold reconstruct
  constructor
  · calc lo = ∑ r ∈ range o.n, weights o eps CT (fun r => beta side r f) r * lo := by
          rw [← Finset.sum_mul, h2, one_mul]
      _ ≤ _ := Finset.sum_le_sum fun r hr =>
        mul_le_mul_of_nonneg_left (hlo r (mem_range.1 hr)) (h1 r (mem_range.1 hr))
  · calc _ ≤ ∑ r ∈ range o.n, weights o eps CT (fun r => beta side r f) r * hi :=
          Finset.sum_le_sum fun r hr =>
        mul_le_mul_of_nonneg_left (hhi r (mem_range.1 hr)) (h1 r (mem_range.1 hr))
      _ = hi := by rw [← Finset.sum_mul, h2, one_mul]

/-- **C11.** Constant data are reconstructed exactly by both orders on both sides. -/
theorem C11_constant_exact (o : Order) (side : Side) (eps CT : ℝ) (he : 0 < eps)
    (hCT : CT ≤ 1 / (o.n:ℝ)) (c : ℝ) : reconstruct o side eps CT (fun _ => c) = c := by
  rw [C11_equal_indicators_linear o side eps CT he hCT _ 0 le_rfl
    (fun r _ => C13_indicator_constant side r c)]
  have := C12_linear_scheme_exact_partial o side (C c) (by simp) 0 1 one_ne_zero
  have e : cellAverage (C c) 0 1 = fun _ => c := by funext n; simp [cellAverage]
  rw [e] at this
  simpa using this

/-- **C11.** With the adaptive cut-off and a sensor `m` in `[0, 1]`, the cut-off is at most `1/10`
as soon as `a1 - a2 ≥ 1` (`a2 ≥ 0`), so the conclusions above apply. -/
theorem C11_adaptive_cutoff_valid (o : Order) (a1 a2 m : ℝ) (ha2 : 0 ≤ a2) (ha : 1 ≤ a1 - a2)
    (hm0 : 0 ≤ m) (hm1 : m ≤ 1) :
    0 < adaptiveCT a1 a2 m ∧ adaptiveCT a1 a2 m ≤ 1 / (o.n:ℝ) := by
  unfold adaptiveCT
  refine ⟨by positivity, ?_⟩
  have h1 : 0 ≤ (1-m)^4*(1+4*m) := mul_nonneg (pow_nonneg (by linarith) 4) (by linarith)
  have h2 : 1 ≤ a1 - a2*(1 - (1-m)^4*(1+4*m)) := by nlinarith
  have h3 : (1:ℤ) ≤ ⌊a1 - a2*(1 - (1-m)^4*(1+4*m))⌋ := by
    rw [Int.le_floor]; exact_mod_cast h2
  have h4 : (10:ℝ)^(1:ℤ) ≤ (10:ℝ)^(⌊a1 - a2*(1 - (1-m)^4*(1+4*m))⌋ : ℤ) :=
    zpow_le_zpow_right₀ (by norm_num) h3
  rw [zpow_one] at h4
  have h5 := one_div_le_one_div_of_le (by norm_num : (0:ℝ) < 10) h4
  refine h5.trans ?_
  cases o <;> norm_num [Order.n]

/-- **C11.** The adaptive cut-off is monotone: a larger sensor value (a stronger shock) never lowers
the cut-off. -/
theorem C11_adaptive_cutoff_monotone (a1 a2 m m' : ℝ) (ha2 : 0 ≤ a2) (hm0 : 0 ≤ m) (hmm : m ≤ m')
    (hm1 : m' ≤ 1) : adaptiveCT a1 a2 m ≤ adaptiveCT a1 a2 m' := by
  unfold adaptiveCT
  have h1 : (1-m')^4*(1+4*m') ≤ (1-m)^4*(1+4*m) := by
    have : ∀ s t : ℝ, 0 ≤ s → s ≤ t → t ≤ 1 → (t)^4*(5-4*t) - s^4*(5-4*s) ≥ 0 := by
      intro s t hs hst ht
      have e2 : t^4*(5-4*t) - s^4*(5-4*s) =
          (t-s)*((t^3+s*t^2+s^2*t+s^3)*5 - 4*(t^4+t^3*s+t^2*s^2+t*s^3+s^4)) := by ring
      rw [e2]
      apply mul_nonneg (by linarith)
      have ht0 : 0 ≤ t := by linarith
      have a1 : 0 ≤ t^3*(1-t) := mul_nonneg (by positivity) (by linarith)
      have a2 : 0 ≤ s*t^2*(1-t) := mul_nonneg (by positivity) (by linarith)
      have a3 : 0 ≤ s^2*t*(1-t) := mul_nonneg (by positivity) (by linarith)
      have a4 : 0 ≤ s^3*(1-t) := mul_nonneg (by positivity) (by linarith)
      have a5 : 0 ≤ s^3*(1-s) := mul_nonneg (by positivity) (by linarith)
      have a6 : 0 ≤ s^3*(t-s) := mul_nonneg (by positivity) (by linarith)
      have a7 : 0 ≤ t^3 - s^3 := by nlinarith [mul_nonneg hs ht0, sq_nonneg t, sq_nonneg s]
      nlinarith
    have := this (1-m') (1-m) (by linarith) (by linarith) (by linarith)
    nlinarith
  have h2 : a1 - a2*(1 - (1-m')^4*(1+4*m')) ≤ a1 - a2*(1 - (1-m)^4*(1+4*m)) := by nlinarith
  exact one_div_le_one_div_of_le (by positivity)
    (zpow_le_zpow_right₀ (by norm_num) (Int.floor_le_floor h2))

/-- **C11** (finding). The bound on the cut-off is necessary: for any cut-off above `1/n`, constant
data lose all candidates and the normalisation divides by zero. -/
theorem C11_large_cutoff_divides_by_zero (o : Order) (side : Side) (eps CT c : ℝ)
    (hCT : 1 / (o.n:ℝ) < CT) :
    omegaSum o (delta o CT (alpha o eps (fun r => beta side r (fun _ => c)))) = 0 := by
  unfold omegaSum
  apply Finset.sum_eq_zero
  intro r _
  have hα : ∀ s, alpha o eps (fun r => beta side r (fun _ => c)) s = 1 := by
    intro s
    unfold alpha
    have ht : tau o (fun r => beta side r (fun _ => c)) = 0 := by
      cases o <;> simp [tau, C13_indicator_constant]
    rw [ht]; simp
  have : delta o CT (alpha o eps (fun r => beta side r (fun _ => c))) r = 0 := by
    unfold delta
    simp only [hα, Finset.sum_const, card_range, nsmul_eq_mul, mul_one, one_mul]
    rw [if_pos hCT]
  rw [this, mul_zero]

/-- **C11** (finding).  The reference indicator of order 6 does not vanish for linear data, unlike
that of order 5. -/
theorem C11_six_reference_nonzero_on_linear (side : Side) (s : ℝ) (hs : s ≠ 0) :
    tau .five (fun r => beta side r (fun n => s * n)) = 0 ∧
    tau .six (fun r => beta side r (fun n => s * n)) = 4/3 * s^2 := by
  constructor
  · cases side <;> simp only [tau, beta] <;> rw [abs_eq_zero] <;> push_cast <;> ring
  · cases side <;> simp only [tau, beta] <;> push_cast <;> rw [← abs_of_nonneg (a := 4/3*s^2) (by positivity)] <;> congr 1 <;> ring

/-- **C11**, **C13**.  The complete fifth order reconstructions are mirror images. Missing in the
sixth order scheme (see above). -/
theorem C13_five_reconstruction_mirror (eps CT : ℝ) (f : ℤ → ℝ) :
    reconstruct .five .left eps CT f = reconstruct .five .right eps CT (fun n => f (1-n)) := by
  have hb : ∀ r < 3, beta .left r f = beta .right r (fun n => f (1-n)) :=
    fun r hr => C13_indicator_mirror_partial r hr f
  have ht : tau .five (fun r => beta .left r f) =
      tau .five (fun r => beta .right r (fun n => f (1-n))) := by
    simp only [tau]; rw [hb 0 (by norm_num), hb 2 (by norm_num)]
  have hα : ∀ r < 3, alpha .five eps (fun r => beta .left r f) r =
      alpha .five eps (fun r => beta .right r (fun n => f (1-n))) r := by
    intro r hr
    unfold alpha
    simp only [ht, hb r hr]
  have hS : ∑ s ∈ range Order.five.n, alpha .five eps (fun r => beta .left r f) s =
      ∑ s ∈ range Order.five.n, alpha .five eps (fun r => beta .right r (fun n => f (1-n))) s :=
    Finset.sum_congr rfl fun s hs => hα s (mem_range.1 hs)
  have hδ : ∀ r < 3, delta .five CT (alpha .five eps (fun r => beta .left r f)) r =
      delta .five CT (alpha .five eps (fun r => beta .right r (fun n => f (1-n)))) r := by
    intro r hr
    unfold delta
    rw [hS, hα r hr]
  have hO : omegaSum .five (delta .five CT (alpha .five eps (fun r => beta .left r f))) =
      omegaSum .five (delta .five CT (alpha .five eps (fun r => beta .right r (fun n => f (1-n))))) :=
    Finset.sum_congr rfl fun s hs => by rw [hδ s (mem_range.1 hs)]
  unfold reconstruct
  apply Finset.sum_congr rfl
  intro r hr
  have hr3 : r < 3 := mem_range.1 hr
  rw [C13_candidate_mirror r (by omega)]
  unfold weights omega
  rw [hδ r hr3, hO]

/-- **C11** (finding).  The reference indicator of order 5 compares stencils 0 and 2 only.  When the
single discontinuity lies inside stencil 1 (between points 1 and 2) no candidate is cut, whatever
the jump `J`, and the reconstruction is the linear scheme, which leaves the range of the data (the
two smooth candidates both give `0`). -/
theorem C11_five_shock_not_cut (eps CT J : ℝ) (hCT : CT ≤ 1/3) :
    (∀ r < 3, weights .five eps CT
      (fun r => beta .right r (fun n => if n ≤ 1 then 0 else J)) r = opt .five r) ∧
    candidate .right 0 (fun n => if n ≤ 1 then 0 else J) = 0 ∧
    candidate .right 2 (fun n => if n ≤ 1 then 0 else J) = 0 ∧
    reconstruct .five .right eps CT (fun n => if n ≤ 1 then 0 else J) = -J/15 := by
  have hα : ∀ r, alpha .five eps (fun r => beta .right r (fun n => if n ≤ 1 then 0 else J)) r = 1 := by
    intro r
    have ht : tau .five (fun r => beta .right r (fun n => if n ≤ 1 then (0:ℝ) else J)) = 0 := by
      norm_num [tau, beta]
    unfold alpha
    rw [ht]; simp
  have hw : ∀ r < 3, weights .five eps CT
      (fun r => beta .right r (fun n => if n ≤ 1 then 0 else J)) r = opt .five r := by
    intro r hr
    apply C11_all_survive_linear .five eps CT _ _ r hr
    intro s _
    simp only [hα, Finset.sum_const, card_range, Order.n]
    norm_num at hCT ⊢
    exact hCT
  refine ⟨hw, by norm_num [candidate, points, coeffs], by norm_num [candidate, points, coeffs], ?_⟩
  unfold reconstruct
  rw [Finset.sum_congr rfl (fun r hr => by rw [hw r (mem_range.1 hr)])]
  norm_num [Order.n, Finset.sum_range_succ, candidate, points, coeffs, opt]
  ring

/-- A case with a candidate cut: a strong jump between points -2 and -1, `CT = 1/10^5`. -/
example : weights .five 1 (1/10^5)
    (fun r => beta .right r (fun n => if n ≤ -2 then 100 else 0)) 2 = 0 := by
  rw [C11_weight_zero_iff_cut .five 1 (1/10^5) one_pos (by norm_num [Order.n]) _
    (fun r hr => C13_indicator_nonneg_partial .five .right r hr (Or.inl rfl) _) 2 (by decide)]
  norm_num [Order.n, Finset.sum_range_succ, alpha, tau, beta]

end OpenSBLI.Teno
