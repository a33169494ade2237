import Verif.Model.WenoFilter
import Verif.Props.C14_C15_Llf
import Verif.Props.C18_C20_Central
import Verif.Props.C54_Sensors

/-!
# C76: the WENO filter, interface fluxes
-/
namespace OpenSBLI.WenoFilter
open Weno Llf Filters Matrix

set_option linter.unusedSectionVars false

/-- C76: the orders for which the filter can be made are exactly 3, 5 and 7. -/
theorem C76_orders (order : ℕ) : (centralWeights order).isSome ↔ order = 3 ∨ order = 5 ∨ order = 7 := by
  unfold centralWeights
  split_ifs with h1 h2 h3 <;> simp <;> omega

theorem orders_cases {order : ℕ} {w : List ℚ} (h : centralWeights order = some w) :
    (order = 3 ∧ w = [-1/12, 7/12, 7/12, -1/12]) ∨ (order = 5 ∧ w = [1/60, -8/60, 37/60, 37/60, -8/60, 1/60]) ∨
      (order = 7 ∧ w = [-1/280, 29/840, -139/840, 533/840, 533/840, -139/840, 29/840, -1/280]) := by
  unfold centralWeights at h
  split_ifs at h with h1 h2 h3
  · exact Or.inl ⟨by omega, (Option.some.inj h).symm⟩
  · exact Or.inr (Or.inl ⟨by omega, (Option.some.inj h).symm⟩)
  · exact Or.inr (Or.inr ⟨by omega, (Option.some.inj h).symm⟩)

theorem stencil2 (form : Formulation) (dz : ℝ) (d : Side → ℕ → ℝ) : (Scheme.weno form 2 dz d).stencilPoints = [-1, 0, 1, 2] := by
  have h : (Scheme.weno form 2 dz d).funcPoints .right ∪ (Scheme.weno form 2 dz d).funcPoints .left = ([-1, 0, 1, 2] : List ℤ).toFinset := by
    simp only [Scheme.funcPoints]; decide
  rw [Scheme.stencilPoints, h]
  exact (List.toFinset_sort (· ≤ ·) (by decide)).2 (by decide)
theorem stencil3 (form : Formulation) (dz : ℝ) (d : Side → ℕ → ℝ) : (Scheme.weno form 3 dz d).stencilPoints = [-2, -1, 0, 1, 2, 3] := by
  have h : (Scheme.weno form 3 dz d).funcPoints .right ∪ (Scheme.weno form 3 dz d).funcPoints .left = ([-2, -1, 0, 1, 2, 3] : List ℤ).toFinset := by
    simp only [Scheme.funcPoints]; decide
  rw [Scheme.stencilPoints, h]
  exact (List.toFinset_sort (· ≤ ·) (by decide)).2 (by decide)
theorem stencil4 (form : Formulation) (dz : ℝ) (d : Side → ℕ → ℝ) : (Scheme.weno form 4 dz d).stencilPoints = [-3, -2, -1, 0, 1, 2, 3, 4] := by
  have h : (Scheme.weno form 4 dz d).funcPoints .right ∪ (Scheme.weno form 4 dz d).funcPoints .left = ([-3, -2, -1, 0, 1, 2, 3, 4] : List ℤ).toFinset := by
    simp only [Scheme.funcPoints]; decide
  rw [Scheme.stencilPoints, h]
  exact (List.toFinset_sort (· ≤ ·) (by decide)).2 (by decide)

theorem enoCoeff_cast (side : Side) (k r j : ℕ) : enoCoeff ℝ side k r j = ((enoCoeff ℚ side k r j : ℚ) : ℝ) := by
  unfold enoCoeff
  push_cast
  rfl

theorem eno3r : (List.range 3).map (enoCoeff ℚ .right 3 1) = [-1/6, 5/6, 1/3] := by decide +kernel
theorem eno3l : (List.range 3).map (enoCoeff ℚ .left 3 1) = [1/3, 5/6, -1/6] := by decide +kernel
theorem eno5r : (List.range 5).map (enoCoeff ℚ .right 5 2) = [1/30, -13/60, 47/60, 9/20, -1/20] := by decide +kernel
theorem eno5l : (List.range 5).map (enoCoeff ℚ .left 5 2) = [-1/20, 9/20, 47/60, -13/60, 1/30] := by decide +kernel
theorem eno7r : (List.range 7).map (enoCoeff ℚ .right 7 3) = [-1/140, 5/84, -101/420, 319/420, 107/210, -19/210, 1/105] := by decide +kernel
theorem eno7l : (List.range 7).map (enoCoeff ℚ .left 7 3) = [1/105, -19/210, 107/210, 319/420, -101/420, 5/84, -1/140] := by decide +kernel


theorem eno3 (j : ℕ) (hj : j < 3) : enoCoeff ℝ .right 3 1 j = (([-1/6, 5/6, 1/3] : List ℚ).getD j 0 : ℚ) ∧ enoCoeff ℝ .left 3 1 j = (([1/3, 5/6, -1/6] : List ℚ).getD j 0 : ℚ) := by
  rw [enoCoeff_cast, enoCoeff_cast, ← eno3r, ← eno3l]
  simp [hj]
theorem eno5 (j : ℕ) (hj : j < 5) : enoCoeff ℝ .right 5 2 j = (([1/30, -13/60, 47/60, 9/20, -1/20] : List ℚ).getD j 0 : ℚ) ∧
    enoCoeff ℝ .left 5 2 j = (([-1/20, 9/20, 47/60, -13/60, 1/30] : List ℚ).getD j 0 : ℚ) := by
  rw [enoCoeff_cast, enoCoeff_cast, ← eno5r, ← eno5l]
  simp [hj]
theorem eno7 (j : ℕ) (hj : j < 7) : enoCoeff ℝ .right 7 3 j = (([-1/140, 5/84, -101/420, 319/420, 107/210, -19/210, 1/105] : List ℚ).getD j 0 : ℚ) ∧
    enoCoeff ℝ .left 7 3 j = (([1/105, -19/210, 107/210, 319/420, -101/420, 5/84, -1/140] : List ℚ).getD j 0 : ℚ) := by
  rw [enoCoeff_cast, enoCoeff_cast, ← eno7r, ← eno7l]
  simp [hj]

/-- Ideal (linear) reconstructions of third, fifth and seventh order, written out. -/
theorem ideal2 (f : ℤ → ℝ) : candidate .right 3 1 f = -1/6 * f (-1) + 5/6 * f 0 + 1/3 * f 1 ∧ candidate .left 3 1 f = 1/3 * f 0 + 5/6 * f 1 + -1/6 * f 2 := by
  unfold candidate
  simp only [Finset.sum_range_succ, Finset.sum_range_zero, funcPoint, Side.c]
  constructor
  · rw [(eno3 0 (by norm_num)).1, (eno3 1 (by norm_num)).1, (eno3 2 (by norm_num)).1]
    norm_num
  · rw [(eno3 0 (by norm_num)).2, (eno3 1 (by norm_num)).2, (eno3 2 (by norm_num)).2]
    norm_num
@[inherit_doc ideal2] theorem ideal3 (f : ℤ → ℝ) :
    candidate .right 5 2 f = 1/30 * f (-2) + -13/60 * f (-1) + 47/60 * f 0 + 9/20 * f 1 + -1/20 * f 2 ∧
    candidate .left 5 2 f = -1/20 * f (-1) + 9/20 * f 0 + 47/60 * f 1 + -13/60 * f 2 + 1/30 * f 3 := by
  unfold candidate
  simp only [Finset.sum_range_succ, Finset.sum_range_zero, funcPoint, Side.c]
  constructor
  · rw [(eno5 0 (by norm_num)).1, (eno5 1 (by norm_num)).1, (eno5 2 (by norm_num)).1, (eno5 3 (by norm_num)).1, (eno5 4 (by norm_num)).1]
    norm_num
  · rw [(eno5 0 (by norm_num)).2, (eno5 1 (by norm_num)).2, (eno5 2 (by norm_num)).2, (eno5 3 (by norm_num)).2, (eno5 4 (by norm_num)).2]
    norm_num
@[inherit_doc ideal2] theorem ideal4 (f : ℤ → ℝ) :
    candidate .right 7 3 f = -1/140 * f (-3) + 5/84 * f (-2) + -101/420 * f (-1) + 319/420 * f 0 + 107/210 * f 1 + -19/210 * f 2 + 1/105 * f 3 ∧
    candidate .left 7 3 f = 1/105 * f (-2) + -19/210 * f (-1) + 107/210 * f 0 + 319/420 * f 1 + -101/420 * f 2 + 5/84 * f 3 + -1/140 * f 4 := by
  unfold candidate
  simp only [Finset.sum_range_succ, Finset.sum_range_zero, funcPoint, Side.c]
  constructor
  · rw [(eno7 0 (by norm_num)).1, (eno7 1 (by norm_num)).1, (eno7 2 (by norm_num)).1, (eno7 3 (by norm_num)).1, (eno7 4 (by norm_num)).1, (eno7 5 (by norm_num)).1, (eno7 6 (by norm_num)).1]
    norm_num
  · rw [(eno7 0 (by norm_num)).2, (eno7 1 (by norm_num)).2, (eno7 2 (by norm_num)).2, (eno7 3 (by norm_num)).2, (eno7 4 (by norm_num)).2, (eno7 5 (by norm_num)).2, (eno7 6 (by norm_num)).2]
    norm_num

/-- C76: the flux the filter subtracts from a wave is the mean of the two ideal (linear weight) reconstructions of the same order, for every order the filter accepts. -/
theorem C76_central_is_mean_of_ideal (order : ℕ) (w : List ℚ) (h : centralWeights order = some w) (form : Formulation) (dz : ℝ) (d : Side → ℕ → ℝ) (f : ℤ → ℝ) :
    centralFlux w (Scheme.weno form ((order + 1) / 2) dz d).stencilPoints f =
      (candidate .right order ((order + 1) / 2 - 1) f + candidate .left order ((order + 1) / 2 - 1) f) / 2 := by
  rcases orders_cases h with ⟨rfl, rfl⟩ | ⟨rfl, rfl⟩ | ⟨rfl, rfl⟩
  · norm_num only
    rw [stencil2, (ideal2 f).1, (ideal2 f).2]
    simp only [centralFlux, List.zipWith_cons_cons, List.zipWith_nil_left, List.sum_cons, List.sum_nil]
    push_cast
    ring
  · norm_num only
    rw [stencil3, (ideal3 f).1, (ideal3 f).2]
    simp only [centralFlux, List.zipWith_cons_cons, List.zipWith_nil_left, List.sum_cons, List.sum_nil]
    push_cast
    ring
  · norm_num only
    rw [stencil4, (ideal4 f).1, (ideal4 f).2]
    simp only [centralFlux, List.zipWith_cons_cons, List.zipWith_nil_left, List.sum_cons, List.sum_nil]
    push_cast
    ring

/-! ### The subtracted flux is the flux of the central scheme of order one higher -/

open Polynomial in
/-- Weights which differentiate the powers exactly are the weights of the central scheme. -/
theorem explicit_weights (m : ℕ) (w : ℤ → ℝ) (h : ∀ j ≤ 2 * m, ∑ p ∈ Central.points (2 * m), w p * (p : ℝ) ^ j = if j = 1 then 1 else 0) (f : ℤ → ℝ) :
    ∑ p ∈ Central.points (2 * m), Central.weight ℝ (2 * m) 1 p * f p = ∑ p ∈ Central.points (2 * m), w p * f p := by
  have hinj : Set.InjOn (fun i : ℤ => (i : ℝ)) (Central.points (2 * m)) := Central.points_injOn _
  set q := Lagrange.interpolate (Central.points (2 * m)) (fun i : ℤ => (i : ℝ)) f with hq
  have hv : ∀ p ∈ Central.points (2 * m), q.eval (p : ℝ) = f p := fun p hp => Lagrange.eval_interpolate_at_node f hinj hp
  have hdeg : q.natDegree ≤ 2 * m := by
    have := Lagrange.degree_interpolate_lt f hinj
    rw [← hq, Central.card_points] at this
    have h2 : 2 * (2 * m / 2) + 1 = 2 * m + 1 := by omega
    rw [h2] at this
    by_cases h0 : q = 0
    · simp [h0]
    · rw [degree_eq_natDegree h0] at this
      exact_mod_cast Nat.lt_succ_iff.1 (by exact_mod_cast this)
  have e1 := Central.weights_exact (K := ℝ) (2 * m) 1 q (by omega)
  have r1 : ∀ v : ℤ → ℝ, ∑ p ∈ Central.points (2 * m), v p * f p = ∑ p ∈ Central.points (2 * m), v p * q.eval (p : ℝ) :=
    fun v => Finset.sum_congr rfl fun p hp => by rw [hv p hp]
  rw [r1, r1, e1]
  have hs : ∀ y : ℝ, q.eval y = ∑ j ∈ Finset.range (2 * m + 1), q.coeff j * y ^ j := fun y => by
    rw [eval_eq_sum_range' (n := 2 * m + 1) (by omega)]
  simp only [hs, Finset.mul_sum]
  rw [Finset.sum_comm]
  have : ∀ j ∈ Finset.range (2 * m + 1), ∑ p ∈ Central.points (2 * m), w p * (q.coeff j * (p : ℝ) ^ j) = q.coeff j * if j = 1 then 1 else 0 := by
    intro j hj
    rw [← h j (by simpa [Nat.lt_succ_iff] using hj), Finset.mul_sum]
    exact Finset.sum_congr rfl fun p _ => by ring
  rw [Finset.sum_congr rfl this]
  simp only [mul_ite, mul_one, mul_zero, Finset.sum_ite_eq', Finset.mem_range, Function.iterate_one]
  split_ifs with h1
  · rw [← coeff_zero_eq_eval_zero, coeff_derivative]; simp
  · rw [← coeff_zero_eq_eval_zero, coeff_derivative, coeff_eq_zero_of_natDegree_lt (by omega)]; simp


theorem points4 : Central.points (2 * 2) = {-2, -1, 0, 1, 2} := by decide
theorem points6 : Central.points (2 * 3) = {-3, -2, -1, 0, 1, 2, 3} := by decide
theorem points8 : Central.points (2 * 4) = {-4, -3, -2, -1, 0, 1, 2, 3, 4} := by decide

theorem central4 (f : ℤ → ℝ) : ∑ p ∈ Central.points (2 * 2), Central.weight ℝ (2 * 2) 1 p * f p =
    1/12 * f (-2) - 2/3 * f (-1) + 2/3 * f 1 - 1/12 * f 2 := by
  rw [explicit_weights 2 (fun p => if p = -2 then 1/12 else if p = -1 then -2/3 else if p = 1 then 2/3 else if p = 2 then -1/12 else 0), points4]
  · simp; ring
  · intro j hj
    rw [points4]
    interval_cases j <;> simp <;> norm_num

theorem central6 (f : ℤ → ℝ) : ∑ p ∈ Central.points (2 * 3), Central.weight ℝ (2 * 3) 1 p * f p =
    -1/60 * f (-3) + 3/20 * f (-2) - 3/4 * f (-1) + 3/4 * f 1 - 3/20 * f 2 + 1/60 * f 3 := by
  rw [explicit_weights 3 (fun p => if p = -3 then -1/60 else if p = -2 then 3/20 else if p = -1 then -3/4 else if p = 1 then 3/4 else if p = 2 then -3/20
    else if p = 3 then 1/60 else 0), points6]
  · simp; ring
  · intro j hj
    rw [points6]
    interval_cases j <;> simp <;> norm_num

theorem central8 (f : ℤ → ℝ) : ∑ p ∈ Central.points (2 * 4), Central.weight ℝ (2 * 4) 1 p * f p =
    1/280 * f (-4) - 4/105 * f (-3) + 1/5 * f (-2) - 4/5 * f (-1) + 4/5 * f 1 - 1/5 * f 2 + 4/105 * f 3 - 1/280 * f 4 := by
  rw [explicit_weights 4 (fun p => if p = -4 then 1/280 else if p = -3 then -4/105 else if p = -2 then 1/5 else if p = -1 then -4/5 else if p = 1 then 4/5
    else if p = 2 then -1/5 else if p = 3 then 4/105 else if p = 4 then -1/280 else 0), points8]
  · simp; ring
  · intro j hj
    rw [points8]
    interval_cases j <;> simp <;> norm_num

/-- C76: the difference of the subtracted flux between two neighbouring interfaces, over the spacing, is the derivative of the central scheme of one order higher at the point between them; a filter of order
5, for instance, takes out what the sixth order central scheme already computed. -/
theorem C76_subtracts_central_scheme (order : ℕ) (w : List ℚ) (h : centralWeights order = some w) (form : Formulation) (dz : ℝ) (d : Side → ℕ → ℝ) (delta : ℝ) (f : ℤ → ℝ) (x : ℤ) :
    (centralFlux w (Scheme.weno form ((order + 1) / 2) dz d).stencilPoints (fun p => f (x + p)) -
        centralFlux w (Scheme.weno form ((order + 1) / 2) dz d).stencilPoints (fun p => f (x - 1 + p))) / delta =
      Central.discretise (order + 1) 1 delta f x := by
  have e : ∀ n : ℤ, x - 1 + n = x + (n - 1) := fun n => by ring
  rcases orders_cases h with ⟨rfl, rfl⟩ | ⟨rfl, rfl⟩ | ⟨rfl, rfl⟩
  · have := central4 fun p => f (x + p)
    norm_num only [Central.discretise, pow_one] at this ⊢
    rw [stencil2, this]
    simp only [centralFlux, List.zipWith_cons_cons, List.zipWith_nil_left, List.sum_cons, List.sum_nil, e]
    push_cast
    norm_num only [add_zero]
    ring
  · have := central6 fun p => f (x + p)
    norm_num only [Central.discretise, pow_one] at this ⊢
    rw [stencil3, this]
    simp only [centralFlux, List.zipWith_cons_cons, List.zipWith_nil_left, List.sum_cons, List.sum_nil, e]
    push_cast
    norm_num only [add_zero]
    ring
  · have := central8 fun p => f (x + p)
    norm_num only [Central.discretise, pow_one] at this ⊢
    rw [stencil4, this]
    simp only [centralFlux, List.zipWith_cons_cons, List.zipWith_nil_left, List.sum_cons, List.sum_nil, e]
    push_cast
    norm_num only [add_zero]
    ring

/-! ### What is left -/

/-- Half the difference of the two ideal reconstructions is a difference of odd order: the dissipation of the split flux. -/
theorem C76_ideal_difference (order : ℕ) (w : List ℚ) (h : centralWeights order = some w) (k : ℕ) (hk : order = 2 * k - 1) (f : ℤ → ℝ) :
    candidate .right order (k - 1) f - candidate .left order (k - 1) f =
      (-1) ^ k * ((k - 1).factorial : ℝ) ^ 2 / (order.factorial : ℝ) * ∑ j ∈ Finset.range (order + 1), (-1) ^ j * (order.choose j : ℝ) * f (k - j) := by
  rcases orders_cases h with ⟨rfl, rfl⟩ | ⟨rfl, rfl⟩ | ⟨rfl, rfl⟩
  · obtain rfl : k = 2 := by omega
    rw [(ideal2 f).1, (ideal2 f).2]
    simp [Finset.sum_range_succ, Nat.factorial, Nat.choose]
    ring
  · obtain rfl : k = 3 := by omega
    rw [(ideal3 f).1, (ideal3 f).2]
    simp [Finset.sum_range_succ, Nat.factorial, Nat.choose]
    ring
  · obtain rfl : k = 4 := by omega
    rw [(ideal4 f).1, (ideal4 f).2]
    simp [Finset.sum_range_succ, Nat.factorial, Nat.choose]
    ring

theorem smallest_le (k : ℕ) (d : ℕ → ℝ) (r : ℕ) (hr : r < k) : smallest k d ≤ d r := by
  have : ∀ (l : List ℕ) (a : ℝ), (l.foldl (fun m r => min m (d r)) a ≤ a) ∧ ∀ r ∈ l, l.foldl (fun m r => min m (d r)) a ≤ d r := by
    intro l
    induction l with
    | nil => intro a; simp
    | cons b l ih =>
      intro a
      rw [List.foldl_cons]
      refine ⟨(ih _).1.trans (min_le_left _ _), fun r hr => ?_⟩
      rcases List.mem_cons.1 hr with rfl | hr
      · exact (ih _).1.trans (min_le_right _ _)
      · exact (ih _).2 r hr
  exact (this _ _).2 r (List.mem_range.2 hr)

theorem smallest_pos (k : ℕ) (d : ℕ → ℝ) (hk : 0 < k) (hd : ∀ r < k, 0 < d r) : 0 < smallest k d := by
  have : ∀ (l : List ℕ) (a : ℝ), 0 < a → (∀ r ∈ l, 0 < d r) → 0 < l.foldl (fun m r => min m (d r)) a := by
    intro l
    induction l with
    | nil => intro a ha _; exact ha
    | cons b l ih =>
      intro a ha h
      rw [List.foldl_cons]
      exact ih _ (lt_min ha (h b (by simp))) fun r hr => h r (by simp [hr])
  exact this _ _ (hd 0 hk) fun r hr => hd r (List.mem_range.1 hr)

/-- The nonlinear weights of the JS form. -/
noncomputable def jsWeights (side : Side) (k : ℕ) (dz : ℝ) (d : ℕ → ℝ) (f : ℤ → ℝ) : ℕ → ℝ := omega k (alphaJS d fun r => beta side k r dz f)

theorem side_sensor (side : Side) (k : ℕ) (hk : 2 ≤ k) (dz : ℝ) (hdz : dz ≠ 0) (d : ℕ → ℝ) (hd : OptimalWeights ℝ side k d) (f : ℤ → ℝ) :
    0 ≤ sideSensor side k dz d f ∧ sideSensor side k dz d f ≤ 1 ∧ (sideSensor side k dz d f = 0 ↔ ∀ r < k, jsWeights side k dz d f r = d r) := by
  have hp : ∀ r < k, 0 < d r := C07_weights_positive side k d hd
  have hs := C07_weights_sum_to_one side k (by omega) d hd
  have hω := C09_weights_convex .JS k (by omega) d (fun r => beta side k r dz f) hp (fun r _ => C10_indicator_nonneg side k r hk dz hdz f) _ rfl
  have h1 : ∀ r < k, d r ≤ 1 := fun r hr => by
    rw [← hs]
    exact Finset.single_le_sum (f := d) (fun i hi => (hp i (Finset.mem_range.1 hi)).le) (Finset.mem_range.2 hr)
  have b := C54_weno_sensor_bounds k hk d (jsWeights side k dz d f) hp (fun r hr => (hω.1 r hr).le) hω.2 (smallest k d)
    (smallest_pos k d (by omega) hp) (smallest_le k d) h1
  refine ⟨b.1, b.2, ?_⟩
  have hden : 0 < |1 / smallest k d - 1| ^ 4 + ((k : ℝ) - 1) := by
    have : (2 : ℝ) ≤ k := by exact_mod_cast hk
    have : 0 < (k : ℝ) - 1 := by linarith
    positivity
  rw [sideSensor, wenoSensor, div_eq_zero_iff, or_iff_left hden.ne', Finset.sum_eq_zero_iff_of_nonneg (fun _ _ => by positivity)]
  refine ⟨fun h r hr => ?_, fun h r hr => ?_⟩
  · have := h r (Finset.mem_range.2 hr)
    rw [pow_eq_zero_iff (by norm_num), abs_eq_zero, sub_eq_zero, div_eq_one_iff_eq (hp r hr).ne'] at this
    exact this
  · have h' := h r (Finset.mem_range.1 hr)
    rw [jsWeights] at h'
    rw [h', div_self (hp r (Finset.mem_range.1 hr)).ne']
    simp

/-- C76: what the filter leaves of a wave. The flux at an interface is put together, with the right eigenvectors, from `rj` times the sum of three terms per wave: the deviation of the right reconstruction of
the positive flux from the ideal one, the same for the left reconstruction of the negative flux, and the dissipation of the splitting, half the wave speed times a difference of odd order of the characteristic
solution. The sensor `rj` lies in `[0, 1]` and vanishes exactly where both reconstructions use their ideal weights. -/
theorem C76_filter_flux {n : ℕ} (order : ℕ) (w : List ℚ) (h : centralWeights order = some w) (k : ℕ) (hk : order = 2 * k - 1) (dz : ℝ) (hdz : dz ≠ 0) (d : Side → ℕ → ℝ)
    (hd : ∀ side, OptimalWeights ℝ side k (d side)) (l : Line n) (x : ℤ) :
    ∃ (rj : Fin n → ℝ) (alpha : Fin n → ℝ) (pos neg : Fin n → ℤ → ℝ) (R L : Fin n → ℝ),
      (∀ i p, pos i p = 1/2 * ((l.LEV x *ᵥ l.f (x + p)) i + alpha i * (l.LEV x *ᵥ l.q (x + p)) i) ∧
        neg i p = 1/2 * ((l.LEV x *ᵥ l.f (x + p)) i - alpha i * (l.LEV x *ᵥ l.q (x + p)) i)) ∧
      (∀ i, wenoReconstruct .JS .right k dz (d .right) (pos i) = some (R i) ∧ wenoReconstruct .JS .left k dz (d .left) (neg i) = some (L i)) ∧
      (∀ i, (∀ p, -(k : ℤ) < p → p ≤ k → |l.ev (x + p) i| ≤ alpha i) ∧ ∃ p, -(k : ℤ) < p ∧ p ≤ k ∧ alpha i = |l.ev (x + p) i|) ∧
      (∀ i, 0 ≤ rj i ∧ rj i ≤ 1 ∧ (rj i = 0 ↔ ∀ r < k, jsWeights .right k dz (d .right) (pos i) r = d .right r ∧ jsWeights .left k dz (d .left) (neg i) r = d .left r)) ∧
      interfaceOut true true order (.weno .JS k dz d) l x = some (l.REV x *ᵥ fun i => rj i *
        ((R i - reconstruction .right k (d .right) (pos i)) + (L i - reconstruction .left k (d .left) (neg i)) +
          alpha i / 2 * ((-1) ^ k * ((k - 1).factorial : ℝ) ^ 2 / (order.factorial : ℝ) *
            ∑ j ∈ Finset.range (order + 1), (-1) ^ j * (order.choose j : ℝ) * (l.LEV x *ᵥ l.q (x + (k - j))) i))) := by
  have hk2 : 2 ≤ k := by rcases orders_cases h with ⟨rfl, rfl⟩ | ⟨rfl, rfl⟩ | ⟨rfl, rfl⟩ <;> omega
  have hko : (order + 1) / 2 = k := by omega
  set s : Scheme := .weno .JS k dz d with hs
  refine ⟨sensorOf true s l x, waveSpeed s l x, fun i p => positive (waveFlux l x i p) (waveState l x i p) (waveSpeed s l x i),
    fun i p => negative (waveFlux l x i p) (waveState l x i p) (waveSpeed s l x i), _, _, fun i p => ⟨rfl, rfl⟩, fun i => ⟨rfl, rfl⟩, ?_, ?_, ?_⟩
  · intro i
    have hm : ∀ p, p ∈ s.stencilPoints ↔ -(k : ℤ) < p ∧ p ≤ k := fun p => by
      rw [C15_stencil_points]; simp only [hs]; omega
    have hle : ∀ p ∈ s.stencilPoints, |l.ev (x + p) i| ≤ waveSpeed s l x i := fun p hp => abs_le_foldl_max (fun p => l.ev (x + p) i) _ 0 p hp
    refine ⟨fun p h1 h2 => hle p ((hm p).2 ⟨h1, h2⟩), ?_⟩
    have hatt : ∀ (pts : List ℤ) (a : ℝ), pts.foldl (fun out p => max out |l.ev (x + p) i|) a = a ∨ ∃ p ∈ pts, pts.foldl (fun out p => max out |l.ev (x + p) i|) a = |l.ev (x + p) i| := by
      intro pts
      induction pts with
      | nil => intro a; exact Or.inl rfl
      | cons b pts ih =>
        intro a
        rw [List.foldl_cons]
        rcases ih (max a |l.ev (x + b) i|) with h | ⟨p, hp, h⟩
        · rcases max_choice a |l.ev (x + b) i| with h' | h'
          · left; rw [h, h']
          · right; exact ⟨b, by simp, by rw [h, h']⟩
        · right; exact ⟨p, by simp [hp], h⟩
    rcases hatt s.stencilPoints 0 with h0 | ⟨p, hp, h0⟩
    · have h1 : (0 : ℤ) ∈ s.stencilPoints := (hm 0).2 (by omega)
      refine ⟨0, by omega, by omega, le_antisymm ?_ (hle 0 h1)⟩
      rw [waveSpeed, maxWave, h0]; exact abs_nonneg _
    · exact ⟨p, ((hm p).1 hp).1, ((hm p).1 hp).2, h0⟩
  · intro i
    have hr := side_sensor .right k hk2 dz hdz _ (hd .right) fun p => positive (waveFlux l x i p) (waveState l x i p) (waveSpeed s l x i)
    have hl := side_sensor .left k hk2 dz hdz _ (hd .left) fun p => negative (waveFlux l x i p) (waveState l x i p) (waveSpeed s l x i)
    have e : sensorOf true s l x i = max (sideSensor .right k dz (d .right) fun p => positive (waveFlux l x i p) (waveState l x i p) (waveSpeed s l x i))
        (sideSensor .left k dz (d .left) fun p => negative (waveFlux l x i p) (waveState l x i p) (waveSpeed s l x i)) := rfl
    rw [e]
    refine ⟨hr.1.trans (le_max_left _ _), max_le hr.2.1 hl.2.1, ?_⟩
    constructor
    · intro h0 r hr'
      have h1 := le_antisymm ((le_max_left _ _).trans h0.le) hr.1
      have h2 := le_antisymm ((le_max_right _ _).trans h0.le) hl.1
      exact ⟨hr.2.2.1 h1 r hr', hl.2.2.1 h2 r hr'⟩
    · intro h0
      rw [hr.2.2.2 fun r hr' => (h0 r hr').1, hl.2.2.2 fun r hr' => (h0 r hr').2, max_self]
  · rw [interfaceOut, if_pos rfl, h, Option.map_some]
    congr 2
    funext i
    congr 1
    have hc := C76_central_is_mean_of_ideal order w h .JS dz d
    rw [hko, ← hs] at hc
    rw [hc, C07_weights_merge_candidates .right k (by omega) _ (hd .right), C07_weights_merge_candidates .left k (by omega) _ (hd .left), ← hk]
    have hi := C76_ideal_difference order w h k hk fun p => (l.LEV x *ᵥ l.q (x + p)) i
    rw [← hi, show (fun p => (l.LEV x *ᵥ l.q (x + p)) i) = waveState l x i from rfl]
    have lin : ∀ (side : Side) (a b : ℝ) (f g : ℤ → ℝ), candidate side order (k - 1) (fun p => a * f p + b * g p) = a * candidate side order (k - 1) f + b * candidate side order (k - 1) g := by
      intro side a b f g
      simp only [candidate, Finset.mul_sum, ← Finset.sum_add_distrib]
      exact Finset.sum_congr rfl fun j _ => by ring
    have e1 : (fun p => positive (waveFlux l x i p) (waveState l x i p) (waveSpeed s l x i)) = fun p => 1/2 * waveFlux l x i p + waveSpeed s l x i / 2 * waveState l x i p := by
      funext p; unfold positive; ring
    have e2 : (fun p => negative (waveFlux l x i p) (waveState l x i p) (waveSpeed s l x i)) = fun p => 1/2 * waveFlux l x i p + -(waveSpeed s l x i / 2) * waveState l x i p := by
      funext p; unfold negative; ring
    have c1 : candidate .right order (k - 1) (fun p => positive (waveFlux l x i p) (waveState l x i p) (waveSpeed s l x i)) =
        1/2 * candidate .right order (k - 1) (waveFlux l x i) + waveSpeed s l x i / 2 * candidate .right order (k - 1) (waveState l x i) := by rw [e1, lin]
    have c2 : candidate .left order (k - 1) (fun p => negative (waveFlux l x i p) (waveState l x i p) (waveSpeed s l x i)) =
        1/2 * candidate .left order (k - 1) (waveFlux l x i) + -(waveSpeed s l x i / 2) * candidate .left order (k - 1) (waveState l x i) := by rw [e2, lin]
    rw [c1, c2]
    simp only [characteristic, Scheme.recon, wenoReconstruct, weights, Option.map_some, Option.getD_some, hs, waveFlux, waveState, waveSpeed]
    ring


/-! ### Where nothing is added -/

open Polynomial MeasureTheory in
theorem cellAverage_affine (a b : ℝ) (n : ℤ) : Spec.cellAverage (C (a + b / 2) + C b * X) 0 1 n = a + b * n := by
  unfold Spec.cellAverage
  simp only [eval_add, eval_C, eval_mul, eval_X]
  rw [intervalIntegral.integral_add (by simp) (by apply Continuous.intervalIntegrable; fun_prop)]
  rw [intervalIntegral.integral_const_mul, integral_id]
  simp
  ring

open Polynomial in
theorem beta_affine (side : Side) (k : ℕ) (hk : 2 ≤ k) (dz : ℝ) (hdz : dz ≠ 0) (f : ℤ → ℝ) (a b : ℝ) (r : ℕ) (hf : ∀ j < k, f (funcPoint side r j) = a + b * funcPoint side r j) :
    beta side k r dz f = ∑ l ∈ Finset.Ico 1 k, (1:ℝ)^(2*l-1) *
      ∫ y in (0 + ((side.c:ℝ) - 1) * 1)..(0 + (side.c:ℝ) * 1), (((derivative^[l]) (C (a + b / 2) + C b * X)).eval y)^2 :=
  C10_indicator_is_jiang_shu side k r hk dz hdz f _ (lt_of_le_of_lt (natDegree_add_le_of_degree_le (n := 1) (by simp) ((natDegree_C_mul_le b X).trans natDegree_X_le)) hk)
    0 1 one_ne_zero fun j hj => by rw [cellAverage_affine, hf j hj]

theorem js_weights_affine (side : Side) (k : ℕ) (hk : 2 ≤ k) (dz : ℝ) (hdz : dz ≠ 0) (d : ℕ → ℝ) (hd : OptimalWeights ℝ side k d) (f : ℤ → ℝ) (a b : ℝ)
    (hf : ∀ p : ℤ, -(k : ℤ) < p → p ≤ k → f p = a + b * p) (r : ℕ) (hr : r < k) : jsWeights side k dz d f r = d r := by
  have hp : ∀ r < k, ∀ j < k, f (funcPoint side r j) = a + b * funcPoint side r j := fun r hr j hj => by
    apply hf
    · cases side <;> simp [funcPoint, Side.c] <;> omega
    · cases side <;> simp [funcPoint, Side.c] <;> omega
  refine C09_equal_indicators_give_linear_weights .JS side k (by omega) d (fun r => beta side k r dz f) hd (C10_indicator_nonneg side k 0 hk dz hdz f) (fun r hr => ?_) _ rfl r hr
  rw [beta_affine side k hk dz hdz f a b r (hp r hr), beta_affine side k hk dz hdz f a b 0 (hp 0 (by omega))]

/-- C76: a wave whose flux and solution vary linearly over the stencil has sensor zero; where all waves do, a uniform flow for instance, the filter flux vanishes, whatever the eigenvectors are. -/
theorem C76_no_flux_on_linear_waves {n : ℕ} (order : ℕ) (w : List ℚ) (h : centralWeights order = some w) (k : ℕ) (hk : order = 2 * k - 1) (dz : ℝ) (hdz : dz ≠ 0) (d : Side → ℕ → ℝ)
    (hd : ∀ side, OptimalWeights ℝ side k (d side)) (l : Line n) (x : ℤ)
    (hlin : ∀ i, ∃ a b a' b' : ℝ, ∀ p : ℤ, -(k : ℤ) < p → p ≤ k → (l.LEV x *ᵥ l.f (x + p)) i = a + b * p ∧ (l.LEV x *ᵥ l.q (x + p)) i = a' + b' * p) :
    interfaceOut true true order (.weno .JS k dz d) l x = some 0 := by
  have hk2 : 2 ≤ k := by rcases orders_cases h with ⟨rfl, rfl⟩ | ⟨rfl, rfl⟩ | ⟨rfl, rfl⟩ <;> omega
  obtain ⟨rj, alpha, pos, neg, R, L, hpn, -, -, hrj, hout⟩ := C76_filter_flux order w h k hk dz hdz d hd l x
  rw [hout]
  have h0 : ∀ i, rj i = 0 := by
    intro i
    rw [(hrj i).2.2]
    obtain ⟨a, b, a', b', hab⟩ := hlin i
    intro r hr
    constructor
    · refine js_weights_affine .right k hk2 dz hdz _ (hd _) _ (1/2 * (a + alpha i * a')) (1/2 * (b + alpha i * b')) (fun p h1 h2 => ?_) r hr
      rw [(hpn i p).1, (hab p h1 h2).1, (hab p h1 h2).2]; ring
    · refine js_weights_affine .left k hk2 dz hdz _ (hd _) _ (1/2 * (a - alpha i * a')) (1/2 * (b - alpha i * b')) (fun p h1 h2 => ?_) r hr
      rw [(hpn i p).2, (hab p h1 h2).1, (hab p h1 h2).2]; ring
  have : (fun i => rj i * ((R i - reconstruction .right k (d .right) (pos i)) + (L i - reconstruction .left k (d .left) (neg i)) +
          alpha i / 2 * ((-1) ^ k * ((k - 1).factorial : ℝ) ^ 2 / (order.factorial : ℝ) *
            ∑ j ∈ Finset.range (order + 1), (-1) ^ j * (order.choose j : ℝ) * (l.LEV x *ᵥ l.q (x + (k - j))) i))) = 0 := by
    funext i; rw [h0 i, zero_mul]; rfl
  rw [this, Matrix.mulVec_zero]

/-- The third order filter with the optimal weights of the code on a line where a wave is linear. -/
example : interfaceOut true true 3 (.weno .JS 2 1 fun side => optimal side 2)
    { f := fun y _ => 3 + 2 * (y : ℝ), q := fun y _ => 5 - y, ev := fun _ _ => 1, LEV := fun _ => 1, REV := fun _ => 1 : Line 1 } 7 = some 0 := by
  refine C76_no_flux_on_linear_waves 3 _ rfl 2 rfl 1 one_ne_zero _ (fun side => optimal_satisfies side 2) _ 7 fun i => ⟨17, 2, -2, -1, fun p _ _ => ?_⟩
  simp only [Matrix.one_mulVec]
  push_cast
  constructor <;> ring

/-- C76, against the expectation: the flag is one of the block, not of the scheme. Once a filter has been made, a base scheme with characteristic reconstruction (`LLFWeno` or `LLFTeno`, which carry no sensor) is
multiplied with a sensor that is never assigned: its interface fluxes are all zero, or the discretisation raises. -/
theorem C76_flag_removes_base_scheme {n : ℕ} (order : ℕ) (s : Scheme) (l : Line n) (x : ℤ) :
    interfaceOut false false order s l x = some (interfaceFlux s l x) ∧
      interfaceOut true false order s l x = if order = 3 ∨ order = 5 ∨ order = 7 then some 0 else none := by
  refine ⟨rfl, ?_⟩
  have hz : ∀ i, sensorOf false s l x i = 0 := fun i => by cases s <;> rfl
  rw [interfaceOut, if_pos rfl]
  simp only [hz, zero_mul]
  by_cases h3 : order = 3
  · subst h3; rw [if_pos (Or.inl rfl)]; exact congrArg some (Matrix.mulVec_zero _)
  by_cases h5 : order = 5
  · subst h5; rw [if_pos (Or.inr (Or.inl rfl))]; exact congrArg some (Matrix.mulVec_zero _)
  by_cases h7 : order = 7
  · subst h7; rw [if_pos (Or.inr (Or.inr rfl))]; exact congrArg some (Matrix.mulVec_zero _)
  rw [if_neg (by tauto), centralWeights, if_neg (by omega), if_neg (by omega), if_neg (by omega)]
  rfl

end OpenSBLI.WenoFilter
