import Mathlib.Analysis.Calculus.Taylor
import Mathlib.Analysis.Calculus.ContDiff.Basic
import Mathlib.Tactic.Linarith
import Verif.Props.C18_C20_Central

/-!
# Errors of linear formulas for derivatives

A formula which is exact on polynomials of degree at most `N` has an error of order `N + 1`.
-/
namespace OpenSBLI.Order
open scoped ContDiff
open Finset

/-- Taylor's formula with a bound of the remainder, on both sides of the point. -/
theorem taylor_bound {f : ℝ → ℝ} (hf : ContDiff ℝ ∞ f) (N : ℕ) (x y M : ℝ) (hM : ∀ z ∈ Set.uIcc x y, |iteratedDeriv (N + 1) f z| ≤ M) :
    |f y - ∑ i ∈ range (N + 1), iteratedDeriv i f x * (y - x) ^ i / i.factorial| ≤ M * |y - x| ^ (N + 1) / (N + 1).factorial := by
  by_cases hxy : x = y
  · subst hxy
    rw [sum_range_succ']
    simp
  have hu : UniqueDiffOn ℝ (Set.uIcc x y) := uniqueDiffOn_Icc (by simpa [eq_comm] using hxy)
  have hd : ∀ n : ℕ, ∀ z ∈ Set.uIcc x y, iteratedDerivWithin n f (Set.uIcc x y) z = iteratedDeriv n f z := fun n z hz =>
    iteratedDerivWithin_eq_iteratedDeriv hu ((hf.of_le (by exact_mod_cast le_top)).contDiffAt) hz
  have hdiff : DifferentiableOn ℝ (iteratedDerivWithin N f (Set.uIcc x y)) (Set.uIoo x y) := by
    refine DifferentiableOn.congr (f := iteratedDeriv N f) ?_ fun z hz => hd N z (Set.uIoo_subset_uIcc_self hz)
    exact (ContDiff.differentiable_iteratedDeriv N hf (by exact_mod_cast WithTop.coe_lt_top _)).differentiableOn
  obtain ⟨z, hz, he⟩ := taylor_mean_remainder_lagrange hxy (hf.of_le (by exact_mod_cast le_top)).contDiffOn hdiff
  have hT : ∀ n, taylorWithinEval f n (Set.uIcc x y) x y = ∑ i ∈ range (n + 1), iteratedDeriv i f x * (y - x) ^ i / i.factorial := by
    intro n
    induction n with
    | zero => simp
    | succ n ih =>
      rw [taylorWithinEval_succ, ih, sum_range_succ _ (n + 1), hd _ _ Set.left_mem_uIcc, Nat.factorial_succ, smul_eq_mul]
      push_cast
      field_simp
  rw [← hT, he, hd _ _ (Set.uIoo_subset_uIcc_self hz), abs_div, abs_mul, abs_pow, Nat.abs_cast]
  gcongr
  exact hM z (Set.uIoo_subset_uIcc_self hz)

/-- The moments of a formula: points and weights. -/
def moment (l : List (ℤ × ℝ)) (i : ℕ) : ℝ := (l.map fun q => q.2 * (q.1 : ℝ) ^ i).sum

/-- The constant of its error. -/
noncomputable def errorConst (l : List (ℤ × ℝ)) (N : ℕ) : ℝ := (l.map fun q => |q.2| * |(q.1 : ℝ)| ^ (N + 1)).sum / (N + 1).factorial

theorem errorConst_nonneg (l : List (ℤ × ℝ)) (N : ℕ) : 0 ≤ errorConst l N := by
  refine div_nonneg (List.sum_nonneg fun a ha => ?_) (Nat.cast_nonneg _)
  obtain ⟨q, _, rfl⟩ := List.mem_map.1 ha
  positivity

theorem list_sum_comm {α : Type} (l : List α) (s : Finset ℕ) (g : α → ℕ → ℝ) : (l.map fun q => ∑ i ∈ s, g q i).sum = ∑ i ∈ s, (l.map fun q => g q i).sum := by
  induction l with
  | nil => simp
  | cons q l ih => simp only [List.map_cons, List.sum_cons, ih, sum_add_distrib]

/-- The value of a formula is the sum of the moments times the derivatives, up to order `N`. -/
theorem formula_error {f : ℝ → ℝ} (hf : ContDiff ℝ ∞ f) (N : ℕ) (l : List (ℤ × ℝ)) (x δ M : ℝ) (hδ : 0 ≤ δ) (hM : ∀ q ∈ l, ∀ z ∈ Set.uIcc x (x + q.1 * δ), |iteratedDeriv (N + 1) f z| ≤ M) :
    |(l.map fun q => q.2 * f (x + q.1 * δ)).sum - ∑ i ∈ range (N + 1), moment l i * (iteratedDeriv i f x * δ ^ i / i.factorial)| ≤ errorConst l N * M * δ ^ (N + 1) := by
  have h1 : ∑ i ∈ range (N + 1), moment l i * (iteratedDeriv i f x * δ ^ i / i.factorial) =
      (l.map fun q => q.2 * ∑ i ∈ range (N + 1), iteratedDeriv i f x * (x + q.1 * δ - x) ^ i / i.factorial).sum := by
    simp only [mul_sum]
    rw [list_sum_comm]
    refine sum_congr rfl fun i _ => ?_
    rw [moment, ← List.sum_map_mul_right]
    refine congrArg List.sum (List.map_congr_left fun q _ => ?_)
    rw [add_sub_cancel_left, mul_pow]
    ring
  rw [h1]
  clear h1
  have h2 : errorConst l N * M * δ ^ (N + 1) = (l.map fun q => |q.2| * (M * |x + q.1 * δ - x| ^ (N + 1) / (N + 1).factorial)).sum := by
    rw [errorConst, div_eq_mul_inv, mul_assoc, mul_assoc, ← List.sum_map_mul_right]
    refine congrArg List.sum (List.map_congr_left fun q _ => ?_)
    rw [add_sub_cancel_left, abs_mul, abs_of_nonneg hδ, mul_pow]
    ring
  rw [h2]
  clear h2
  induction l with
  | nil => simp
  | cons q l ih =>
    simp only [List.map_cons, List.sum_cons]
    have h1 := ih fun q hq => hM q (by simp [hq])
    have h2 := taylor_bound hf N x (x + q.1 * δ) M (hM q (by simp))
    have h3 : |q.2 * f (x + q.1 * δ) - q.2 * ∑ i ∈ range (N + 1), iteratedDeriv i f x * (x + q.1 * δ - x) ^ i / i.factorial| ≤ |q.2| * (M * |x + q.1 * δ - x| ^ (N + 1) / (N + 1).factorial) := by
      rw [← mul_sub, abs_mul]
      exact mul_le_mul_of_nonneg_left h2 (abs_nonneg _)
    rw [add_sub_add_comm]
    exact (abs_add_le _ _).trans (add_le_add h3 h1)

/-- A formula for the `k`-th derivative which is exact on polynomials of degree at most `N`. -/
theorem formula_accurate {f : ℝ → ℝ} (hf : ContDiff ℝ ∞ f) (N k : ℕ) (hk : k ≤ N) (l : List (ℤ × ℝ)) (hl : ∀ i ≤ N, moment l i = if i = k then (k.factorial : ℝ) else 0) (x δ M : ℝ) (hδ : 0 < δ)
    (hM : ∀ q ∈ l, ∀ z ∈ Set.uIcc x (x + q.1 * δ), |iteratedDeriv (N + 1) f z| ≤ M) :
    |(l.map fun q => q.2 * f (x + q.1 * δ)).sum * (1 / δ ^ k) - iteratedDeriv k f x| ≤ errorConst l N * M * δ ^ (N + 1 - k) := by
  have h := formula_error hf N l x δ M hδ.le hM
  have hs : ∑ i ∈ range (N + 1), moment l i * (iteratedDeriv i f x * δ ^ i / i.factorial) = iteratedDeriv k f x * δ ^ k := by
    rw [sum_eq_single k]
    · rw [hl k hk, if_pos rfl]
      have : (k.factorial : ℝ) ≠ 0 := by positivity
      field_simp
    · intro i hi hik
      rw [hl i (Nat.lt_succ_iff.1 (mem_range.1 hi)), if_neg hik, zero_mul]
    · intro hn
      exact absurd (mem_range.2 (Nat.lt_succ_of_le hk)) hn
  rw [hs] at h
  have hp : 0 < δ ^ k := pow_pos hδ k
  have e : (l.map fun q => q.2 * f (x + q.1 * δ)).sum * (1 / δ ^ k) - iteratedDeriv k f x = ((l.map fun q => q.2 * f (x + q.1 * δ)).sum - iteratedDeriv k f x * δ ^ k) / δ ^ k := by
    generalize (l.map fun q => q.2 * f (x + q.1 * δ)).sum = A
    field_simp
  rw [e, abs_div, abs_of_pos hp, div_le_iff₀ hp, mul_assoc, ← pow_add, Nat.sub_add_cancel (by omega)]
  exact h

/-- A formula for the `k`-th derivative which vanishes on polynomials of degree less than `k` is bounded by the `k`-th derivative. -/
theorem formula_bounded {f : ℝ → ℝ} (hf : ContDiff ℝ ∞ f) (k : ℕ) (l : List (ℤ × ℝ)) (hl : ∀ i ≤ k, moment l i = 0) (x δ M : ℝ) (hδ : 0 < δ)
    (hM : ∀ q ∈ l, ∀ z ∈ Set.uIcc x (x + q.1 * δ), |iteratedDeriv (k + 1) f z| ≤ M) : |(l.map fun q => q.2 * f (x + q.1 * δ)).sum * (1 / δ ^ (k + 1))| ≤ errorConst l k * M := by
  have h := formula_error hf k l x δ M hδ.le hM
  rw [sum_eq_zero fun i hi => by rw [hl i (Nat.lt_succ_iff.1 (mem_range.1 hi)), zero_mul], sub_zero] at h
  have hp : 0 < δ ^ (k + 1) := pow_pos hδ _
  rw [mul_one_div, abs_div, abs_of_pos hp, div_le_iff₀ hp]
  exact h

/-- The central formula as a list. -/
noncomputable def centralList (order k : ℕ) : List (ℤ × ℝ) := (Central.points order).toList.map fun p => (p, Central.weight ℝ order k p)

theorem centralList_sum (order k : ℕ) (g : ℤ → ℝ) : ((centralList order k).map fun q => q.2 * g q.1).sum = ∑ p ∈ Central.points order, Central.weight ℝ order k p * g p := by
  rw [centralList, List.map_map, ← Finset.sum_map_toList]
  rfl

theorem central_moment (m k i : ℕ) (hi : i ≤ 2 * m ∨ (Even k ∧ k ≤ 2 * m ∧ i ≤ 2 * m + 1)) : moment (centralList (2 * m) k) i = if i = k then (k.factorial : ℝ) else 0 := by
  have h : Central.discretise (2 * m) k (1 : ℝ) (fun j => (Polynomial.X ^ i : Polynomial ℝ).eval ((0 : ℝ) + j * 1)) 0 = ((Polynomial.derivative^[k]) (Polynomial.X ^ i : Polynomial ℝ)).eval ((0 : ℝ) + (0 : ℤ) * 1) := by
    rcases hi with hi | ⟨h1, h2, h3⟩
    · exact Central.C18_exact m k (Polynomial.X ^ i) (by simpa using hi) 0 1 one_ne_zero 0
    · exact Central.C18_even_exact m k h1 (Polynomial.X ^ i) (by simpa using h3) 0 1 one_ne_zero 0 h2
  have e : moment (centralList (2 * m) k) i = Central.discretise (2 * m) k (1 : ℝ) (fun j => (Polynomial.X ^ i : Polynomial ℝ).eval ((0 : ℝ) + j * 1)) 0 := by
    rw [moment, centralList_sum (2 * m) k fun j => (j : ℝ) ^ i, Central.discretise]
    simp
  rw [e, h, Polynomial.iterate_derivative_X_pow_eq_C_mul]
  rcases lt_trichotomy i k with h | rfl | h
  · rw [if_neg h.ne, Nat.descFactorial_of_lt h]; simp
  · rw [if_pos rfl, Nat.descFactorial_self]; simp
  · rw [if_neg h.ne']
    have : i - k ≠ 0 := by omega
    simp [this]

end OpenSBLI.Order
