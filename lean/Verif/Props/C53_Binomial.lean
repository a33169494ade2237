import Verif.Model.Filters
import Mathlib.Data.Nat.Choose.Sum
import Mathlib.Analysis.SpecialFunctions.Trigonometric.Basic
import Mathlib.Algebra.BigOperators.Field
import Mathlib.Algebra.BigOperators.Fin
import Mathlib.Algebra.Order.BigOperators.Group.Finset
import Mathlib.Data.Fin.VecNotation
import Mathlib.Data.Fintype.BigOperators
import Mathlib.Tactic.FinCases
import Mathlib.Tactic.Ring
import Mathlib.Tactic.NormNum
import Mathlib.Tactic.Linarith
import Mathlib.Tactic.FieldSimp
import Mathlib.Tactic.Positivity
import Mathlib.Tactic.LinearCombination

/-!
# C53 Binomial filter
-/
namespace OpenSBLI.Filters

/-! ## The stencil sum as a finite sum -/

theorem list_sum_range (n : ℕ) (f : ℕ → ℝ) : ((List.range n).map f).sum = ∑ i ∈ Finset.range n, f i := by
  induction n with
  | zero => simp
  | succ n ih => simp [List.range_succ, Finset.sum_range_succ, ih]

/-- A sum of zipped lists over the same range. -/
theorem zip_sum (n : ℕ) (f : ℕ → ℝ) (g : ℕ → ℤ) (h : ℝ → ℤ → ℝ) :
    (List.zipWith h ((List.range n).map f) ((List.range n).map g)).sum = ∑ i ∈ Finset.range n, h (f i) (g i) := by
  rw [List.zipWith_map]
  have : List.zipWith (fun a b => h (f a) (g b)) (List.range n) (List.range n) = (List.range n).map fun i => h (f i) (g i) := by
    rw [List.zipWith_self]
  rw [this, list_sum_range]

/-- For order `2 m` the sum runs over `2 m + 1` points centred on the own point. -/
theorem filter1_eq {d : ℕ} (m : ℕ) (u : Grid d) (dir : Fin d) (x : Fin d → ℤ) :
    filter1 (2 * m : ℕ) u dir x =
      ∑ i ∈ Finset.range (2 * m + 1), ((2 * m).choose i : ℝ) / 2 ^ (2 * m) * u (shift x dir ((i : ℤ) - m)) := by
  have h1 : ((2 * m : ℕ) : ℤ).tdiv 2 = m := by
    rw [Int.tdiv_eq_ediv_of_nonneg (by positivity)]; omega
  have h2 : (2 * (m : ℤ) + 1).toNat = 2 * m + 1 := by omega
  have h3 : (((2 * m : ℕ) : ℤ) + 1).toNat = 2 * m + 1 := by omega
  rw [filter1, binWeights, binLocations, h1, h2, h3, zip_sum]
  refine Finset.sum_congr rfl fun i _ => ?_
  rw [Int.toNat_natCast, show -(m : ℤ) + i = i - m by ring]

theorem weights_sum (N : ℕ) : ∑ i ∈ Finset.range (N + 1), (N.choose i : ℝ) / 2 ^ N = 1 := by
  rw [← Finset.sum_div, ← Nat.cast_sum, Nat.sum_range_choose]
  push_cast
  exact div_self (by positivity)

theorem weights_moment (N : ℕ) : ∑ i ∈ Finset.range (N + 1), (N.choose i : ℝ) / 2 ^ N * ((i : ℝ) - N / 2) = 0 := by
  have rf := Finset.sum_range_reflect (fun i : ℕ => (N.choose i : ℝ) / 2 ^ N * ((i : ℝ) - N / 2)) (N + 1)
  have : ∑ i ∈ Finset.range (N + 1), (N.choose (N + 1 - 1 - i) : ℝ) / 2 ^ N * (((N + 1 - 1 - i : ℕ) : ℝ) - N / 2) =
      -∑ i ∈ Finset.range (N + 1), (N.choose i : ℝ) / 2 ^ N * ((i : ℝ) - N / 2) := by
    rw [← Finset.sum_neg_distrib]
    refine Finset.sum_congr rfl fun i hi => ?_
    have : i ≤ N := by simpa [Nat.lt_succ_iff] using hi
    rw [Nat.add_sub_cancel, Nat.choose_symm this, Nat.cast_sub this]
    ring
  linarith

/-! ## C53 -/

/-- C53: an order is accepted exactly when it is even and at most ten, and only on two or three dimensional blocks. -/
theorem C53_accepted_iff (ndim : ℕ) (order : ℤ) :
    binomialAccepts ndim order = true ↔ Even order ∧ order ≤ 10 ∧ (ndim = 2 ∨ ndim = 3) := by
  simp [binomialAccepts, Int.even_iff, and_assoc]

/-- C53: for every non-negative accepted order the stencil is centred, has `N + 1` points, and its weights are positive, symmetric and add up to one. -/
theorem C53_weights (m : ℕ) :
    (binWeights (2 * m : ℕ)).length = 2 * m + 1 ∧
      binLocations (2 * m : ℕ) = (List.range (2 * m + 1)).map (fun i : ℕ => (i : ℤ) - m) ∧
      (∀ w ∈ binWeights (2 * m : ℕ), 0 < w) ∧ (binWeights (2 * m : ℕ)).sum = 1 ∧
      (binWeights (2 * m : ℕ)).reverse = binWeights (2 * m : ℕ) := by
  have h1 : ((2 * m : ℕ) : ℤ).tdiv 2 = m := by
    rw [Int.tdiv_eq_ediv_of_nonneg (by positivity)]; omega
  have h2 : (2 * (m : ℤ) + 1).toNat = 2 * m + 1 := by omega
  have h3 : (((2 * m : ℕ) : ℤ) + 1).toNat = 2 * m + 1 := by omega
  refine ⟨by rw [binWeights, h3]; simp, ?_, ?_, ?_, ?_⟩
  · rw [binLocations, h1, h2]
    exact List.map_congr_left fun i _ => by ring
  · intro w hw
    simp only [binWeights, h3, List.mem_map, List.mem_range, Int.toNat_natCast] at hw
    obtain ⟨i, hi, rfl⟩ := hw
    have : 0 < (2 * m).choose i := Nat.choose_pos (by omega)
    positivity
  · rw [binWeights, h3, Int.toNat_natCast, list_sum_range, weights_sum]
  · rw [binWeights, h3, Int.toNat_natCast]
    refine List.ext_getElem (by simp) fun i hi _ => ?_
    have hi' : i < 2 * m + 1 := by simpa using hi
    simp only [List.getElem_reverse, List.getElem_map, List.getElem_range, List.length_map, List.length_range]
    rw [show 2 * m + 1 - 1 - i = 2 * m - i by omega, Nat.choose_symm (by omega)]

/-- C53: fields that are constant or linear in the point numbers are left unchanged at every point, for every `σ`. -/
theorem C53_preserves_linear {d : ℕ} (hd : 0 < d) (m : ℕ) (sigma c : ℝ) (a : Fin d → ℝ) (x : Fin d → ℤ) :
    binomialPoint (2 * m : ℕ) sigma (fun y => c + ∑ k, a k * y k) x = c + ∑ k, a k * x k := by
  have one : ∀ dir : Fin d, filter1 (2 * m : ℕ) (fun y => c + ∑ k, a k * y k) dir x = c + ∑ k, a k * x k := by
    intro dir
    rw [filter1_eq]
    have e : ∀ i : ℕ, (c + ∑ k, a k * (shift x dir ((i : ℤ) - m) k : ℝ)) = (c + ∑ k, a k * x k) + a dir * ((i : ℝ) - (2 * m : ℕ) / 2) := by
      intro i
      have : ∀ k, a k * (shift x dir ((i : ℤ) - m) k : ℝ) = a k * x k + if k = dir then a dir * ((i : ℝ) - m) else 0 := by
        intro k
        by_cases h : k = dir
        · subst h; simp [shift]; ring
        · simp [shift, h]
      rw [Finset.sum_congr rfl fun k _ => this k, Finset.sum_add_distrib, Finset.sum_ite_eq' Finset.univ dir]
      simp only [Finset.mem_univ, if_true]
      push_cast
      ring
    simp only [e]
    generalize c + ∑ k, a k * (x k : ℝ) = b
    simp only [mul_add]
    rw [Finset.sum_add_distrib, ← Finset.sum_mul, weights_sum (2 * m)]
    have := weights_moment (2 * m)
    have e2 : ∑ i ∈ Finset.range (2 * m + 1), ((2 * m).choose i : ℝ) / 2 ^ (2 * m) * (a dir * ((i : ℝ) - (2 * m : ℕ) / 2)) = 0 := by
      rw [← mul_zero (a dir), ← this, Finset.mul_sum]
      exact Finset.sum_congr rfl fun i _ => by ring
    rw [e2]
    ring
  have hd' : (d : ℝ) ≠ 0 := by positivity
  rw [binomialPoint, Finset.sum_congr rfl fun dir _ => one dir]
  simp only [Finset.sum_const, Finset.card_univ, Fintype.card_fin, nsmul_eq_mul]
  field_simp
  ring

/-- C53: for `0 ≤ σ ≤ 1` the filter creates no new extrema: a bound that holds on the whole cross shaped stencil holds for the filtered value. -/
theorem C53_maximum_principle {d : ℕ} (hd : 0 < d) (m : ℕ) (sigma : ℝ) (h0 : 0 ≤ sigma) (h1 : sigma ≤ 1) (u : Grid d) (x : Fin d → ℤ) (lo hi : ℝ)
    (hb : ∀ dir : Fin d, ∀ j : ℤ, -m ≤ j → j ≤ m → lo ≤ u (shift x dir j) ∧ u (shift x dir j) ≤ hi) :
    lo ≤ binomialPoint (2 * m : ℕ) sigma u x ∧ binomialPoint (2 * m : ℕ) sigma u x ≤ hi := by
  have s0 : ∀ dir : Fin d, shift x dir 0 = x := fun dir => by simp [shift]
  have ux : lo ≤ u x ∧ u x ≤ hi := by
    have := hb ⟨0, hd⟩ 0 (by omega) (by omega)
    rwa [s0] at this
  have one : ∀ dir : Fin d, lo ≤ filter1 (2 * m : ℕ) u dir x ∧ filter1 (2 * m : ℕ) u dir x ≤ hi := by
    intro dir
    rw [filter1_eq]
    have b : ∀ i ∈ Finset.range (2 * m + 1), lo ≤ u (shift x dir ((i : ℤ) - m)) ∧ u (shift x dir ((i : ℤ) - m)) ≤ hi := by
      intro i hi
      have : i < 2 * m + 1 := by simpa using hi
      exact hb dir _ (by omega) (by omega)
    have w0 : ∀ i, 0 ≤ ((2 * m).choose i : ℝ) / 2 ^ (2 * m) := fun i => by positivity
    constructor
    · calc lo = (∑ i ∈ Finset.range (2 * m + 1), ((2 * m).choose i : ℝ) / 2 ^ (2 * m)) * lo := by rw [weights_sum, one_mul]
        _ ≤ _ := by rw [Finset.sum_mul]; exact Finset.sum_le_sum fun i hi => mul_le_mul_of_nonneg_left (b i hi).1 (w0 i)
    · calc _ ≤ (∑ i ∈ Finset.range (2 * m + 1), ((2 * m).choose i : ℝ) / 2 ^ (2 * m)) * hi := by
            rw [Finset.sum_mul]; exact Finset.sum_le_sum fun i hi => mul_le_mul_of_nonneg_left (b i hi).2 (w0 i)
        _ = hi := by rw [weights_sum, one_mul]
  have hd' : (0 : ℝ) < d := by positivity
  have av : lo ≤ (∑ dir : Fin d, filter1 (2 * m : ℕ) u dir x) / d ∧ (∑ dir : Fin d, filter1 (2 * m : ℕ) u dir x) / d ≤ hi := by
    rw [le_div_iff₀ hd', div_le_iff₀ hd']
    have l := Finset.card_nsmul_le_sum Finset.univ (fun dir : Fin d => filter1 (2 * m : ℕ) u dir x) lo fun dir _ => (one dir).1
    have r := Finset.sum_le_card_nsmul Finset.univ (fun dir : Fin d => filter1 (2 * m : ℕ) u dir x) hi fun dir _ => (one dir).2
    simp only [Finset.card_univ, Fintype.card_fin, nsmul_eq_mul] at l r
    constructor <;> linarith
  rw [binomialPoint]
  constructor <;> nlinarith [av.1, av.2, ux.1, ux.2]

/-- C53: the response to a wave. A wave of any wave number and phase keeps its shape and is multiplied by
`1 - σ + σ · mean cos^N(k/2)`, a number between `1 - σ` and one for `0 ≤ σ ≤ 1`. -/
theorem C53_response {d : ℕ} (m : ℕ) (sigma phi : ℝ) (k : Fin d → ℝ) (x : Fin d → ℤ) :
    binomialPoint (2 * m : ℕ) sigma (fun y => Real.cos (∑ i, k i * y i + phi)) x =
      (1 - sigma + sigma * ((∑ i, Real.cos (k i / 2) ^ (2 * m)) / d)) * Real.cos (∑ i, k i * x i + phi) := by
  have one : ∀ dir : Fin d, filter1 (2 * m : ℕ) (fun y => Real.cos (∑ i, k i * y i + phi)) dir x =
      Real.cos (k dir / 2) ^ (2 * m) * Real.cos (∑ i, k i * x i + phi) := by
    intro dir
    rw [filter1_eq]
    set A := ∑ i, k i * (x i : ℝ) + phi with hA
    have e : ∀ i : ℕ, ∑ l, k l * (shift x dir ((i : ℤ) - m) l : ℝ) + phi = A + k dir * ((i : ℝ) - m) := by
      intro i
      have : ∀ l, k l * (shift x dir ((i : ℤ) - m) l : ℝ) = k l * x l + if l = dir then k dir * ((i : ℝ) - m) else 0 := by
        intro l
        by_cases h : l = dir
        · subst h; simp [shift]; ring
        · simp [shift, h]
      rw [Finset.sum_congr rfl fun l _ => this l, Finset.sum_add_distrib, Finset.sum_ite_eq' Finset.univ dir]
      simp only [Finset.mem_univ, if_true, hA]
      ring
    simp only [e]
    set t := k dir
    -- over the complex numbers
    have c : ∑ i ∈ Finset.range (2 * m + 1), ((2 * m).choose i : ℂ) / 2 ^ (2 * m) * Complex.exp ((A + t * ((i : ℝ) - m) : ℝ) * Complex.I) =
        (Real.cos (t / 2) : ℂ) ^ (2 * m) * Complex.exp ((A : ℝ) * Complex.I) := by
      have hc : (Real.cos (t / 2) : ℂ) = (Complex.exp ((t / 2 : ℝ) * Complex.I) + Complex.exp (-(t / 2 : ℝ) * Complex.I)) / 2 := by
        rw [Complex.ofReal_cos, Complex.cos]
      rw [hc, div_pow, add_pow, Finset.sum_div, Finset.sum_mul]
      refine Finset.sum_congr rfl fun i hi => ?_
      have hi' : i ≤ 2 * m := by simpa [Nat.lt_succ_iff] using hi
      rw [← Complex.exp_nat_mul, ← Complex.exp_nat_mul, ← Complex.exp_add]
      have : Complex.exp (((A + t * ((i : ℝ) - m) : ℝ) : ℂ) * Complex.I) =
          Complex.exp ((i : ℂ) * ((t / 2 : ℝ) * Complex.I) + ((2 * m - i : ℕ) : ℂ) * (-(t / 2 : ℝ) * Complex.I)) * Complex.exp ((A : ℝ) * Complex.I) := by
        rw [← Complex.exp_add]
        congr 1
        rw [Nat.cast_sub hi']
        push_cast
        ring
      rw [this]
      ring
    have r := congrArg Complex.re c
    rw [Complex.re_sum] at r
    have hl : ∀ i : ℕ, (((2 * m).choose i : ℂ) / 2 ^ (2 * m) * Complex.exp ((A + t * ((i : ℝ) - m) : ℝ) * Complex.I)).re =
        ((2 * m).choose i : ℝ) / 2 ^ (2 * m) * Real.cos (A + t * ((i : ℝ) - m)) := by
      intro i
      have : (((2 * m).choose i : ℂ) / 2 ^ (2 * m)) = (((2 * m).choose i : ℝ) / 2 ^ (2 * m) : ℝ) := by push_cast; rfl
      rw [this, Complex.re_ofReal_mul, Complex.exp_ofReal_mul_I_re]
    simp only [hl] at r
    rw [r, ← Complex.ofReal_pow, Complex.re_ofReal_mul, Complex.exp_ofReal_mul_I_re]
  rw [binomialPoint, Finset.sum_congr rfl fun dir _ => one dir, ← Finset.sum_mul]
  ring

/-- C53: the factor of a wave lies between `1 - σ` and one, so that no wave is amplified or reversed. -/
theorem C53_response_bounds {d : ℕ} (hd : 0 < d) (m : ℕ) (sigma : ℝ) (h0 : 0 ≤ sigma) (k : Fin d → ℝ) :
    1 - sigma ≤ 1 - sigma + sigma * ((∑ i, Real.cos (k i / 2) ^ (2 * m)) / d) ∧
      1 - sigma + sigma * ((∑ i, Real.cos (k i / 2) ^ (2 * m)) / d) ≤ 1 := by
  have hd' : (0 : ℝ) < d := by positivity
  have b : ∀ i, 0 ≤ Real.cos (k i / 2) ^ (2 * m) ∧ Real.cos (k i / 2) ^ (2 * m) ≤ 1 := fun i =>
    ⟨Even.pow_nonneg (even_two_mul m) _, by
      rw [pow_mul]
      exact pow_le_one₀ (sq_nonneg _) (by nlinarith [Real.cos_sq_add_sin_sq (k i / 2), sq_nonneg (Real.sin (k i / 2))])⟩
  have l := Finset.sum_nonneg fun i (_ : i ∈ Finset.univ) => (b i).1
  have r := Finset.sum_le_card_nsmul Finset.univ (fun i => Real.cos (k i / 2) ^ (2 * m)) 1 fun i _ => (b i).2
  simp only [Finset.card_univ, Fintype.card_fin, nsmul_eq_mul, mul_one] at r
  have l' : 0 ≤ (∑ i, Real.cos (k i / 2) ^ (2 * m)) / d := div_nonneg l hd'.le
  have r' : (∑ i, Real.cos (k i / 2) ^ (2 * m)) / d ≤ 1 := by rw [div_le_one hd']; exact r
  constructor <;> nlinarith

/-- C53: point to point oscillations in every direction are removed entirely by `σ = 1`, and reduced by `1 - σ` otherwise. -/
theorem C53_checkerboard {d : ℕ} (m : ℕ) (hm : 0 < m) (sigma : ℝ) (x : Fin d → ℤ) :
    binomialPoint (2 * m : ℕ) sigma (fun y => Real.cos (∑ i, Real.pi * y i)) x = (1 - sigma) * Real.cos (∑ i, Real.pi * x i) := by
  have := C53_response m sigma 0 (fun _ : Fin d => Real.pi) x
  simp only [add_zero, Real.cos_pi_div_two] at this
  rw [this, zero_pow (by omega)]
  simp

/-- C53: a condition on the grid restricts the filter to the points where it holds. -/
theorem C53_condition {d : ℕ} (N : ℤ) (sigma : ℝ) (cond : (Fin d → ℤ) → Bool) (u : Grid d) (x : Fin d → ℤ) :
    (cond x = true → binomialConditional N sigma cond u x = binomialPoint N sigma u x) ∧
      (cond x = false → binomialConditional N sigma cond u x = u x) := by
  constructor <;> intro h <;> simp [binomialConditional, h]

/-- C53 (finding): even negative orders pass the check although no filter is defined for them; every stencil is then empty and the field is
multiplied by `1 - σ`. -/
theorem C53_negative_order (m : ℕ) (hm : 0 < m) {d : ℕ} (sigma : ℝ) (u : Grid d) (x : Fin d → ℤ) :
    binomialAccepts 2 (-(2 * m : ℕ)) = true ∧ binomialPoint (-(2 * m : ℕ)) sigma u x = (1 - sigma) * u x := by
  refine ⟨?_, ?_⟩
  · rw [C53_accepted_iff]
    exact ⟨⟨-m, by push_cast; ring⟩, by omega, Or.inl rfl⟩
  · have : ∀ dir : Fin d, filter1 (-(2 * m : ℕ)) u dir x = 0 := by
      intro dir
      rw [filter1, binWeights, show (-((2 * m : ℕ) : ℤ) + 1).toNat = 0 by omega]
      simp
    rw [binomialPoint, Finset.sum_congr rfl fun dir _ => this dir]
    simp

/-- The field of the example: one at the origin, zero elsewhere. -/
def spike : Grid 2 := fun y => if y 0 = 0 ∧ y 1 = 0 then 1 else 0

/-- C53 (finding): the kernel reads neighbours of the array it overwrites, so that its result depends on the order in which the points are visited:
second order, `σ = 1`, two neighbouring points. -/
theorem C53_order_dependence :
    binomialInPlace (2 * 1 : ℕ) 1 [![0, 0], ![1, 0]] spike ![1, 0] = 1 / 16 ∧
      binomialInPlace (2 * 1 : ℕ) 1 [![1, 0], ![0, 0]] spike ![1, 0] = 1 / 8 ∧
      binomialPoint (2 * 1 : ℕ) 1 spike ![1, 0] = 1 / 8 := by
  have ne : (![1, 0] : Fin 2 → ℤ) ≠ ![0, 0] := by decide
  have p : ∀ u : Grid 2, ∀ x, binomialPoint (2 * 1 : ℕ) 1 u x =
      (1 / 4 * u (shift x 0 (-1)) + 1 / 2 * u (shift x 0 0) + 1 / 4 * u (shift x 0 1) +
        (1 / 4 * u (shift x 1 (-1)) + 1 / 2 * u (shift x 1 0) + 1 / 4 * u (shift x 1 1))) / 2 := by
    intro u x
    rw [binomialPoint, Fin.sum_univ_two, filter1_eq, filter1_eq]
    simp [Finset.sum_range_succ, Nat.choose]
    ring
  have s : ∀ a b c : ℤ, shift ![a, b] 0 c = ![a + c, b] ∧ shift ![a, b] 1 c = ![a, b + c] := by
    intro a b c
    constructor <;> funext i <;> fin_cases i <;> simp [shift]
  have v : ∀ a b : ℤ, spike ![a, b] = if a = 0 ∧ b = 0 then 1 else 0 := fun a b => by simp [spike]
  have q : binomialPoint (2 * 1 : ℕ) 1 spike ![0, 0] = 1 / 2 := by
    rw [p]; simp only [(s _ _ _).1, (s _ _ _).2, v]; norm_num
  have r : binomialPoint (2 * 1 : ℕ) 1 spike ![1, 0] = 1 / 8 := by
    rw [p]; simp only [(s _ _ _).1, (s _ _ _).2, v]; norm_num
  refine ⟨?_, ?_, r⟩
  · rw [binomialInPlace, List.foldl_cons, List.foldl_cons, List.foldl_nil, Function.update_self, q, p]
    simp only [(s _ _ _).1, (s _ _ _).2]
    have u : ∀ a b : ℤ, Function.update spike ![0, 0] (1 / 2) ![a, b] = if a = 0 ∧ b = 0 then 1 / 2 else 0 := by
      intro a b
      by_cases h : a = 0 ∧ b = 0
      · obtain ⟨rfl, rfl⟩ := h; simp
      · rw [Function.update_of_ne, v, if_neg h, if_neg h]
        intro hh
        exact h ⟨by simpa using congrFun hh 0, by simpa using congrFun hh 1⟩
    simp only [u]
    norm_num
  · rw [binomialInPlace, List.foldl_cons, List.foldl_cons, List.foldl_nil, Function.update_of_ne ne, Function.update_self, r]

/-- C53, partial: the values above are those of the emitted kernel when no point of the stencil was visited before, that is, for the first point
visited. What is missing is every other point: see `C53_order_dependence`. -/
theorem C53_in_place_partial {d : ℕ} (N : ℤ) (sigma : ℝ) (u : Grid d) (x : Fin d → ℤ) (rest : List (Fin d → ℤ)) (h : x ∉ rest) :
    binomialInPlace N sigma (x :: rest) u x = binomialPoint N sigma u x := by
  have key : ∀ (l : List (Fin d → ℤ)) (v : Grid d), x ∉ l → l.foldl (fun u y => Function.update u y (binomialPoint N sigma u y)) v x = v x := by
    intro l
    induction l with
    | nil => intro v _; rfl
    | cons y l ih =>
      intro v hx
      rw [List.foldl_cons, ih _ (fun hh => hx (List.mem_cons_of_mem _ hh)), Function.update_of_ne]
      rintro rfl; exact hx List.mem_cons_self
  rw [binomialInPlace, List.foldl_cons, key rest _ h, Function.update_self]

/-- C53: the emitted kernel, whatever the order in which it visits the points, does not change constant and linear fields. -/
theorem C53_in_place_linear {d : ℕ} (hd : 0 < d) (m : ℕ) (sigma c : ℝ) (a : Fin d → ℝ) (points : List (Fin d → ℤ)) :
    binomialInPlace (2 * m : ℕ) sigma points (fun y => c + ∑ k, a k * y k) = fun y => c + ∑ k, a k * y k := by
  unfold binomialInPlace
  induction points with
  | nil => rfl
  | cons x l ih =>
    rw [List.foldl_cons, C53_preserves_linear hd m sigma c a x]
    have : Function.update (fun y : Fin d → ℤ => c + ∑ k, a k * y k) x (c + ∑ k, a k * x k) = fun y => c + ∑ k, a k * y k := Function.update_eq_self x _
    rw [this]
    exact ih

/-- C53: the emitted kernel makes no new extrema, whatever the order in which it visits the points and however often: `R` is any set of points with the stencils of the points visited. -/
theorem C53_in_place_maximum {d : ℕ} (hd : 0 < d) (m : ℕ) (sigma : ℝ) (h0 : 0 ≤ sigma) (h1 : sigma ≤ 1) (points : List (Fin d → ℤ)) (R : Set (Fin d → ℤ))
    (hR : ∀ x ∈ points, ∀ dir : Fin d, ∀ j : ℤ, -m ≤ j → j ≤ m → shift x dir j ∈ R) (u : Grid d) (lo hi : ℝ) (hb : ∀ y ∈ R, lo ≤ u y ∧ u y ≤ hi) :
    ∀ y ∈ R, lo ≤ binomialInPlace (2 * m : ℕ) sigma points u y ∧ binomialInPlace (2 * m : ℕ) sigma points u y ≤ hi := by
  unfold binomialInPlace
  induction points generalizing u with
  | nil => exact hb
  | cons x l ih =>
    rw [List.foldl_cons]
    refine ih (fun y hy => hR y (List.mem_cons_of_mem _ hy)) _ fun y hy => ?_
    by_cases e : y = x
    · subst e
      rw [Function.update_self]
      exact C53_maximum_principle hd m sigma h0 h1 u y lo hi fun dir j j0 j1 => hb _ (hR y List.mem_cons_self dir j j0 j1)
    · rw [Function.update_of_ne e]
      exact hb y hy

/-- C53: points which are not visited keep their values. -/
theorem C53_in_place_frame {d : ℕ} (N : ℤ) (sigma : ℝ) (points : List (Fin d → ℤ)) (u : Grid d) (x : Fin d → ℤ) (h : x ∉ points) : binomialInPlace N sigma points u x = u x := by
  unfold binomialInPlace
  induction points generalizing u with
  | nil => rfl
  | cons y l ih =>
    rw [List.foldl_cons, ih _ fun hh => h (List.mem_cons_of_mem _ hh), Function.update_of_ne]
    rintro rfl
    exact h List.mem_cons_self

/-- The two orders of `C53_order_dependence` differ, and both stay between zero and one at every point. -/
example (y : Fin 2 → ℤ) : 0 ≤ binomialInPlace (2 * 1 : ℕ) 1 [![0, 0], ![1, 0]] spike y ∧ binomialInPlace (2 * 1 : ℕ) 1 [![0, 0], ![1, 0]] spike y ≤ 1 :=
  C53_in_place_maximum (by norm_num) 1 1 zero_le_one le_rfl _ Set.univ (fun _ _ _ _ _ _ => trivial) spike 0 1 (fun y _ => by unfold spike; split <;> norm_num) y trivial

/-- The fourth order filter: weights 1, 4, 6, 4, 1 over sixteen. -/
example : binWeights 4 = [1 / 16, 4 / 16, 6 / 16, 4 / 16, 1 / 16] ∧ binLocations 4 = [-2, -1, 0, 1, 2] := by
  refine ⟨?_, by decide⟩
  simp [binWeights, List.range_succ, Nat.choose]
  norm_num

end OpenSBLI.Filters
