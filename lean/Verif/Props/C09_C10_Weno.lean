import Verif.Lemmas.SmoothnessSpec
import Verif.Props.C06_C08_Eno
import Mathlib.MeasureTheory.Integral.IntervalIntegral.Basic
import Mathlib.Analysis.Convex.Mul
import Mathlib.Analysis.SpecialFunctions.Integrals.Basic

/-!
# C09, C10 (and nonlinear part of C08): smoothness indicators and nonlinear weights
-/
namespace OpenSBLI.Weno
open Polynomial Finset Interp Spec

set_option linter.unusedSectionVars false

/-! ## C10 -/

/-- **C10.** The polynomial emitted by the coefficient-extraction loop is the Jiang–Shu indicator:
for every polynomial `P` of degree below `k` whose cell averages on stencil `r` are the data, its
value is `∑_{l=1}^{k-1} h^(2l-1) ∫ (P^(l))²` over the cell upwind of the interface at `x` (cell 0 for
the right-biased, cell 1 for the left-biased reconstruction).  In particular it does not depend on
the symbolic spacing `dz` used during generation. -/
theorem C10_indicator_is_jiang_shu (side : Side) (k r : ℕ) (hk : 2 ≤ k) (dz : ℝ) (hdz : dz ≠ 0)
    (f : ℤ → ℝ) (P : ℝ[X]) (hP : P.natDegree < k) (x h : ℝ) (hh : h ≠ 0)
    (hf : ∀ j < k, cellAverage P x h (funcPoint side r j) = f (funcPoint side r j)) :
    beta side k r dz f = ∑ l ∈ Ico 1 k, h^(2*l-1) *
      ∫ y in (x + ((side.c:ℝ) - 1) * h)..(x + (side.c:ℝ) * h), (((derivative^[l]) P).eval y)^2 := by
  rw [beta_eq_total side k r hk]
  exact smoothTotal_spec k r side.c dz h x hdz hh P hP _ hf

/-- **C10.** Such a polynomial exists for every data set, so the previous theorem determines the
indicator. -/
theorem C10_candidate_polynomial_exists (side : Side) (k r : ℕ) (hk : 1 ≤ k) (f : ℤ → ℝ) (x h : ℝ)
    (hh : h ≠ 0) : ∃ P : ℝ[X], P.natDegree < k ∧
      ∀ j < k, cellAverage P x h (funcPoint side r j) = f (funcPoint side r j) :=
  exists_cellPoly k r hk side.c h x hh fun j => f (funcPoint side r j)

/-- **C10.** Every entry of the coefficient dictionary refers to two points of the stencil: the
generator never looks up a point that does not exist. -/
theorem C10_extraction_in_stencil (k r : ℕ) (hk : 2 ≤ k) (dz : ℝ) :
    ∀ e ∈ smoothCoeffs k r dz, e.1.1 < k ∧ e.1.2 < k := by
  classical
  intro e he
  rw [smoothCoeffs_eq k r hk, List.mem_flatMap] at he
  obtain ⟨m, _, he⟩ := he
  rw [List.mem_map] at he
  obtain ⟨n, hn, rfl⟩ := he
  rw [List.mem_filter, decide_eq_true_eq] at hn
  obtain ⟨_, hmn, hq⟩ := hn
  have : n < k := by
    by_contra h
    exact hq (quadCoeff_of_ge k r dz m n (by omega))
  exact ⟨by simpa using lt_of_le_of_lt hmn this, this⟩

theorem upwind_le (side : Side) (x h : ℝ) (hh : 0 < h) :
    x + ((side.c:ℝ) - 1) * h < x + (side.c:ℝ) * h := by nlinarith

/-- **C10.** The indicator is never negative. -/
theorem C10_indicator_nonneg (side : Side) (k r : ℕ) (hk : 2 ≤ k) (dz : ℝ) (hdz : dz ≠ 0)
    (f : ℤ → ℝ) : 0 ≤ beta side k r dz f := by
  obtain ⟨P, hP, hf⟩ := C10_candidate_polynomial_exists side k r (by omega) f 0 1 one_ne_zero
  rw [C10_indicator_is_jiang_shu side k r hk dz hdz f P hP 0 1 one_ne_zero hf]
  apply Finset.sum_nonneg
  intro l _
  refine mul_nonneg (by positivity) ?_
  exact intervalIntegral.integral_nonneg (upwind_le side 0 1 one_pos).le fun _ _ => sq_nonneg _

theorem poly_eq_zero_of_integral_sq {P : ℝ[X]} {a b : ℝ} (hab : a < b)
    (h : ∫ y in a..b, (P.eval y)^2 = 0) : P = 0 := by
  by_contra hP
  have hroots : ∃ y ∈ Set.Icc a b, P.eval y ≠ 0 := by
    by_contra hcon
    push Not at hcon
    apply hP
    apply Polynomial.eq_zero_of_infinite_isRoot
    exact (Set.Icc_infinite hab).mono fun y hy => hcon y hy
  obtain ⟨y, hy, hne⟩ := hroots
  have := intervalIntegral.integral_pos (f := fun y => (P.eval y)^2) hab
    ((P.continuous.pow 2).continuousOn) (fun y _ => sq_nonneg _)
    ⟨y, hy, by positivity⟩
  exact absurd h this.ne'

/-- **C10.** The indicator vanishes exactly on constant stencil data. -/
theorem C10_indicator_zero_iff_constant (side : Side) (k r : ℕ) (hk : 2 ≤ k) (dz : ℝ)
    (hdz : dz ≠ 0) (f : ℤ → ℝ) :
    beta side k r dz f = 0 ↔
      ∀ i < k, ∀ j < k, f (funcPoint side r i) = f (funcPoint side r j) := by
  constructor
  · intro h0
    obtain ⟨P, hP, hf⟩ := C10_candidate_polynomial_exists side k r (by omega) f 0 1 one_ne_zero
    rw [C10_indicator_is_jiang_shu side k r hk dz hdz f P hP 0 1 one_ne_zero hf] at h0
    rw [Finset.sum_eq_zero_iff_of_nonneg] at h0
    · have h1 := h0 1 (mem_Ico.2 ⟨le_rfl, by omega⟩)
      simp only [one_pow, one_mul, Function.iterate_one] at h1
      have h2 := poly_eq_zero_of_integral_sq (upwind_le side 0 1 one_pos) h1
      have hdeg := Polynomial.derivative_eq_zero.1 h2
      obtain ⟨c, rfl⟩ := Polynomial.natDegree_eq_zero.1 hdeg
      intro i hi j hj
      rw [← hf i hi, ← hf j hj]
      simp [cellAverage]
    · intro l _
      refine mul_nonneg (by positivity) ?_
      exact intervalIntegral.integral_nonneg (upwind_le side 0 1 one_pos).le fun _ _ => sq_nonneg _
  · intro hc
    rw [C10_indicator_is_jiang_shu side k r hk dz hdz f (C (f (funcPoint side r 0))) (by
      rw [natDegree_C]; omega) 0 1 one_ne_zero]
    · apply Finset.sum_eq_zero
      intro l hl
      rw [mem_Ico] at hl
      rw [Polynomial.iterate_derivative_C (by omega)]
      simp
    · intro j hj
      rw [← hc j hj 0 (by omega)]
      simp [cellAverage]

/-- **C08.** The indicators of mirrored data are mirrored. -/
theorem C08_indicator_mirror (k r : ℕ) (hk : 2 ≤ k) (hr : r < k) (dz : ℝ) (hdz : dz ≠ 0)
    (f : ℤ → ℝ) : beta .left k r dz f = beta .right k (k-1-r) dz (fun n => f (1-n)) := by
  obtain ⟨P, hP, hf⟩ := C10_candidate_polynomial_exists .left k r (by omega) f 0 1 one_ne_zero
  rw [C10_indicator_is_jiang_shu .left k r hk dz hdz f P hP 0 1 one_ne_zero hf]
  have hQ : (P.comp (C 0 + C (-1) * X)).natDegree < k := by
    refine lt_of_le_of_lt natDegree_comp_le ?_
    have : (C 0 + C (-1) * X : ℝ[X]).natDegree ≤ 1 := by
      rw [C_0, zero_add]; exact (natDegree_C_mul_le _ _).trans natDegree_X_le
    calc P.natDegree * _ ≤ P.natDegree * 1 := Nat.mul_le_mul_left _ this
      _ < k := by omega
  have hrefl : ∀ (p : ℝ[X]) (n : ℤ), cellAverage (p.comp (C 0 + C (-1) * X)) 0 1 n =
      cellAverage p 0 1 (1-n) := by
    intro p n
    unfold cellAverage
    simp only [eval_comp, eval_add, eval_C, eval_mul, eval_X, zero_add, mul_one, div_one, neg_mul,
      one_mul]
    rw [intervalIntegral.integral_comp_neg (fun y => p.eval y)]
    push_cast
    congr 1 <;> ring
  rw [C10_indicator_is_jiang_shu .right k (k-1-r) hk dz hdz _ _ hQ 0 1 one_ne_zero]
  · apply Finset.sum_congr rfl
    intro l _
    congr 1
    rw [iterate_derivative_comp_affine]
    simp only [eval_comp, eval_add, eval_C, eval_mul, eval_X, zero_add, mul_one, neg_mul,
      one_mul, mul_pow, Side.c]
    have h1 : (((-1:ℝ))^l)^2 = 1 := by rw [← pow_mul, mul_comm, pow_mul]; norm_num
    simp only [h1, one_mul]
    rw [intervalIntegral.integral_comp_neg (fun y => (((derivative^[l]) P).eval y)^2)]
    norm_num
  · intro j hj
    rw [hrefl]
    have : 1 - funcPoint .right (k-1-r) j = funcPoint .left r (k-1-j) := by
      simp only [funcPoint, Side.c]; omega
    rw [this]
    exact hf _ (by omega)

/-- A non-trivial data set: the two-point indicator is the squared difference. -/
example (f : ℤ → ℝ) : beta .right 2 0 1 f = (f 1 - f 0)^2 := by
  have h := C10_indicator_is_jiang_shu .right 2 0 le_rfl 1 one_ne_zero f
    (C (f 0 + (f 1 - f 0)/2) + C (f 1 - f 0) * X) (by
      refine lt_of_le_of_lt (natDegree_add_le _ _) ?_
      rw [natDegree_C]
      exact max_lt (by norm_num) (lt_of_le_of_lt ((natDegree_C_mul_le _ _).trans natDegree_X_le)
        (by norm_num))) 0 1 one_ne_zero
  rw [h]
  · simp
  · intro j hj
    have : j = 0 ∨ j = 1 := by omega
    have hm : ∀ a b : ℝ, ∫ y in a..b, (f 1 - f 0) * y = (f 1 - f 0) * ((b^2 - a^2)/2) := by
      intro a b
      rw [intervalIntegral.integral_const_mul, integral_id]
    rcases this with rfl | rfl
    · simp only [funcPoint, Side.c, cellAverage, eval_add, eval_C, eval_mul, eval_X]
      rw [intervalIntegral.integral_add (by simp) (Continuous.intervalIntegrable (by fun_prop) _ _),
        hm, intervalIntegral.integral_const]
      norm_num
      ring
    · simp only [funcPoint, Side.c, cellAverage, eval_add, eval_C, eval_mul, eval_X]
      rw [intervalIntegral.integral_add (by simp) (Continuous.intervalIntegrable (by fun_prop) _ _),
        hm, intervalIntegral.integral_const]
      norm_num
      ring

/-! ## C09 -/

theorem omega_pos (k : ℕ) (α : ℕ → ℝ) (hα : ∀ r < k, 0 < α r) (r : ℕ) (hr : r < k) :
    0 < omega k α r := by
  unfold omega
  have : 0 < ∑ r ∈ range k, α r :=
    Finset.sum_pos (fun i hi => hα i (mem_range.1 hi)) ⟨r, mem_range.2 hr⟩
  exact mul_pos (hα r hr) (by positivity)

theorem omega_sum (k : ℕ) (hk : 1 ≤ k) (α : ℕ → ℝ) (hα : ∀ r < k, 0 < α r) :
    ∑ r ∈ range k, omega k α r = 1 := by
  unfold omega
  have : 0 < ∑ r ∈ range k, α r :=
    Finset.sum_pos (fun i hi => hα i (mem_range.1 hi)) ⟨0, mem_range.2 (by omega)⟩
  rw [← Finset.sum_mul]
  field_simp

theorem alphaJS_pos (d β : ℕ → ℝ) (r : ℕ) (hd : 0 < d r) (hβ : 0 ≤ β r) : 0 < alphaJS d β r := by
  unfold alphaJS epsJS
  positivity

theorem alphaZ_pos (tau : ℝ) (d β : ℕ → ℝ) (r : ℕ) (hd : 0 < d r) :
    0 < alphaZ tau d β r := by
  unfold alphaZ
  positivity

/-- **C09.** No division by zero: every denominator in the weight formulas is positive. -/
theorem C09_denominators_positive (k : ℕ) (hk : 1 ≤ k) (d β : ℕ → ℝ) (hd : ∀ r < k, 0 < d r)
    (hβ : ∀ r < k, 0 ≤ β r) (tau : ℝ) :
    (∀ r < k, 0 < (epsJS + β r)^2 ∧ 0 < epsZ + β r) ∧
    0 < ∑ r ∈ range k, alphaJS d β r ∧ 0 < ∑ r ∈ range k, alphaZ tau d β r := by
  refine ⟨fun r hr => ?_, ?_, ?_⟩
  · have := hβ r hr
    unfold epsJS epsZ
    constructor <;> positivity
  · exact Finset.sum_pos (fun i hi => alphaJS_pos d β i (hd i (mem_range.1 hi))
      (hβ i (mem_range.1 hi))) ⟨0, mem_range.2 (by omega)⟩
  · exact Finset.sum_pos (fun i hi => alphaZ_pos tau d β i (hd i (mem_range.1 hi)))
      ⟨0, mem_range.2 (by omega)⟩

/-- **C09.** The nonlinear weights are positive and sum to one, for both formulations, whenever the
generator produces them. -/
theorem C09_weights_convex (form : Formulation) (k : ℕ) (hk : 1 ≤ k) (d β : ℕ → ℝ)
    (hd : ∀ r < k, 0 < d r) (hβ : ∀ r < k, 0 ≤ β r) (ω : ℕ → ℝ)
    (h : weights form k d β = some ω) :
    (∀ r < k, 0 < ω r) ∧ ∑ r ∈ range k, ω r = 1 := by
  cases form with
  | JS =>
    simp only [weights, Option.some.injEq] at h
    subst h
    have hα : ∀ r < k, 0 < alphaJS d β r := fun r hr => alphaJS_pos d β r (hd r hr) (hβ r hr)
    exact ⟨omega_pos k _ hα, omega_sum k hk _ hα⟩
  | Z =>
    simp only [weights, Option.map_eq_some_iff] at h
    obtain ⟨tau, _, rfl⟩ := h
    have hα : ∀ r < k, 0 < alphaZ tau d β r := fun r hr => alphaZ_pos tau d β r (hd r hr)
    exact ⟨omega_pos k _ hα, omega_sum k hk _ hα⟩

/-- **C09.** The Jiang–Shu weights exist for every `k`; the Z weights exactly for `k = 2..7`. -/
theorem C09_weights_defined (form : Formulation) (k : ℕ) (d β : ℕ → ℝ) :
    (∃ ω, weights form k d β = some ω) ↔ (form = .Z → 2 ≤ k ∧ k ≤ 7) := by
  cases form with
  | JS => simp [weights]
  | Z =>
    simp only [weights, Option.map_eq_some_iff, forall_const]
    constructor
    · rintro ⟨ω, tau, h, _⟩
      unfold tauZ at h
      split_ifs at h <;> omega
    · rintro ⟨h1, h2⟩
      have : ∃ tau, tauZ k β = some tau := by
        interval_cases k <;> exact ⟨_, rfl⟩
      obtain ⟨tau, ht⟩ := this
      exact ⟨_, tau, ht, rfl⟩

/-- **C09.** The reconstructed value lies between any bounds of the candidate values; in particular
between the smallest and the largest one.  The linear weights are those the generator computes and
the indicators those it emits. -/
theorem C09_reconstruction_between_candidates (form : Formulation) (side : Side) (k : ℕ)
    (hk : 2 ≤ k) (dz : ℝ) (hdz : dz ≠ 0) (d : ℕ → ℝ) (hd : OptimalWeights ℝ side k d) (f : ℤ → ℝ)
    (v : ℝ) (hv : wenoReconstruct form side k dz d f = some v) (lo hi : ℝ)
    (hlo : ∀ r < k, lo ≤ candidate side k r f) (hhi : ∀ r < k, candidate side k r f ≤ hi) :
    lo ≤ v ∧ v ≤ hi := by
  unfold wenoReconstruct at hv
  rw [Option.map_eq_some_iff] at hv
  obtain ⟨ω, hω, rfl⟩ := hv
  obtain ⟨h1, h2⟩ := C09_weights_convex form k (by omega) d _
    (fun r hr => C07_weights_positive side k d hd r hr)
    (fun r _ => C10_indicator_nonneg side k r hk dz hdz f) ω hω
  unfold reconstruction
  constructor
  · calc lo = ∑ r ∈ range k, ω r * lo := by rw [← Finset.sum_mul, h2, one_mul]
      _ ≤ _ := Finset.sum_le_sum fun r hr =>
        mul_le_mul_of_nonneg_left (hlo r (mem_range.1 hr)) (h1 r (mem_range.1 hr)).le
  · calc _ ≤ ∑ r ∈ range k, ω r * hi := Finset.sum_le_sum fun r hr =>
        mul_le_mul_of_nonneg_left (hhi r (mem_range.1 hr)) (h1 r (mem_range.1 hr)).le
      _ = hi := by rw [← Finset.sum_mul, h2, one_mul]

/-- **C09.** Constant data are reconstructed exactly. -/
theorem C09_constant_exact (form : Formulation) (side : Side) (k : ℕ)
    (hk : 2 ≤ k) (dz : ℝ) (hdz : dz ≠ 0) (d : ℕ → ℝ) (hd : OptimalWeights ℝ side k d) (c v : ℝ)
    (hv : wenoReconstruct form side k dz d (fun _ => c) = some v) : v = c := by
  have hc : ∀ r, candidate side k r (fun _ => c) = c := by
    intro r
    unfold candidate
    rw [← Finset.sum_mul, C06_coefficients_sum_to_one side k r (by omega), one_mul]
  obtain ⟨h1, h2⟩ := C09_reconstruction_between_candidates form side k hk dz hdz d hd _ v hv c c
    (fun r _ => (hc r).ge) (fun r _ => (hc r).le)
  exact le_antisymm h2 h1

theorem tauZ_const (k : ℕ) (b : ℕ → ℝ) (hb : ∀ i < k, b i = b 0) (tau : ℝ)
    (h : tauZ k b = some tau) : tau = 0 := by
  unfold tauZ at h
  split_ifs at h with h2 h3 h4 h5 h6 h7 <;> subst_vars <;> simp only [Option.some.injEq] at h <;>
    rw [← h, abs_eq_zero]
  · rw [hb 1 (by norm_num)]; ring
  · rw [hb 2 (by norm_num)]; ring
  · rw [hb 1 (by norm_num), hb 2 (by norm_num), hb 3 (by norm_num)]; ring
  · rw [hb 1 (by norm_num), hb 2 (by norm_num), hb 3 (by norm_num), hb 4 (by norm_num)]; ring
  · rw [hb 1 (by norm_num), hb 2 (by norm_num), hb 3 (by norm_num), hb 4 (by norm_num),
      hb 5 (by norm_num)]; ring
  · rw [hb 1 (by norm_num), hb 2 (by norm_num), hb 4 (by norm_num),
      hb 5 (by norm_num), hb 6 (by norm_num)]; ring

/-- **C09.** Where all candidates are equally smooth, the nonlinear weights are the linear ones. -/
theorem C09_equal_indicators_give_linear_weights (form : Formulation) (side : Side) (k : ℕ)
    (hk : 1 ≤ k) (d β : ℕ → ℝ) (hd : OptimalWeights ℝ side k d) (hβ0 : 0 ≤ β 0)
    (hβ : ∀ r < k, β r = β 0) (ω : ℕ → ℝ) (h : weights form k d β = some ω) (r : ℕ) (hr : r < k) :
    ω r = d r := by
  have hsum := C07_weights_sum_to_one side k hk d hd
  cases form with
  | JS =>
    simp only [weights, Option.some.injEq] at h
    subst h
    have e : ∀ i ∈ range k, alphaJS d β i = d i * (1 / (epsJS + β 0)^2) := by
      intro i hi
      unfold alphaJS
      rw [hβ i (mem_range.1 hi)]
      ring
    unfold omega
    rw [Finset.sum_congr rfl e, ← Finset.sum_mul, hsum, e r (mem_range.2 hr)]
    have : 0 < epsJS + β 0 := by unfold epsJS; positivity
    field_simp
  | Z =>
    simp only [weights, Option.map_eq_some_iff] at h
    obtain ⟨tau, ht, rfl⟩ := h
    have h0 := tauZ_const k β hβ tau ht
    subst h0
    have e : ∀ i ∈ range k, alphaZ 0 d β i = d i := by
      intro i _
      unfold alphaZ
      ring
    unfold omega
    rw [Finset.sum_congr rfl e, hsum, e r (mem_range.2 hr)]
    ring

/-- The fifth order Z scheme on step data: all hypotheses are satisfiable. -/
example : ∃ v, wenoReconstruct .Z .right 3 1 (optimal .right 3)
    (fun n => if n ≤ 0 then 1 else 0) = some v :=
  ⟨_, by unfold wenoReconstruct weights; simp only [tauZ]; rfl⟩

/-! ## C08, nonlinear part -/

theorem tauZ_mirror (k : ℕ) (b : ℕ → ℝ) : tauZ k (fun r => b (k-1-r)) = tauZ k b := by
  unfold tauZ
  split_ifs with h2 h3 h4 h5 h6 h7 <;> subst_vars <;> simp only [Option.some.injEq] <;> norm_num
  · exact abs_sub_comm _ _
  · exact abs_sub_comm _ _
  · rw [← abs_neg]; congr 1; ring
  · congr 1; ring
  · rw [← abs_neg]; congr 1; ring
  · rw [← abs_neg]; congr 1; ring

theorem tauZ_congr (k : ℕ) (b b' : ℕ → ℝ) (h : ∀ i < k, b i = b' i) : tauZ k b = tauZ k b' := by
  unfold tauZ
  split_ifs with h2 h3 h4 h5 h6 h7 <;> subst_vars <;> simp only [Option.some.injEq]
  · rw [h 0 (by norm_num), h 1 (by norm_num)]
  · rw [h 0 (by norm_num), h 2 (by norm_num)]
  · rw [h 0 (by norm_num), h 1 (by norm_num), h 2 (by norm_num), h 3 (by norm_num)]
  · rw [h 0 (by norm_num), h 1 (by norm_num), h 2 (by norm_num), h 3 (by norm_num),
      h 4 (by norm_num)]
  · rw [h 0 (by norm_num), h 1 (by norm_num), h 2 (by norm_num), h 3 (by norm_num),
      h 4 (by norm_num), h 5 (by norm_num)]
  · rw [h 0 (by norm_num), h 1 (by norm_num), h 2 (by norm_num),
      h 4 (by norm_num), h 5 (by norm_num), h 6 (by norm_num)]

theorem omega_mirror (k : ℕ) (α α' : ℕ → ℝ) (h : ∀ r < k, α r = α' (k-1-r)) (r : ℕ) (hr : r < k) :
    omega k α r = omega k α' (k-1-r) := by
  unfold omega
  rw [h r hr]
  congr 2
  rw [← Finset.sum_range_reflect]
  apply Finset.sum_congr rfl
  intro i hi
  rw [mem_range] at hi
  rw [h _ (by omega)]
  congr 1
  omega

theorem weights_mirror (form : Formulation) (k : ℕ) (dl dr βl βr : ℕ → ℝ)
    (hd : ∀ r < k, dl r = dr (k-1-r)) (hβ : ∀ r < k, βl r = βr (k-1-r)) :
    (weights form k dl βl = none ∧ weights form k dr βr = none) ∨
    ∃ ωl ωr, weights form k dl βl = some ωl ∧ weights form k dr βr = some ωr ∧
      ∀ r < k, ωl r = ωr (k-1-r) := by
  cases form with
  | JS =>
    right
    refine ⟨_, _, rfl, rfl, omega_mirror k _ _ ?_⟩
    intro r h
    unfold alphaJS
    rw [hd r h, hβ r h]
  | Z =>
    have ht : tauZ k βl = tauZ k βr := by
      rw [← tauZ_mirror k βr]
      exact tauZ_congr k _ _ hβ
    simp only [weights, ht]
    cases tauZ k βr with
    | none => left; exact ⟨rfl, rfl⟩
    | some tau =>
      right
      refine ⟨_, _, rfl, rfl, omega_mirror k _ _ ?_⟩
      intro r h
      unfold alphaZ
      rw [hd r h, hβ r h]

theorem reconstruction_mirror (k : ℕ) (f : ℤ → ℝ) (ωl ωr : ℕ → ℝ)
    (hω : ∀ r < k, ωl r = ωr (k-1-r)) :
    reconstruction .left k ωl f = reconstruction .right k ωr (fun n => f (1-n)) := by
  unfold reconstruction
  rw [← Finset.sum_range_reflect]
  apply Finset.sum_congr rfl
  intro i hi
  rw [mem_range] at hi
  have : k - 1 - (k - 1 - i) = i := by omega
  rw [hω _ (by omega), C08_candidate_mirror k _ (by omega), this]

theorem map_mirror (w1 w2 : Option (ℕ → ℝ)) (F G : (ℕ → ℝ) → ℝ)
    (h : (w1 = none ∧ w2 = none) ∨ ∃ ωl ωr, w1 = some ωl ∧ w2 = some ωr ∧ F ωl = G ωr) :
    w1.map F = w2.map G := by
  rcases h with ⟨h1, h2⟩ | ⟨ωl, ωr, h1, h2, h3⟩
  · rw [h1, h2, Option.map_none, Option.map_none]
  · rw [h1, h2, Option.map_some, Option.map_some, h3]

/-- **C08.** The complete nonlinear reconstructions are mirror images: reconstructing from the left
equals reconstructing mirrored data from the right, for both formulations and all data. -/
theorem C08_reconstruction_mirror (form : Formulation) (k : ℕ) (hk : 2 ≤ k) (dz : ℝ) (hdz : dz ≠ 0)
    (dl dr : ℕ → ℝ) (hl : OptimalWeights ℝ .left k dl) (hr : OptimalWeights ℝ .right k dr)
    (f : ℤ → ℝ) :
    wenoReconstruct form .left k dz dl f = wenoReconstruct form .right k dz dr (fun n => f (1-n)) := by
  unfold wenoReconstruct
  apply map_mirror
  rcases weights_mirror form k dl dr (fun r => beta .left k r dz f)
    (fun r => beta .right k r dz (fun n => f (1-n)))
    (fun r h => C08_weights_mirror k dl dr hl hr r h)
    (fun r h => C08_indicator_mirror k r hk h dz hdz f) with h | ⟨ωl, ωr, h1, h2, h3⟩
  · exact Or.inl h
  · exact Or.inr ⟨ωl, ωr, h1, h2, reconstruction_mirror k f ωl ωr h3⟩

/-! ## C54 (WENO based sensor) -/

/-- **C54.** The normalised WENO sensor lies in `[0, 1]` when `dmin` is the smallest linear weight. -/
theorem C54_weno_sensor_bounds (k : ℕ) (hk : 2 ≤ k) (d ω : ℕ → ℝ) (hd : ∀ r < k, 0 < d r)
    (hω : ∀ r < k, 0 ≤ ω r) (hω1 : ∑ r ∈ range k, ω r = 1) (dmin : ℝ) (hmin : 0 < dmin)
    (hle : ∀ r < k, dmin ≤ d r) (hd1 : ∀ r < k, d r ≤ 1) :
    0 ≤ wenoSensor k d ω dmin ∧ wenoSensor k d ω dmin ≤ 1 := by
  have hden : 0 < |1/dmin - 1|^4 + ((k:ℝ)-1) := by
    have : (2:ℝ) ≤ k := by exact_mod_cast hk
    have : 0 < (k:ℝ) - 1 := by linarith
    positivity
  unfold wenoSensor
  refine ⟨div_nonneg (Finset.sum_nonneg fun _ _ => by positivity) hden.le, ?_⟩
  rw [div_le_one hden]
  have key : ∀ L ∈ range k, |ω L / d L - 1|^4 ≤ ω L * |1/dmin - 1|^4 + (1 - ω L) := by
    intro L hL
    rw [mem_range] at hL
    have h0 := hω L hL
    have h1 : ω L ≤ 1 := by
      rw [← hω1]
      exact Finset.single_le_sum (fun i hi => hω i (mem_range.1 hi)) (mem_range.2 hL)
    have hconv := (Even.convexOn_pow (𝕜 := ℝ) (n := 4) (by decide)).2 (Set.mem_univ (1 / d L - 1))
      (Set.mem_univ (-1)) h0 (sub_nonneg.2 h1) (by ring)
    simp only [smul_eq_mul] at hconv
    have e : ω L * (1 / d L - 1) + (1 - ω L) * -1 = ω L / d L - 1 := by ring
    rw [e] at hconv
    have ha : ∀ t : ℝ, |t|^4 = t^4 := fun t => by
      rw [← abs_pow, abs_of_nonneg (by positivity)]
    rw [ha, ha]
    have hdL := hd L hL
    have hge : 0 ≤ 1 / d L - 1 := by
      rw [sub_nonneg, le_div_iff₀ hdL]; linarith [hd1 L hL]
    have hle' : 1 / d L - 1 ≤ 1 / dmin - 1 := by
      have := one_div_le_one_div_of_le hmin (hle L hL)
      linarith
    have hpow : (1 / d L - 1)^4 ≤ (1/dmin - 1)^4 := pow_le_pow_left₀ hge hle' 4
    have := mul_le_mul_of_nonneg_left hpow h0
    norm_num at hconv ⊢
    norm_num at this
    linarith
  calc _ ≤ ∑ L ∈ range k, (ω L * |1/dmin - 1|^4 + (1 - ω L)) := Finset.sum_le_sum key
    _ = _ := by
      rw [Finset.sum_add_distrib, ← Finset.sum_mul, Finset.sum_sub_distrib, hω1]
      simp

end OpenSBLI.Weno
