import Verif.Props.C87_Order
import Mathlib.Analysis.Calculus.MeanValue
import Mathlib.Analysis.Calculus.Deriv.Inv
import Mathlib.Analysis.Calculus.ContDiff.Operations

/-! # The error of second derivatives on a stretched line -/
namespace OpenSBLI.Stretch
open scoped ContDiff

/-- The first difference of a function of the real line. -/
noncomputable def fd1 (order : ℕ) (δ : ℝ) (f : ℝ → ℝ) (t : ℝ) : ℝ := Central.discretise order 1 δ (fun i => f (t + i * δ)) 0

/-- The second difference. -/
noncomputable def fd2 (order : ℕ) (δ : ℝ) (f : ℝ → ℝ) (t : ℝ) : ℝ := Central.discretise order 2 δ (fun i => f (t + i * δ)) 0

theorem fd1_eq (order : ℕ) (δ : ℝ) (f : ℝ → ℝ) (t : ℝ) : fd1 order δ f t = (∑ p ∈ Central.points order, Central.weight ℝ order 1 p * f (t + p * δ)) * (1 / δ) := by
  simp [fd1, Central.discretise]

theorem fd1_sub (order : ℕ) (δ : ℝ) (f g : ℝ → ℝ) (t : ℝ) : fd1 order δ (fun s => f s - g s) t = fd1 order δ f t - fd1 order δ g t := by
  simp only [fd1_eq, mul_sub, Finset.sum_sub_distrib, sub_mul]

theorem fd1_hasDerivAt (order : ℕ) (δ : ℝ) {f : ℝ → ℝ} (hf : Differentiable ℝ f) (t : ℝ) : HasDerivAt (fd1 order δ f) (fd1 order δ (deriv f) t) t := by
  have h : HasDerivAt (fun t => (∑ p ∈ Central.points order, Central.weight ℝ order 1 p * f (t + p * δ)) * (1 / δ)) ((∑ p ∈ Central.points order, Central.weight ℝ order 1 p * deriv f (t + p * δ)) * (1 / δ)) t := by
    refine HasDerivAt.mul_const (HasDerivAt.fun_sum fun p _ => HasDerivAt.const_mul _ ?_) _
    exact HasDerivAt.comp_add_const t (p * δ) (hf _).hasDerivAt
  rw [fd1_eq]
  refine h.congr_of_eventuallyEq (Filter.Eventually.of_forall fun s => fd1_eq order δ f s)

/-- Differences of functions with small derivatives are small. -/
theorem fd1_small (order : ℕ) : ∃ L, 0 ≤ L ∧ ∀ (u : ℝ → ℝ) (E : ℝ), Differentiable ℝ u → (∀ t, |deriv u t| ≤ E) → ∀ δ, 0 < δ → ∀ t, |fd1 order δ u t| ≤ L * E := by
  refine ⟨∑ p ∈ Central.points order, |Central.weight ℝ order 1 p| * |(p : ℝ)|, Finset.sum_nonneg fun _ _ => by positivity, fun u E hu hE δ hδ t => ?_⟩
  have h0 : ∑ p ∈ Central.points order, Central.weight ℝ order 1 p * u (t + p * δ) = ∑ p ∈ Central.points order, Central.weight ℝ order 1 p * (u (t + p * δ) - u t) := by
    simp only [mul_sub, Finset.sum_sub_distrib, ← Finset.sum_mul, Central.C18_annihilates_constants order 1 le_rfl, zero_mul, sub_zero]
  have hm : ∀ p : ℤ, |u (t + p * δ) - u t| ≤ E * (|(p : ℝ)| * δ) := by
    intro p
    have := Convex.norm_image_sub_le_of_norm_deriv_le (f := u) (s := Set.univ) (C := E) (x := t) (y := t + p * δ) (fun x _ => hu x) (fun x _ => by simpa using hE x) convex_univ trivial trivial
    simpa [abs_mul, abs_of_pos hδ] using this
  rw [fd1_eq, h0, abs_mul, abs_of_pos (one_div_pos.2 hδ)]
  calc |∑ p ∈ Central.points order, Central.weight ℝ order 1 p * (u (t + p * δ) - u t)| * (1 / δ)
      ≤ (∑ p ∈ Central.points order, |Central.weight ℝ order 1 p| * (E * (|(p : ℝ)| * δ))) * (1 / δ) := by
        refine mul_le_mul_of_nonneg_right ((Finset.abs_sum_le_sum_abs _ _).trans (Finset.sum_le_sum fun p _ => ?_)) (one_div_pos.2 hδ).le
        rw [abs_mul]
        exact mul_le_mul_of_nonneg_left (hm p) (abs_nonneg _)
    _ = (∑ p ∈ Central.points order, |Central.weight ℝ order 1 p| * |(p : ℝ)|) * E := by
        rw [Finset.sum_mul, Finset.sum_mul]
        refine Finset.sum_congr rfl fun p _ => ?_
        field_simp

theorem mul_near {x x0 y y0 A B X Y η : ℝ} (hA : 0 ≤ A) (hB : 0 ≤ B) (hη : 0 ≤ η) (hη1 : η ≤ 1) (hx : |x - x0| ≤ A * η) (hy : |y - y0| ≤ B * η) (hX : |x0| ≤ X) (hY : |y0| ≤ Y) :
    |x * y - x0 * y0| ≤ (A * (Y + B) + X * B) * η := by
  have hyb : |y| ≤ Y + B := by
    have : |y| ≤ |y0| + |y - y0| := by have := abs_add_le y0 (y - y0); simpa using this
    nlinarith
  have hX0 : 0 ≤ X := (abs_nonneg _).trans hX
  calc |x * y - x0 * y0| = |(x - x0) * y + x0 * (y - y0)| := by ring_nf
    _ ≤ |x - x0| * |y| + |x0| * |y - y0| := (abs_add_le _ _).trans (by rw [abs_mul, abs_mul])
    _ ≤ A * η * (Y + B) + X * (B * η) := add_le_add (mul_le_mul hx hyb (abs_nonneg _) (by positivity)) (mul_le_mul hX hy (abs_nonneg _) hX0)
    _ = (A * (Y + B) + X * B) * η := by ring

/-- What is asked of a stretching: smooth, increasing at least with slope `c`, derivatives bounded. -/
structure Stretching (p : ℕ) (c b : ℝ) (g : ℝ → ℝ) : Prop where
  smooth : ContDiff ℝ ∞ g
  pos : 0 < c
  slope : ∀ t, c ≤ deriv g t
  second : ∀ t, |iteratedDeriv 2 g t| ≤ b
  odd : ∀ t, |iteratedDeriv (2 * p + 1) g t| ≤ b
  even : ∀ t, |iteratedDeriv (2 * p + 2) g t| ≤ b
  inverse : ∀ t, |iteratedDeriv (2 * p + 1) (fun t => (deriv g t)⁻¹) t| ≤ b

theorem iteratedDeriv_deriv (k : ℕ) (g : ℝ → ℝ) (t : ℝ) : iteratedDeriv k (deriv g) t = iteratedDeriv (k + 1) g t := by rw [iteratedDeriv_succ']

/-- The metric term of a stretched line and its difference, and their errors. -/
theorem metric_error {p : ℕ} (hp : 1 ≤ p) {c b : ℝ} {g : ℝ → ℝ} (hg : Stretching p c b g) : ∃ K δ0 : ℝ, 0 ≤ K ∧ 0 < δ0 ∧ δ0 ≤ 1 ∧ ∀ δ, 0 < δ → δ ≤ δ0 → ∀ t,
    c / 2 ≤ fd1 (2 * p) δ g t ∧ |(fd1 (2 * p) δ g t)⁻¹ - (deriv g t)⁻¹| ≤ K * δ ^ (2 * p) ∧
    |fd1 (2 * p) δ (fun s => (fd1 (2 * p) δ g s)⁻¹) t - deriv (fun s => (deriv g s)⁻¹) t| ≤ K * δ ^ (2 * p) := by
  obtain ⟨C, hC⟩ := Order.C87_central p hp 1 (.inl rfl)
  obtain ⟨L, hL0, hL⟩ := fd1_small (2 * p)
  have hb : 0 ≤ b := (abs_nonneg _).trans (hg.second 0)
  have hc := hg.pos
  have hgd : Differentiable ℝ g := hg.smooth.differentiable (by simp)
  have hg1 : ContDiff ℝ ∞ (deriv g) := hg.smooth.deriv' 
  have hg1d : Differentiable ℝ (deriv g) := hg1.differentiable (by simp)
  have hne : ∀ t, deriv g t ≠ 0 := fun t => (hc.trans_le (hg.slope t)).ne'
  have hinv : ContDiff ℝ ∞ fun t => (deriv g t)⁻¹ := hg1.inv hne
  -- errors of the differences
  have herr : ∀ (f : ℝ → ℝ), ContDiff ℝ ∞ f → (∀ z, |iteratedDeriv (2 * p + 1) f z| ≤ b) → ∀ δ, 0 < δ → ∀ t, |fd1 (2 * p) δ f t - deriv f t| ≤ |C| * b * δ ^ (2 * p) := by
    intro f hf hbf δ hδ t
    have := hC f hf b hbf t δ hδ 0
    simp only [Int.cast_zero, zero_mul, add_zero, iteratedDeriv_one] at this
    exact this.trans (by gcongr; exact le_abs_self C)
  set E := |C| * b with hE
  have hE0 : 0 ≤ E := by positivity
  set K0 := 2 / c ^ 2 * E with hK0
  have hK00 : 0 ≤ K0 := by positivity
  -- the derivative of the error of the metric term
  set K1 := K0 * (1 / c + K0) + 1 / c * K0 with hK1
  have hK10 : 0 ≤ K1 := by positivity
  set K2 := E * (1 / c * (1 / c) + K1) + b * K1 with hK2
  have hK20 : 0 ≤ K2 := by positivity
  refine ⟨K0 + (L * K2 + E), min 1 (c / (2 * (E + 1))), by positivity, lt_min one_pos (by positivity), min_le_left _ _, fun δ hδ hδ0 => ?_⟩
  have hδ1 : δ ≤ 1 := hδ0.trans (min_le_left _ _)
  set η := δ ^ (2 * p) with hη
  have hη0 : 0 ≤ η := by positivity
  have hη1 : η ≤ 1 := pow_le_one₀ hδ.le hδ1
  have hηδ : η ≤ δ := by
    calc η = δ ^ (2 * p - 1 + 1) := by rw [hη]; congr 1; omega
      _ = δ ^ (2 * p - 1) * δ := pow_succ _ _
      _ ≤ 1 * δ := by gcongr; exact pow_le_one₀ hδ.le hδ1
      _ = δ := one_mul _
  have hsmall : E * η ≤ c / 2 := by
    have h1 : δ ≤ c / (2 * (E + 1)) := hδ0.trans (min_le_right _ _)
    rw [le_div_iff₀ (by positivity)] at h1
    nlinarith
  have e0 : ∀ t, |fd1 (2 * p) δ g t - deriv g t| ≤ E * η := herr g hg.smooth hg.odd δ hδ
  have e1 : ∀ t, |fd1 (2 * p) δ (deriv g) t - deriv (deriv g) t| ≤ E * η := herr (deriv g) hg1 (fun z => by rw [iteratedDeriv_deriv]; exact hg.even z) δ hδ
  have hJ : ∀ t, c / 2 ≤ fd1 (2 * p) δ g t := fun t => by
    have := abs_le.1 (e0 t)
    have := hg.slope t
    linarith
  have hJ0 : ∀ t, 0 < fd1 (2 * p) δ g t := fun t => (half_pos hc).trans_le (hJ t)
  have hg0 : ∀ t, 0 < deriv g t := fun t => hc.trans_le (hg.slope t)
  have ha : ∀ t, |(deriv g t)⁻¹| ≤ 1 / c := fun t => by
    rw [abs_of_pos (inv_pos.2 (hg0 t)), one_div]
    exact inv_anti₀ hc (hg.slope t)
  have hd : ∀ t, |(fd1 (2 * p) δ g t)⁻¹ - (deriv g t)⁻¹| ≤ K0 * η := by
    intro t
    rw [inv_sub_inv (hJ0 t).ne' (hg0 t).ne', abs_div, abs_of_pos (mul_pos (hJ0 t) (hg0 t)), abs_sub_comm, div_le_iff₀ (mul_pos (hJ0 t) (hg0 t))]
    have h1 : c / 2 * c ≤ fd1 (2 * p) δ g t * deriv g t := mul_le_mul (hJ t) (hg.slope t) hc.le (hJ0 t).le
    calc |fd1 (2 * p) δ g t - deriv g t| ≤ E * η := e0 t
      _ = K0 * η * (c / 2 * c) := by rw [hK0]; field_simp
      _ ≤ K0 * η * (fd1 (2 * p) δ g t * deriv g t) := mul_le_mul_of_nonneg_left h1 (by positivity)
  have hsq : ∀ t, |(fd1 (2 * p) δ g t)⁻¹ * (fd1 (2 * p) δ g t)⁻¹ - (deriv g t)⁻¹ * (deriv g t)⁻¹| ≤ K1 * η := fun t => mul_near hK00 hK00 hη0 hη1 (hd t) (hd t) (ha t) (ha t)
  -- derivatives
  have hDA : ∀ t, HasDerivAt (fun s => (fd1 (2 * p) δ g s)⁻¹) (-(fd1 (2 * p) δ (deriv g) t * ((fd1 (2 * p) δ g t)⁻¹ * (fd1 (2 * p) δ g t)⁻¹))) t := fun t => by
    have := (fd1_hasDerivAt (2 * p) δ hgd t).inv (hJ0 t).ne'
    refine this.congr_deriv ?_
    have := (hJ0 t).ne'
    field_simp
  have hDa : ∀ t, HasDerivAt (fun s => (deriv g s)⁻¹) (-(deriv (deriv g) t * ((deriv g t)⁻¹ * (deriv g t)⁻¹))) t := fun t => by
    have := (hg1d t).hasDerivAt.inv (hne t)
    refine this.congr_deriv ?_
    have := hne t
    field_simp
  have hu : ∀ t, HasDerivAt (fun s => (fd1 (2 * p) δ g s)⁻¹ - (deriv g s)⁻¹) (-(fd1 (2 * p) δ (deriv g) t * ((fd1 (2 * p) δ g t)⁻¹ * (fd1 (2 * p) δ g t)⁻¹)) - -(deriv (deriv g) t * ((deriv g t)⁻¹ * (deriv g t)⁻¹))) t :=
    fun t => (hDA t).sub (hDa t)
  have hub : ∀ t, |deriv (fun s => (fd1 (2 * p) δ g s)⁻¹ - (deriv g s)⁻¹) t| ≤ K2 * η := by
    intro t
    rw [(hu t).deriv, neg_sub_neg, abs_sub_comm]
    refine mul_near hE0 hK10 hη0 hη1 (e1 t) (hsq t) ?_ ?_
    · have := hg.second t
      rwa [iteratedDeriv_succ, iteratedDeriv_one] at this
    · rw [abs_mul]
      exact mul_le_mul (ha t) (ha t) (abs_nonneg _) (by positivity)
  intro t
  refine ⟨hJ t, (hd t).trans ?_, ?_⟩
  · have : 0 ≤ (L * K2 + E) * η := by positivity
    nlinarith
  · have h1 := hL _ (K2 * η) (fun s => (hu s).differentiableAt) hub δ hδ t
    rw [fd1_sub] at h1
    have h2 := herr _ hinv hg.inverse δ hδ t
    have h3 := abs_add_le (fd1 (2 * p) δ (fun s => (fd1 (2 * p) δ g s)⁻¹) t - fd1 (2 * p) δ (fun s => (deriv g s)⁻¹) t) (fd1 (2 * p) δ (fun s => (deriv g s)⁻¹) t - deriv (fun s => (deriv g s)⁻¹) t)
    rw [sub_add_sub_cancel] at h3
    refine h3.trans ((add_le_add h1 h2).trans ?_)
    have : 0 ≤ K0 * η := by positivity
    nlinarith

/-- The second derivative on a stretched line: metric term times (metric term times second difference plus difference of the metric term times first difference), for all functions with bounded derivatives. -/
theorem second_error {p : ℕ} (hp : 1 ≤ p) {c b : ℝ} {g : ℝ → ℝ} (hg : Stretching p c b g) : ∃ C δ0 : ℝ, 0 < δ0 ∧ ∀ δ, 0 < δ → δ ≤ δ0 → (∀ t, c / 2 ≤ fd1 (2 * p) δ g t) ∧
    ∀ f : ℝ → ℝ, ContDiff ℝ ∞ f → (∀ k ∈ [1, 2, 2 * p + 1, 2 * p + 2], ∀ t, |iteratedDeriv k f t| ≤ b) → ∀ t,
    |(fd1 (2 * p) δ g t)⁻¹ * ((fd1 (2 * p) δ g t)⁻¹ * fd2 (2 * p) δ f t + fd1 (2 * p) δ (fun s => (fd1 (2 * p) δ g s)⁻¹) t * fd1 (2 * p) δ f t) -
      (deriv g t)⁻¹ * ((deriv g t)⁻¹ * iteratedDeriv 2 f t + deriv (fun s => (deriv g s)⁻¹) t * deriv f t)| ≤ C * δ ^ (2 * p) := by
  obtain ⟨K, δ0, hK, hδ0, hδ01, hmain⟩ := metric_error hp hg
  obtain ⟨C1, hC1⟩ := Order.C87_central p hp 1 (.inl rfl)
  obtain ⟨C2, hC2⟩ := Order.C87_central p hp 2 (.inr rfl)
  have hb : 0 ≤ b := (abs_nonneg _).trans (hg.second 0)
  have hc := hg.pos
  have hg0 : ∀ t, 0 < deriv g t := fun t => hc.trans_le (hg.slope t)
  have ha : ∀ t, |(deriv g t)⁻¹| ≤ 1 / c := fun t => by
    rw [abs_of_pos (inv_pos.2 (hg0 t)), one_div]
    exact inv_anti₀ hc (hg.slope t)
  have hg1d : Differentiable ℝ (deriv g) := (show ContDiff ℝ ∞ (deriv g) from hg.smooth.deriv').differentiable (by simp)
  have hs : ∀ t, |deriv (fun s => (deriv g s)⁻¹) t| ≤ b * (1 / c * (1 / c)) := fun t => by
    have h1 := ((hg1d t).hasDerivAt.inv (hg0 t).ne').deriv
    have h2 : deriv (fun s => (deriv g s)⁻¹) t = -(deriv (deriv g) t * ((deriv g t)⁻¹ * (deriv g t)⁻¹)) := by
      refine h1.trans ?_
      have := (hg0 t).ne'
      field_simp
    rw [h2, abs_neg, abs_mul, abs_mul]
    have := hg.second t
    rw [iteratedDeriv_succ, iteratedDeriv_one] at this
    exact mul_le_mul this (mul_le_mul (ha t) (ha t) (abs_nonneg _) (by positivity)) (by positivity) hb
  set E1 := |C1| * b with hE1
  set E2 := |C2| * b with hE2
  have hE10 : 0 ≤ E1 := by positivity
  have hE20 : 0 ≤ E2 := by positivity
  set A1 := K * (b + E2) + 1 / c * E2 with hA1
  set A2 := K * (b + E1) + b * (1 / c * (1 / c)) * E1 with hA2
  have hA10 : 0 ≤ A1 := by positivity
  have hA20 : 0 ≤ A2 := by positivity
  refine ⟨K * ((1 / c * b + b * (1 / c * (1 / c)) * b) + (A1 + A2)) + 1 / c * (A1 + A2), δ0, hδ0, fun δ hδ hle => ⟨fun t => (hmain δ hδ hle t).1, fun f hf hbf t => ?_⟩⟩
  obtain ⟨_, m1, m2⟩ := hmain δ hδ hle t
  have hη0 : 0 ≤ δ ^ (2 * p) := by positivity
  have hη1 : δ ^ (2 * p) ≤ 1 := pow_le_one₀ hδ.le (hle.trans hδ01)
  have f1 : |fd1 (2 * p) δ f t - deriv f t| ≤ E1 * δ ^ (2 * p) := by
    have := hC1 f hf b (hbf _ (by simp)) t δ hδ 0
    simp only [Int.cast_zero, zero_mul, add_zero, iteratedDeriv_one] at this
    exact this.trans (by rw [hE1]; gcongr; exact le_abs_self C1)
  have f2 : |fd2 (2 * p) δ f t - iteratedDeriv 2 f t| ≤ E2 * δ ^ (2 * p) := by
    have := hC2 f hf b (hbf _ (by simp)) t δ hδ 0
    simp only [Int.cast_zero, zero_mul, add_zero] at this
    exact this.trans (by rw [hE2]; gcongr; exact le_abs_self C2)
  have b1 : |deriv f t| ≤ b := by have := hbf 1 (by simp) t; rwa [iteratedDeriv_one] at this
  have b2 : |iteratedDeriv 2 f t| ≤ b := hbf 2 (by simp) t
  have t1 : |(fd1 (2 * p) δ g t)⁻¹ * fd2 (2 * p) δ f t - (deriv g t)⁻¹ * iteratedDeriv 2 f t| ≤ A1 * δ ^ (2 * p) := mul_near hK hE20 hη0 hη1 m1 f2 (ha t) b2
  have t2 : |fd1 (2 * p) δ (fun s => (fd1 (2 * p) δ g s)⁻¹) t * fd1 (2 * p) δ f t - deriv (fun s => (deriv g s)⁻¹) t * deriv f t| ≤ A2 * δ ^ (2 * p) := mul_near hK hE10 hη0 hη1 m2 f1 (hs t) b1
  refine mul_near hK (add_nonneg hA10 hA20) hη0 hη1 m1 ?_ (ha t) ?_
  · rw [add_sub_add_comm, add_mul]
    exact (abs_add_le _ _).trans (add_le_add t1 t2)
  · refine (abs_add_le _ _).trans (add_le_add ?_ ?_)
    · rw [abs_mul]; exact mul_le_mul (ha t) b2 (abs_nonneg _) (by positivity)
    · rw [abs_mul]; exact mul_le_mul (hs t) b1 (abs_nonneg _) (by positivity)

/-- The chain rule on a stretched line. -/
theorem second_exact {g φ : ℝ → ℝ} (hg : ContDiff ℝ ∞ g) (hφ : ContDiff ℝ ∞ φ) (hne : ∀ t, deriv g t ≠ 0) (t : ℝ) :
    (deriv g t)⁻¹ * ((deriv g t)⁻¹ * iteratedDeriv 2 (fun s => φ (g s)) t + deriv (fun s => (deriv g s)⁻¹) t * deriv (fun s => φ (g s)) t) = iteratedDeriv 2 φ (g t) := by
  have hgd : Differentiable ℝ g := hg.differentiable (by simp)
  have hg1d : Differentiable ℝ (deriv g) := (show ContDiff ℝ ∞ (deriv g) from hg.deriv').differentiable (by simp)
  have hφd : Differentiable ℝ φ := hφ.differentiable (by simp)
  have hφ1d : Differentiable ℝ (deriv φ) := (show ContDiff ℝ ∞ (deriv φ) from hφ.deriv').differentiable (by simp)
  have h1 : ∀ s, HasDerivAt (fun s => φ (g s)) (deriv φ (g s) * deriv g s) s := fun s => (hφd (g s)).hasDerivAt.comp s (hgd s).hasDerivAt
  have h2 : HasDerivAt (fun s => deriv φ (g s) * deriv g s) (deriv (deriv φ) (g t) * deriv g t * deriv g t + deriv φ (g t) * deriv (deriv g) t) t :=
    ((hφ1d (g t)).hasDerivAt.comp t (hgd t).hasDerivAt).mul (hg1d t).hasDerivAt
  have h3 : deriv (fun s => (deriv g s)⁻¹) t = -deriv (deriv g) t / deriv g t ^ 2 := ((hg1d t).hasDerivAt.inv (hne t)).deriv
  rw [iteratedDeriv_succ, iteratedDeriv_one, iteratedDeriv_succ, iteratedDeriv_one, show deriv (fun s => φ (g s)) = fun s => deriv φ (g s) * deriv g s from funext fun s => (h1 s).deriv, h2.deriv, h3]
  have := hne t
  field_simp
  ring

end OpenSBLI.Stretch
