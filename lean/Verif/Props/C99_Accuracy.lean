import Verif.Props.C99_Mapped
import Verif.Props.C87_Order

/-!
# C99: accuracy of derivatives on mapped grids
-/
namespace OpenSBLI.Sim
open OpenSBLI.Metric (fdValue Describes)
open scoped ContDiff

variable {D n : ℕ}

/-- The point of the unit square, cube, ... with indices `x`. -/
def gridPoint (delta : Fin D → ℝ) (x : P D) : Fin D → ℝ := fun d => x d * delta d

theorem gridPoint_update (delta : Fin D → ℝ) (x : P D) (k : Fin D) (y : ℤ) : gridPoint delta (Function.update x k y) = Function.update (gridPoint delta x) k (y * delta k) := by
  funext d
  by_cases h : d = k
  · subst h; simp [gridPoint]
  · simp [gridPoint, h]

/-- The chain rule along a line of the grid. -/
theorem line_derivative {χ : (Fin D → ℝ) → Fin D → ℝ} (hχ : ContDiff ℝ ∞ χ) {φ : (Fin D → ℝ) → ℝ} (hφ : ContDiff ℝ ∞ φ) (ξ : Fin D → ℝ) (k : Fin D) :
    iteratedDeriv 1 (fun t => φ (χ (Function.update ξ k t))) (ξ k) = ∑ i, fderiv ℝ φ (χ ξ) (Pi.single i 1) * iteratedDeriv 1 (fun t => χ (Function.update ξ k t) i) (ξ k) := by
  have hu : HasDerivAt (fun t => Function.update ξ k t) (Pi.single k (1 : ℝ)) (ξ k) := by
    refine hasDerivAt_pi.2 fun d => ?_
    by_cases h : d = k
    · subst h; simpa using hasDerivAt_id' (ξ d)
    · simpa [h] using hasDerivAt_const (ξ k) (ξ d)
  have hχ' : HasFDerivAt χ (fderiv ℝ χ ξ) (Function.update ξ k (ξ k)) := by
    rw [Function.update_eq_self]
    exact (hχ.differentiable (by simp) ξ).hasFDerivAt
  have h1 := hχ'.comp_hasDerivAt (ξ k) hu
  have hφ' : HasFDerivAt φ (fderiv ℝ φ (χ ξ)) ((χ ∘ fun t => Function.update ξ k t) (ξ k)) := by
    simp only [Function.comp, Function.update_eq_self]
    exact (hφ.differentiable (by simp) _).hasFDerivAt
  have h2 := hφ'.comp_hasDerivAt (ξ k) h1
  have h3 : ∀ i, iteratedDeriv 1 (fun t => χ (Function.update ξ k t) i) (ξ k) = fderiv ℝ χ ξ (Pi.single k 1) i := fun i => by
    rw [iteratedDeriv_one]
    exact ((hasDerivAt_pi.1 h1) i).deriv
  rw [iteratedDeriv_one]
  refine h2.deriv.trans ?_
  simp only [h3]
  have hv : fderiv ℝ χ ξ (Pi.single k 1) = ∑ i, fderiv ℝ χ ξ (Pi.single k 1) i • (Pi.single i (1 : ℝ) : Fin D → ℝ) := by
    funext j
    simp [Finset.sum_apply, Pi.single_apply]
  conv_lhs => rw [hv, map_sum]
  exact Finset.sum_congr rfl fun i _ => by rw [map_smul, smul_eq_mul, mul_comm]

/-- Differences of the field and of the coordinates with small errors, combined with the exact inverse of the latter. -/
theorem combined_error {J A : Matrix (Fin D) (Fin D) ℝ} (hA : J * A = 1) (j : Fin D) (g df T : Fin D → ℝ) (T' : Fin D → Fin D → ℝ) {K G E : ℝ} (hK : ∀ k, |A k j| ≤ K) (hG : ∀ i, |g i| ≤ G)
    (hT : ∀ k, T k = ∑ i, g i * T' i k) (h1 : ∀ k, |df k - T k| ≤ E) (h2 : ∀ i k, |J i k - T' i k| ≤ E) : |∑ k, A k j * df k - g j| ≤ D * (K * (E + D * (G * E))) := by
  have hid : ∑ k, A k j * ∑ i, g i * J i k = g j := by
    have : ∀ i, ∑ k, J i k * A k j = if i = j then 1 else 0 := fun i => by
      have := congrFun (congrFun hA i) j
      rwa [Matrix.mul_apply, Matrix.one_apply] at this
    simp only [Finset.mul_sum]
    rw [Finset.sum_comm]
    rw [Finset.sum_congr rfl fun i _ => show ∑ k, A k j * (g i * J i k) = g i * if i = j then 1 else 0 by
      rw [← this i, Finset.mul_sum]; exact Finset.sum_congr rfl fun k _ => by ring]
    simp
  have hk : ∀ k, |df k - ∑ i, g i * J i k| ≤ E + D * (G * E) := by
    intro k
    have : df k - ∑ i, g i * J i k = (df k - T k) - ∑ i, g i * (J i k - T' i k) := by
      rw [hT k]; simp only [mul_sub, Finset.sum_sub_distrib]; ring
    rw [this]
    refine (abs_sub _ _).trans (add_le_add (h1 k) ((Finset.abs_sum_le_sum_abs _ _).trans ?_))
    refine (Finset.sum_le_card_nsmul _ _ (G * E) fun i _ => ?_).trans_eq (by simp)
    rw [abs_mul]
    exact mul_le_mul (hG i) (h2 i k) (abs_nonneg _) ((abs_nonneg _).trans (hG i))
  rw [← hid, ← Finset.sum_sub_distrib]
  refine (Finset.abs_sum_le_sum_abs _ _).trans ((Finset.sum_le_card_nsmul _ _ (K * (E + D * (G * E))) fun k _ => ?_).trans_eq (by simp))
  rw [← mul_sub, abs_mul]
  exact mul_le_mul (hK k) (hk k) (abs_nonneg _) ((abs_nonneg _).trans (hK k))

/-- C99: the derivatives of the transformed equations have the order of the scheme. With differences of order `2m`, a smooth mapping `χ` in the arrays of the coordinates and values of a smooth function `φ` of the Cartesian coordinates,
at the beginning of the time loop, the transformed derivative in Cartesian direction `j` differs from that of `φ` by at most a constant times the power `2m` of the largest spacing; the constant depends on the order, bounds of the
metric terms, of the derivatives of `φ`, and of the derivatives of order `2m+1` along the lines of the grid. -/
theorem C99_accuracy (p : ℕ) (hp1 : 1 ≤ p) : ∃ C : ℝ, ∀ {S : Setup D n} {M : Metrics D} {orig : Fin n → Ex D} {I : Interp D} {delta : Fin D → ℝ} {pts : Ranges.Kernel D → List (P D)} {inp : Alg.Input (Call D)} {B : Sol D n → Sol D n} {m : Mem D},
    OnMapping S M orig inp → Enumerates pts → S.order = 2 * p → IsCentral S I delta → ∀ h : ℝ, (∀ d, 0 < delta d ∧ delta d ≤ h) →
    ∀ (χ : (Fin D → ℝ) → Fin D → ℝ) (φ : (Fin D → ℝ) → ℝ), ContDiff ℝ ∞ χ → ContDiff ℝ ∞ φ →
    HoldsCoordinates M S.np S.h (fun i x => χ (gridPoint delta x) i) (atStart I pts S.sol B inp m) →
    ∀ b, (∀ k ξ z, |iteratedDeriv (2 * p + 1) (fun t => φ (χ (Function.update ξ k t))) z| ≤ b) → (∀ i k ξ z, |iteratedDeriv (2 * p + 1) (fun t => χ (Function.update ξ k t) i) z| ≤ b) →
    ∀ x, Grid S.np x → Describes M.cur M.str (jacobi I (fun i x => χ (gridPoint delta x) i) x) → (jacobi I (fun i x => χ (gridPoint delta x) i) x).det ≠ 0 →
    ∀ e : Ex D, (∀ k y, Box S.np S.h [k] y → e.eval I (atStart I pts S.sol B inp m) y = φ (χ (gridPoint delta y))) →
    ∀ (j : Fin D) (K G : ℝ), (∀ k, |metricValue M.cur M.str (atStart I pts S.sol B inp m) k j x| ≤ K) → (∀ i, |fderiv ℝ φ (χ (gridPoint delta x)) (Pi.single i 1)| ≤ G) →
    |(transformed M.cur M.str j e).eval I (atStart I pts S.sol B inp m) x - fderiv ℝ φ (χ (gridPoint delta x)) (Pi.single j 1)| ≤ C * (K * (1 + D * G) * b) * h ^ (2 * p) := by
  obtain ⟨C, hC⟩ := Order.C87_central p hp1 1 (.inl rfl)
  refine ⟨D * |C|, fun {S M orig I delta pts inp B m} hO hp hord hI h hδ χ φ hχ hφ hX b hbφ hbχ x hx hd hdet e he j K G hK hG => ?_⟩
  obtain ⟨_, hinv, _⟩ := C99_metrics hO hp (central_local hI) hX x hx hd hdet
  rw [transformed_eval]
  -- the errors along the lines of the grid
  have hline : ∀ (f : (Fin D → ℝ) → ℝ) (k : Fin D), ContDiff ℝ ∞ f → (∀ ξ z, |iteratedDeriv (2 * p + 1) (fun t => f (Function.update ξ k t)) z| ≤ b) →
      |I.cd k 1 (fun y => f (gridPoint delta y)) x - iteratedDeriv 1 (fun t => f (Function.update (gridPoint delta x) k t)) (gridPoint delta x k)| ≤ |C| * b * h ^ (2 * p) := by
    intro f k hf hb
    have hb0 : 0 ≤ b := (abs_nonneg _).trans (hb 0 0)
    have hg : ContDiff ℝ ∞ fun t => f (Function.update (gridPoint delta x) k t) := hf.comp (contDiff_update ∞ (gridPoint delta x) k)
    have := hC _ hg b (hb (gridPoint delta x)) 0 (delta k) (hδ k).1 (x k)
    rw [hI, hord]
    simp only [gridPoint_update]
    simp only [zero_add] at this
    refine this.trans ?_
    calc C * b * delta k ^ (2 * p) ≤ |C| * b * delta k ^ (2 * p) := by gcongr; exacts [pow_nonneg (hδ k).1.le _, le_abs_self C]
      _ ≤ |C| * b * h ^ (2 * p) := by gcongr; exacts [(hδ k).1.le, (hδ k).2]
  have hcd : ∀ k, I.cd k 1 (e.eval I (atStart I pts S.sol B inp m)) x = I.cd k 1 (fun y => φ (χ (gridPoint delta y))) x := fun k =>
    central_local hI k 1 _ _ x fun q hq => he k _ (Box.shift' S.h_nonneg ((box_nil _ _ _).2 hx) (by simp) hq)
  simp only [hcd]
  refine (combined_error hinv j (fun i => fderiv ℝ φ (χ (gridPoint delta x)) (Pi.single i 1)) _ _ (fun i k => iteratedDeriv 1 (fun t => χ (Function.update (gridPoint delta x) k t) i) (gridPoint delta x k)) hK hG
    (fun k => line_derivative hχ hφ _ k) (fun k => hline (fun z => φ (χ z)) k (hφ.comp hχ) fun ξ z => hbφ k ξ z) fun i k => ?_).trans_eq (by ring)
  exact hline (fun z => χ z i) k (contDiff_pi.1 hχ i) fun ξ z => hbχ i k ξ z

end OpenSBLI.Sim
