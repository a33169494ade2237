import Verif.Lemmas.OrderInverse
import Verif.Props.C55_Metric

/-!
# Smooth mappings: the chain rule for first and second derivatives, and which derivatives of the inverse vanish
-/
namespace OpenSBLI.Curv
open OpenSBLI.Order
open OpenSBLI.Metric (fdValue sdStored Describes)
open scoped ContDiff

variable {D : ℕ} {τ : Type}

/-- The matrix of the derivatives of a mapping. -/
noncomputable def jac (χ : E D → E D) (ξ : E D) : Matrix (Fin D) (Fin D) ℝ := Matrix.of fun i k => pd k (fun ξ => χ ξ i) ξ

theorem comp_smooth {χ : E D → E D} (hχ : ContDiff ℝ ∞ χ) (i : Fin D) : ContDiff ℝ ∞ fun ξ => χ ξ i := contDiff_pi.1 hχ i

theorem chain {χ : E D → E D} (hχ : ContDiff ℝ ∞ χ) {φ : E D → ℝ} (hφ : ContDiff ℝ ∞ φ) (k : Fin D) (ξ : E D) : pd k (fun ξ => φ (χ ξ)) ξ = ∑ i, pd i φ (χ ξ) * jac χ ξ i k := by
  have hχ1 := (hχ.differentiable (by simp) ξ).hasFDerivAt
  have hφ1 := (hφ.differentiable (by simp) (χ ξ)).hasFDerivAt
  have h1 : fderiv ℝ (fun ξ => φ (χ ξ)) ξ = (fderiv ℝ φ (χ ξ)).comp (fderiv ℝ χ ξ) := (hφ1.comp ξ hχ1).fderiv
  have h3 : ∀ i, jac χ ξ i k = fderiv ℝ χ ξ (Pi.single k 1) i := fun i => by
    have : HasFDerivAt (fun ξ => χ ξ i) ((ContinuousLinearMap.proj i).comp (fderiv ℝ χ ξ)) ξ := (hasFDerivAt_pi'.1 hχ1) i
    simp only [jac, Matrix.of_apply, pd_eq (comp_smooth hχ i), this.fderiv]
    rfl
  have hψ : ContDiff ℝ ∞ fun ξ => φ (χ ξ) := hφ.comp hχ
  rw [show pd k (fun ξ => φ (χ ξ)) ξ = _ from congrFun (pd_eq hψ k) ξ, h1]
  simp only [h3, pd_eq hφ]
  have hv : fderiv ℝ χ ξ (Pi.single k 1) = ∑ i, fderiv ℝ χ ξ (Pi.single k 1) i • (Pi.single i (1 : ℝ) : Fin D → ℝ) := by
    funext j
    simp [Finset.sum_apply, Pi.single_apply]
  rw [ContinuousLinearMap.comp_apply]
  conv_lhs => rw [hv, map_sum]
  exact Finset.sum_congr rfl fun i _ => by rw [map_smul, smul_eq_mul, mul_comm]

/-- First derivatives in Cartesian directions. -/
theorem first_exact {χ : E D → E D} (hχ : ContDiff ℝ ∞ χ) {φ : E D → ℝ} (hφ : ContDiff ℝ ∞ φ) (hdet : ∀ ξ, (jac χ ξ).det ≠ 0) (i : Fin D) (ξ : E D) :
    ∑ k, (jac χ ξ)⁻¹ k i * pd k (fun ξ => φ (χ ξ)) ξ = pd i φ (χ ξ) := by
  have hA := Matrix.mul_nonsing_inv (jac χ ξ) (Ne.isUnit (hdet ξ))
  simp only [chain hχ hφ, Finset.mul_sum]
  rw [Finset.sum_comm]
  rw [Finset.sum_congr rfl fun i' _ => show ∑ k, (jac χ ξ)⁻¹ k i * (pd i' φ (χ ξ) * jac χ ξ i' k) = pd i' φ (χ ξ) * if i' = i then 1 else 0 by
    have := congrFun (congrFun hA i') i
    rw [Matrix.mul_apply, Matrix.one_apply] at this
    rw [← this, Finset.mul_sum]
    exact Finset.sum_congr rfl fun k _ => by ring]
  simp

theorem jac_smooth {χ : E D → E D} (hχ : ContDiff ℝ ∞ χ) (i k : Fin D) : ContDiff ℝ ∞ fun ξ => jac χ ξ i k := pd_smooth (comp_smooth hχ i) k

theorem det_smooth {n : ℕ} {M : E D → Matrix (Fin n) (Fin n) ℝ} (h : ∀ i k, ContDiff ℝ ∞ fun ξ => M ξ i k) : ContDiff ℝ ∞ fun ξ => (M ξ).det := by
  simp only [Matrix.det_apply']
  exact ContDiff.sum fun σ _ => contDiff_const.mul (contDiff_prod fun i _ => h (σ i) i)

theorem inverse_smooth {χ : E D → E D} (hχ : ContDiff ℝ ∞ χ) (hdet : ∀ ξ, (jac χ ξ).det ≠ 0) (k i : Fin D) : ContDiff ℝ ∞ fun ξ => (jac χ ξ)⁻¹ k i := by
  have hadj : ContDiff ℝ ∞ fun ξ => (jac χ ξ).adjugate k i := by
    simp only [Matrix.adjugate_apply]
    refine det_smooth fun a b => ?_
    by_cases ha : a = i
    · subst ha; simpa using contDiff_const
    · simpa [Matrix.updateRow_ne ha] using jac_smooth hχ a b
  have := ((det_smooth (jac_smooth hχ)).inv hdet).mul hadj
  simpa [Matrix.inv_def, Ring.inverse_eq_inv'] using this

theorem pd_sum {σ : Type} (s : Finset σ) {u : σ → E D → ℝ} (hu : ∀ j, ContDiff ℝ ∞ (u j)) (d : Fin D) : pd d (fun x => ∑ j ∈ s, u j x) = fun x => ∑ j ∈ s, pd d (u j) x := by
  classical
  induction s using Finset.induction_on with
  | empty => simp [pd_const]
  | insert j s hj ih =>
    simp only [Finset.sum_insert hj]
    rw [pd_add (hu j) (ContDiff.sum fun j _ => hu j), ih]

/-- Second derivatives in Cartesian directions. -/
theorem second_exact {χ : E D → E D} (hχ : ContDiff ℝ ∞ χ) {φ : E D → ℝ} (hφ : ContDiff ℝ ∞ φ) (hdet : ∀ ξ, (jac χ ξ).det ≠ 0) (i j : Fin D) (ξ : E D) :
    ∑ l, (jac χ ξ)⁻¹ l j * ∑ k, ((jac χ ξ)⁻¹ k i * pd l (pd k fun ξ => φ (χ ξ)) ξ + pd l (fun ξ => (jac χ ξ)⁻¹ k i) ξ * pd k (fun ξ => φ (χ ξ)) ξ) = pd j (pd i φ) (χ ξ) := by
  rw [← first_exact hχ (pd_smooth hφ i) hdet j ξ]
  refine Finset.sum_congr rfl fun l _ => ?_
  congr 1
  have hψ : ContDiff ℝ ∞ fun ξ => φ (χ ξ) := hφ.comp hχ
  rw [show (fun ξ => pd i φ (χ ξ)) = fun ξ => ∑ k, (jac χ ξ)⁻¹ k i * pd k (fun ξ => φ (χ ξ)) ξ from funext fun ξ => (first_exact hχ hφ hdet i ξ).symm,
    pd_sum Finset.univ (fun k => (inverse_smooth hχ hdet k i).mul (pd_smooth hψ k))]
  refine Finset.sum_congr rfl fun k _ => ?_
  rw [pd_mul (inverse_smooth hχ hdet k i) (pd_smooth hψ k)]
  simp only
  ring

/-- The derivative of the inverse. -/
theorem pd_inverse {χ : E D → E D} (hχ : ContDiff ℝ ∞ χ) (hdet : ∀ ξ, (jac χ ξ).det ≠ 0) (k i l : Fin D) (ξ : E D) :
    pd l (fun ξ => (jac χ ξ)⁻¹ k i) ξ = -∑ b, (∑ a, (jac χ ξ)⁻¹ k a * pd l (fun ξ => jac χ ξ a b) ξ) * (jac χ ξ)⁻¹ b i := by
  have hz : ∀ b, ∑ a, (pd l (fun ξ => (jac χ ξ)⁻¹ k a) ξ * jac χ ξ a b + (jac χ ξ)⁻¹ k a * pd l (fun ξ => jac χ ξ a b) ξ) = 0 := by
    intro b
    have h1 : (fun ξ => ∑ a, (jac χ ξ)⁻¹ k a * jac χ ξ a b) = fun _ => (1 : Matrix (Fin D) (Fin D) ℝ) k b := by
      funext ξ
      rw [← Matrix.mul_apply, Matrix.nonsing_inv_mul _ (Ne.isUnit (hdet ξ))]
    have h2 := pd_sum Finset.univ (fun a => (inverse_smooth hχ hdet k a).mul (jac_smooth hχ a b)) l
    rw [h1, pd_const] at h2
    have h3 := congrFun h2 ξ
    simp only [pd_mul (inverse_smooth hχ hdet k _) (jac_smooth hχ _ b)] at h3
    exact h3.symm
  have hA := Matrix.mul_nonsing_inv (jac χ ξ) (Ne.isUnit (hdet ξ))
  have hsum : ∑ b, (∑ a, pd l (fun ξ => (jac χ ξ)⁻¹ k a) ξ * jac χ ξ a b) * (jac χ ξ)⁻¹ b i = pd l (fun ξ => (jac χ ξ)⁻¹ k i) ξ := by
    simp only [Finset.sum_mul]
    rw [Finset.sum_comm]
    rw [Finset.sum_congr rfl fun a _ => show ∑ b, pd l (fun ξ => (jac χ ξ)⁻¹ k a) ξ * jac χ ξ a b * (jac χ ξ)⁻¹ b i = pd l (fun ξ => (jac χ ξ)⁻¹ k a) ξ * if a = i then 1 else 0 by
      have := congrFun (congrFun hA a) i
      rw [Matrix.mul_apply, Matrix.one_apply] at this
      rw [← this, Finset.mul_sum]
      exact Finset.sum_congr rfl fun k _ => by ring]
    simp
  rw [← hsum, ← Finset.sum_neg_distrib]
  refine Finset.sum_congr rfl fun b _ => ?_
  have := hz b
  rw [Finset.sum_add_distrib] at this
  rw [← neg_mul]
  congr 1
  linarith

/-- Entries of the inverse which are zero or one. -/
theorem inverse_entries {cur str : Fin D → Bool} {J : Matrix (Fin D) (Fin D) ℝ} (hd : Describes cur str J) (hdet : J.det ≠ 0) (k i : Fin D) : J⁻¹ k i = Metric.fdMetric cur str J k i := by
  have hj := Metric.jacobian_eq cur str J hd
  have h := Metric.C55_inverse cur str J (by unfold Metric.detJ; rw [hj]; exact hdet)
  rw [hj] at h
  rw [Matrix.inv_eq_left_inv h.1]

/-- The derivatives of the inverse which are not stored vanish. -/
theorem not_stored {cur str : Fin D → Bool} {χ : E D → E D} (hχ : ContDiff ℝ ∞ χ) (hd : ∀ ξ, Describes cur str (jac χ ξ)) (hdet : ∀ ξ, (jac χ ξ).det ≠ 0) {k i l : Fin D} (hs : sdStored cur str k i l = false) (ξ : E D) :
    pd l (fun ξ => (jac χ ξ)⁻¹ k i) ξ = 0 := by
  by_cases hv : fdValue cur str k i = .stored
  swap
  · -- constant entries
    have hconst : ∃ c : ℝ, (fun ξ => (jac χ ξ)⁻¹ k i) = fun _ => c := by
      cases hc : fdValue cur str k i with
      | stored => exact absurd hc hv
      | zero => exact ⟨0, funext fun ξ => by rw [inverse_entries (hd ξ) (hdet ξ)]; simp [Metric.fdMetric, hc]⟩
      | one => exact ⟨1, funext fun ξ => by rw [inverse_entries (hd ξ) (hdet ξ)]; simp [Metric.fdMetric, hc]⟩
    obtain ⟨c, hc⟩ := hconst
    rw [hc, pd_const]
  -- direction `l` is not curvilinear
  have hcl : cur l = false := by
    by_contra h
    rw [Bool.not_eq_false] at h
    unfold sdStored at hs
    cases hm : Metric.m2 cur str k i with
    | zero => simp [fdValue, hm] at hv
    | cart _ => simp [hm, h, hv] at hs
    | curv j =>
      unfold Metric.m2 at hm
      split_ifs at hm with h1 h2 h3 h4
      injection hm with hm
      subst hm h3
      simp [fdValue, Metric.m2, h1, h4] at hv
  have hjz : ∀ a b, ¬(a = l ∧ b = l) → pd l (fun ξ => jac χ ξ a b) = fun _ => 0 := by
    intro a b hab
    by_cases ha : a = l
    · have hb : l ≠ b := fun h => hab ⟨ha, h.symm⟩
      have : (fun ξ => jac χ ξ a b) = fun _ => 0 := funext fun ξ => by rw [ha]; exact (hd ξ).1 l b hb (.inl hcl)
      rw [this, pd_const]
    · have h0 : pd l (fun ξ => χ ξ a) = fun _ => 0 := funext fun ξ => (hd ξ).1 a l ha (.inr hcl)
      have : pd l (fun ξ => jac χ ξ a b) = pd l (pd b fun ξ => χ ξ a) := rfl
      rw [this, pd_comm (comp_smooth hχ a), h0, pd_const]
  have hsum : pd l (fun ξ => (jac χ ξ)⁻¹ k i) ξ = -((jac χ ξ)⁻¹ k l * pd l (fun ξ => jac χ ξ l l) ξ * (jac χ ξ)⁻¹ l i) := by
    rw [pd_inverse hχ hdet]
    congr 1
    rw [Finset.sum_eq_single l (fun b _ hb => ?_) (fun h => absurd (Finset.mem_univ l) h), Finset.sum_eq_single l (fun a _ ha => ?_) (fun h => absurd (Finset.mem_univ l) h)]
    · rw [hjz a l fun h => ha h.1, mul_zero]
    · rw [Finset.sum_eq_zero fun a _ => by rw [hjz a b fun h => hb h.2, mul_zero], zero_mul]
  rw [hsum]
  by_cases hk : k = l
  · by_cases hi : i = l
    · -- the stretched direction itself
      subst hk hi
      have hstr : str i = false := by
        by_contra h
        rw [Bool.not_eq_false] at h
        simp [sdStored, Metric.m2, hcl, h, fdValue] at hs
      have : (fun ξ => jac χ ξ i i) = fun _ => 1 := funext fun ξ => (hd ξ).2 i hcl hstr
      rw [this, pd_const]
      ring
    · have : fdValue cur str l i = .zero := by simp [fdValue, Metric.m2, hcl, Ne.symm hi]
      have hz : (jac χ ξ)⁻¹ l i = 0 := by rw [inverse_entries (hd ξ) (hdet ξ)]; simp [Metric.fdMetric, this]
      rw [hz]; ring
  · have : fdValue cur str k l = .zero := by
      unfold fdValue Metric.m2
      by_cases hck : cur k = true <;> simp [hck, hcl, hk]
    have hz : (jac χ ξ)⁻¹ k l = 0 := by rw [inverse_entries (hd ξ) (hdet ξ)]; simp [Metric.fdMetric, this]
    rw [hz]; ring

/-! ## Differences -/

/-- The difference in direction `d`. -/
noncomputable def fd (order : ℕ) (δ : E D) (k : ℕ) (d : Fin D) (u : E D → ℝ) : E D → ℝ := formula (centralList order k) k d (δ d) u

/-- The matrix of the differences of a mapping. -/
noncomputable def jacFd (order : ℕ) (δ : E D) (χ : E D → E D) (ξ : E D) : Matrix (Fin D) (Fin D) ℝ := Matrix.of fun i k => fd order δ 1 k (fun ξ => χ ξ i) ξ

/-- The second differences of the program. -/
noncomputable def fdSecond (order : ℕ) (δ : E D) (k l : Fin D) (u : E D → ℝ) : E D → ℝ := if k = l then fd order δ 2 k u else fd order δ 1 (max k l) (fd order δ 1 (min k l) u)

/-- Differences of functions which grow linearly. -/
theorem fd_linear {p : ℕ} (hp : 1 ≤ p) {δ : E D} {k : Fin D} (hδ : 0 < δ k) {u : E D → ℝ} (hu : ContDiff ℝ ∞ u) {c : ℝ} (hc : pd k u = fun _ => c) (ξ : E D) : fd (2 * p) δ 1 k u ξ = c := by
  have h2 := formula_accurate (line_smooth hu k ξ) (2 * p) 1 (by omega) (centralList (2 * p) 1) (fun i hi => central_moment p 1 i (.inl hi)) 0 (δ k) 0 hδ fun q _ z _ => ?_
  · rw [← formula_line, line_iterated] at h2
    simp only [zero_smul, add_zero, Function.iterate_one, hc, mul_zero, zero_mul] at h2
    have := abs_nonpos_iff.1 h2
    unfold fd
    linarith
  · rw [line_iterated]
    obtain ⟨n, hn⟩ : ∃ n, 2 * p + 1 = n + 1 + 1 := ⟨2 * p - 1, by omega⟩
    rw [hn, Function.iterate_succ_apply, Function.iterate_succ_apply, hc, pd_const]
    have hz : ∀ n : ℕ, (pd k)^[n] (fun _ : E D => (0 : ℝ)) = fun _ => 0 := fun n => by
      induction n with
      | zero => rfl
      | succ n ih => rw [Function.iterate_succ_apply, pd_const, ih]
    rw [hz]; simp

/-- The differences keep the structure the flags describe. -/
theorem describes_fd {p : ℕ} (hp : 1 ≤ p) {δ : E D} (hδ : ∀ d, 0 < δ d) {χ : E D → E D} (hχ : ContDiff ℝ ∞ χ) {cur str : Fin D → Bool} (hd : ∀ ξ, Describes cur str (jac χ ξ)) (ξ : E D) : Describes cur str (jacFd (2 * p) δ χ ξ) :=
  ⟨fun i j hij hc => fd_linear hp (hδ j) (comp_smooth hχ i) (funext fun ξ => (hd ξ).1 i j hij hc) ξ,
    fun i h1 h2 => fd_linear hp (hδ i) (comp_smooth hχ i) (funext fun ξ => (hd ξ).2 i h1 h2) ξ⟩

/-- A smooth mapping with bounded derivatives and determinant bounded away from zero. -/
structure Mapping (χ : E D → E D) (c : ℝ) : Prop where
  smooth : ContDiff ℝ ∞ χ
  tame : ∀ i k, Tame fun _ : Unit => pd k fun ξ => χ ξ i
  pos : 0 < c
  det : ∀ ξ, c ≤ |(jac χ ξ).det|

theorem Mapping.ne {χ : E D → E D} {c : ℝ} (h : Mapping χ c) (ξ : E D) : (jac χ ξ).det ≠ 0 := fun h0 => by
  have := h.det ξ
  rw [h0, abs_zero] at this
  linarith [h.pos]

theorem tame_const_family {u : E D → ℝ} (h : Tame fun _ : Unit => u) : Tame fun _ : τ => u := ⟨fun _ => h.smooth (), fun w => by
  obtain ⟨C, hC⟩ := h.bounded w
  exact ⟨C, fun _ => hC ()⟩⟩

/-- Functions whose derivatives along the grid are bounded. -/
structure Fields (ψ : τ → E D → ℝ) : Prop where
  smooth : ∀ t, ContDiff ℝ ∞ (ψ t)
  tame : ∀ k, Tame fun t => pd k (ψ t)

theorem fdSecond_near {p : ℕ} (hp : 1 ≤ p) {ψ : τ → E D → ℝ} (hψ : Fields ψ) (k l : Fin D) :
    Near (2 * p) (fun i : Spacing D × τ => fdSecond (2 * p) i.1.δ k l (ψ i.2)) fun t => pd l (pd k (ψ t)) := by
  by_cases hkl : k = l
  · subst hkl
    simpa [fdSecond, fd] using near_cd hp (.inr rfl) hψ.smooth k (hψ.tame k)
  · have h1 := (near_cd hp (.inl rfl) hψ.smooth (min k l) (hψ.tame (min k l))).cd hp (.inl rfl) (max k l)
    simp only [Function.iterate_one] at h1
    have he : (fun t => pd (max k l) (pd (min k l) (ψ t))) = fun t => pd l (pd k (ψ t)) := by
      funext t
      rcases le_total k l with h | h
      · rw [max_eq_right h, min_eq_left h]
      · rw [max_eq_left h, min_eq_right h, pd_comm (hψ.smooth t)]
    rw [he] at h1
    simpa [fdSecond, fd, hkl] using h1

/-- First and second derivatives by differences, with the inverse of the matrix of the differences of the mapping: for small spacings they have the order of the differences. -/
theorem orders [Nonempty τ] {p : ℕ} (hp : 1 ≤ p) {χ : E D → E D} {c : ℝ} (hχ : Mapping χ c) {φ : τ → E D → ℝ} (hφ : ∀ t, ContDiff ℝ ∞ (φ t)) (hψ : ∀ k, Tame fun t => pd k fun ξ => φ t (χ ξ)) {cur str : Fin D → Bool} (hd : ∀ ξ, Describes cur str (jac χ ξ)) :
    ∃ C h0 : ℝ, 0 < h0 ∧ h0 ≤ 1 ∧ ∀ s : Spacing D, s.h ≤ h0 → (∀ ξ, (jacFd (2 * p) s.δ χ ξ).det ≠ 0) ∧ ∀ t ξ,
      (∀ i, |∑ k, (jacFd (2 * p) s.δ χ ξ)⁻¹ k i * fd (2 * p) s.δ 1 k (fun ξ => φ t (χ ξ)) ξ - pd i (φ t) (χ ξ)| ≤ C * s.h ^ (2 * p)) ∧
      ∀ i j, |∑ l, (jacFd (2 * p) s.δ χ ξ)⁻¹ l j * ∑ k, ((jacFd (2 * p) s.δ χ ξ)⁻¹ k i * fdSecond (2 * p) s.δ k l (fun ξ => φ t (χ ξ)) ξ +
        (if sdStored cur str k i l then fd (2 * p) s.δ 1 l (fun ξ => (jacFd (2 * p) s.δ χ ξ)⁻¹ k i) ξ else 0) * fd (2 * p) s.δ 1 k (fun ξ => φ t (χ ξ)) ξ) - pd j (pd i (φ t)) (χ ξ)| ≤ C * s.h ^ (2 * p) := by
  have hF : Fields fun t ξ => φ t (χ ξ) := ⟨fun t => (hφ t).comp hχ.smooth, hψ⟩
  have hJ : ∀ i k, Near (2 * p) (fun q : Spacing D × τ => fd (2 * p) q.1.δ 1 k fun ξ => χ ξ i) fun _ => pd k fun ξ => χ ξ i := fun i k =>
    near_cd hp (.inl rfl) (v := fun _ : τ => fun ξ => χ ξ i) (fun _ => comp_smooth hχ.smooth i) k (tame_const_family (hχ.tame i k))
  have hdf : ∀ k, Near (2 * p) (fun q : Spacing D × τ => fd (2 * p) q.1.δ 1 k fun ξ => φ q.2 (χ ξ)) fun t => pd k fun ξ => φ t (χ ξ) := fun k =>
    near_cd hp (.inl rfl) hF.smooth k (hF.tame k)
  obtain ⟨h0, hpos, hne, w, hw, hwe⟩ := Near.inverse (by omega : 1 ≤ 2 * p) hJ hχ.pos fun _ ξ => hχ.det ξ
  have hsd : ∀ k i l, Near (2 * p) (fun q x => if sdStored cur str k i l then fd (2 * p) q.1.δ 1 l (w k i q) x else 0) fun _ => pd l fun ξ => (jac χ ξ)⁻¹ k i := by
    intro k i l
    cases hs : sdStored cur str k i l with
    | true =>
      have := (hw k i).cd hp (.inl rfl) l
      simp only [Function.iterate_one] at this
      simp only [if_true]
      exact this
    | false =>
      have : (fun _ : τ => pd l fun ξ => (jac χ ξ)⁻¹ k i) = fun _ _ => 0 := by funext t ξ; exact not_stored hχ.smooth hd hχ.ne hs ξ
      rw [this]
      simpa using near_self (tame_const 0)
  have h1 : ∀ i, Near (2 * p) (fun q x => ∑ k, w k i q x * fd (2 * p) q.1.δ 1 k (fun ξ => φ q.2 (χ ξ)) x) fun t x => ∑ k, (jac χ x)⁻¹ k i * pd k (fun ξ => φ t (χ ξ)) x := fun i =>
    Near.finsum _ fun k => (hw k i).mul (hdf k)
  have h2 : ∀ i j, Near (2 * p) (fun q x => ∑ l, w l j q x * ∑ k, (w k i q x * fdSecond (2 * p) q.1.δ k l (fun ξ => φ q.2 (χ ξ)) x + (if sdStored cur str k i l then fd (2 * p) q.1.δ 1 l (w k i q) x else 0) * fd (2 * p) q.1.δ 1 k (fun ξ => φ q.2 (χ ξ)) x))
      fun t x => ∑ l, (jac χ x)⁻¹ l j * ∑ k, ((jac χ x)⁻¹ k i * pd l (pd k fun ξ => φ t (χ ξ)) x + pd l (fun ξ => (jac χ ξ)⁻¹ k i) x * pd k (fun ξ => φ t (χ ξ)) x) := fun i j =>
    Near.finsum _ fun l => (hw l j).mul (Near.finsum _ fun k => ((hw k i).mul (fdSecond_near hp hF k l)).add ((hsd k i l).mul (hdf k)))
  choose C1 hC1 hb1 using fun i => (h1 i).error.bound []
  choose C2 hC2 hb2 using fun i j => (h2 i j).error.bound []
  refine ⟨∑ i, C1 i + ∑ i, ∑ j, C2 i j, min h0 1, lt_min hpos one_pos, min_le_right _ _, fun s hs => ?_⟩
  have hs' : s.h ≤ h0 := hs.trans (min_le_left _ _)
  have hall : ∀ k j, ∀ t, w k j (s, t) = fun ξ => (jacFd (2 * p) s.δ χ ξ)⁻¹ k j := fun k j t => hwe k j (s, t) hs'
  have hS1 : ∀ i, C1 i ≤ ∑ i, C1 i := fun i => Finset.single_le_sum (fun i _ => hC1 i) (Finset.mem_univ i)
  have hS2 : ∀ i j, C2 i j ≤ ∑ i, ∑ j, C2 i j := fun i j => (Finset.single_le_sum (fun j _ => hC2 i j) (Finset.mem_univ j)).trans (Finset.single_le_sum (f := fun i => ∑ j, C2 i j) (fun i _ => Finset.sum_nonneg fun j _ => hC2 i j) (Finset.mem_univ i))
  have hN1 : 0 ≤ ∑ i, C1 i := Finset.sum_nonneg fun i _ => hC1 i
  have hN2 : 0 ≤ ∑ i, ∑ j, C2 i j := Finset.sum_nonneg fun i _ => Finset.sum_nonneg fun j _ => hC2 i j
  have hh : 0 ≤ s.h ^ (2 * p) := pow_nonneg s.nonneg _
  refine ⟨fun ξ => ?_, fun t ξ => ⟨fun i => ?_, fun i j => ?_⟩⟩
  · exact hne (s, Classical.arbitrary τ) hs' ξ
  · have := hb1 i (s, t) ξ
    simp only [pds, hall, first_exact hχ.smooth (hφ t) hχ.ne] at this
    exact this.trans (mul_le_mul_of_nonneg_right ((hS1 i).trans (le_add_of_nonneg_right hN2)) hh)
  · have := hb2 i j (s, t) ξ
    simp only [pds, hall, second_exact hχ.smooth (hφ t) hχ.ne] at this
    exact this.trans (mul_le_mul_of_nonneg_right ((hS2 i j).trans (le_add_of_nonneg_left hN1)) hh)

end OpenSBLI.Curv
