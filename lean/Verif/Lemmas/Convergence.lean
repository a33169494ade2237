import Verif.Spec.Convergence
import Verif.Lemmas.OrderTame
import Verif.Lemmas.SkewGrid
import Mathlib.Algebra.Order.Archimedean.Real.Basic

/-!
# Local errors of the discretised linear system
-/
namespace OpenSBLI.Order
open Sim
open scoped ContDiff

variable {D n : ℕ} {τ : Type}

/-! ## Derivatives in time and space -/

/-- Derivative in a direction of space and time. -/
noncomputable def dv (v : ℝ × E D) (f : ℝ × E D → ℝ) : ℝ × E D → ℝ := fun p => fderiv ℝ f p v

theorem dv_smooth {f : ℝ × E D → ℝ} (hf : ContDiff ℝ ∞ f) (v : ℝ × E D) : ContDiff ℝ ∞ (dv v f) := (hf.fderiv_right (m := ∞) (by simp)).clm_apply contDiff_const

theorem dv_comm {f : ℝ × E D → ℝ} (hf : ContDiff ℝ ∞ f) (v w : ℝ × E D) : dv v (dv w f) = dv w (dv v f) := by
  have h : ∀ v w : ℝ × E D, ∀ p, dv v (dv w f) p = fderiv ℝ (fderiv ℝ f) p v w := fun v w p => by
    have hd : DifferentiableAt ℝ (fderiv ℝ f) p := (hf.fderiv_right (m := ∞) (by simp)).differentiable (by simp) p
    have := fderiv_clm_apply hd (differentiableAt_const (𝕜 := ℝ) (c := w))
    show fderiv ℝ (fun y => fderiv ℝ f y w) p v = _
    rw [this]
    simp
  funext p
  rw [h, h]
  exact (hf.contDiffAt.isSymmSndFDerivAt (by rw [minSmoothness_of_isRCLikeNormedField]; exact WithTop.coe_le_coe.2 (le_top : (2 : ℕ∞) ≤ ⊤))) _ _

theorem dv_add {f g : ℝ × E D → ℝ} (hf : ContDiff ℝ ∞ f) (hg : ContDiff ℝ ∞ g) (v : ℝ × E D) : dv v (fun p => f p + g p) = fun p => dv v f p + dv v g p := by
  funext p
  simp only [dv]
  rw [fderiv_fun_add (hf.differentiable (by simp) p) (hg.differentiable (by simp) p)]
  rfl

theorem dv_cmul {f : ℝ × E D → ℝ} (hf : ContDiff ℝ ∞ f) (c : ℝ) (v : ℝ × E D) : dv v (fun p => c * f p) = fun p => c * dv v f p := by
  funext p
  simp only [dv]
  rw [fderiv_const_mul (hf.differentiable (by simp) p)]
  rfl

theorem dv_sum {ι : Type} (s : Finset ι) (f : ι → ℝ × E D → ℝ) (hf : ∀ i, ContDiff ℝ ∞ (f i)) (v : ℝ × E D) : dv v (fun p => ∑ i ∈ s, f i p) = fun p => ∑ i ∈ s, dv v (f i) p := by
  classical
  induction s using Finset.induction_on with
  | empty => funext p; simp [dv]
  | insert a s ha ih =>
    simp only [Finset.sum_insert ha]
    rw [dv_add (hf a) (ContDiff.sum fun i _ => hf i), ih]

/-- The directions. -/
def inSpace (d : Fin D) : ℝ × E D := (0, Pi.single d 1)

def inTime : ℝ × E D := (1, 0)

theorem pd_dv {f : ℝ × E D → ℝ} (hf : ContDiff ℝ ∞ f) (d : Fin D) (t : ℝ) : pd d (fun x => f (t, x)) = fun x => dv (inSpace d) f (t, x) := by
  funext x
  rw [dv, ← (hf.differentiable (by simp) (t, x)).lineDeriv_eq_fderiv]
  simp only [pd, lineDeriv, inSpace]
  congr 1
  funext s
  simp

theorem deriv_dv {f : ℝ × E D → ℝ} (hf : ContDiff ℝ ∞ f) (x : E D) : deriv (fun t => f (t, x)) = fun t => dv inTime f (t, x) := by
  funext t
  rw [dv, ← (hf.differentiable (by simp) (t, x)).lineDeriv_eq_fderiv]
  simp only [lineDeriv, inTime]
  have := deriv_comp_const_add (fun t => f (t, x)) t 0
  rw [add_zero] at this
  rw [← this]
  congr 1
  funext s
  simp

theorem iteratedDeriv_dv {f : ℝ × E D → ℝ} (hf : ContDiff ℝ ∞ f) (x : E D) (k : ℕ) : iteratedDeriv k (fun t => f (t, x)) = fun t => ((dv inTime)^[k] f) (t, x) := by
  induction k generalizing f with
  | zero => simp
  | succ k ih => rw [iteratedDeriv_succ', deriv_dv hf, ih (dv_smooth hf _), Function.iterate_succ_apply]

/-- Derivatives in space. -/
theorem pds_dv (w : List (Fin D)) {f : ℝ × E D → ℝ} (hf : ContDiff ℝ ∞ f) : ∃ g : ℝ × E D → ℝ, ContDiff ℝ ∞ g ∧ ∀ t, pds w (fun x => f (t, x)) = fun x => g (t, x) := by
  induction w generalizing f with
  | nil => exact ⟨f, hf, fun _ => rfl⟩
  | cons d w ih =>
    obtain ⟨g, hg, h⟩ := ih (dv_smooth hf (inSpace d))
    exact ⟨g, hg, fun t => by rw [pds, pd_dv hf, h]⟩

/-- Periodic functions are bounded, with all derivatives in space, during a finite time. -/
theorem joint_tame {f : ℝ × E D → ℝ} (hf : ContDiff ℝ ∞ f) (L : E D) (hL : ∀ d, 0 < L d) (hper : ∀ t (k : Fin D → ℤ) x, f (t, x + fun d => k d * L d) = f (t, x)) (T : ℝ) :
    Tame (fun (t : Set.Icc (0 : ℝ) T) x => f (t, x)) where
  smooth t := hf.comp (contDiff_const.prodMk contDiff_id)
  bounded w := by
    obtain ⟨g, hg, h⟩ := pds_dv w hf
    have hp : ∀ t (k : Fin D → ℤ) x, g (t, x + fun d => k d * L d) = g (t, x) := fun t k x => by
      have := congrFun (pds_shift w (fun x => f (t, x)) fun d => (k d : ℝ) * L d) x
      simp only [hper, h] at this
      exact this.symm
    obtain ⟨C, hC⟩ := ((isCompact_Icc (a := (0 : ℝ)) (b := T)).prod (isCompact_Icc (a := (0 : E D)) (b := L))).exists_bound_of_continuousOn hg.continuous.continuousOn
    refine ⟨C, fun t x => ?_⟩
    have := hC (t, x + fun d => ((-⌊x d / L d⌋ : ℤ) : ℝ) * L d) ⟨t.2, fun d => ?_, fun d => ?_⟩
    · rw [hp, Real.norm_eq_abs] at this
      rw [h]
      exact this
    · have h1 := Int.floor_le (x d / L d)
      rw [le_div_iff₀ (hL d)] at h1
      simp only [Pi.zero_apply, Pi.add_apply]
      push_cast
      linarith
    · have h1 := (Int.lt_floor_add_one (x d / L d)).le
      rw [div_le_iff₀ (hL d)] at h1
      simp only [Pi.add_apply]
      push_cast
      linarith

/-! ## The system -/

/-- The right hand sides of the differential equations, in space and time, in space, and discretised. -/
noncomputable def inBoth (M : Fin D → Fin n → Fin n → ℝ) (f : Fin n → ℝ × E D → ℝ) : Fin n → ℝ × E D → ℝ := fun i p => ∑ d, ∑ j, M d i j * dv (inSpace d) (f j) p

noncomputable def inSpaceOnly (M : Fin D → Fin n → Fin n → ℝ) (u : Fin n → E D → ℝ) : Fin n → E D → ℝ := fun i x => ∑ d, ∑ j, M d i j * pd d (u j) x

noncomputable def differences (order : ℕ) (M : Fin D → Fin n → Fin n → ℝ) (δ : E D) (u : Fin n → E D → ℝ) : Fin n → E D → ℝ :=
  fun i x => ∑ d, ∑ j, M d i j * formula (centralList order 1) 1 d (δ d) (u j) x

theorem inBoth_smooth (M : Fin D → Fin n → Fin n → ℝ) {f : Fin n → ℝ × E D → ℝ} (hf : ∀ i, ContDiff ℝ ∞ (f i)) (i : Fin n) : ContDiff ℝ ∞ (inBoth M f i) :=
  ContDiff.sum fun _ _ => ContDiff.sum fun j _ => contDiff_const.mul (dv_smooth (hf j) _)

theorem inBoth_at (M : Fin D → Fin n → Fin n → ℝ) {f : Fin n → ℝ × E D → ℝ} (hf : ∀ i, ContDiff ℝ ∞ (f i)) (t : ℝ) (k : ℕ) :
    (inSpaceOnly M)^[k] (fun j x => f j (t, x)) = fun i x => (inBoth M)^[k] f i (t, x) := by
  induction k generalizing f with
  | zero => rfl
  | succ k ih =>
    rw [Function.iterate_succ_apply, Function.iterate_succ_apply, ← ih (inBoth_smooth M hf)]
    congr 1
    funext i x
    simp only [inSpaceOnly, inBoth, pd_dv (hf _)]

theorem time_derivatives (M : Fin D → Fin n → Fin n → ℝ) {f : Fin n → ℝ × E D → ℝ} (hf : ∀ i, ContDiff ℝ ∞ (f i)) (heq : ∀ i, dv inTime (f i) = inBoth M f i) (k : ℕ) (i : Fin n) :
    (dv inTime)^[k] (f i) = (inBoth M)^[k] f i := by
  induction k generalizing f i with
  | zero => rfl
  | succ k ih =>
    rw [Function.iterate_succ_apply, Function.iterate_succ_apply, heq]
    refine ih (inBoth_smooth M hf) (fun i => ?_) i
    show dv inTime (fun p => ∑ d, ∑ j, M d i j * dv (inSpace d) (f j) p) = _
    rw [dv_sum _ _ fun d => ContDiff.sum fun j _ => contDiff_const.mul (dv_smooth (hf j) _)]
    funext p
    refine Finset.sum_congr rfl fun d _ => ?_
    rw [dv_sum _ _ fun j => contDiff_const.mul (dv_smooth (hf j) _)]
    refine Finset.sum_congr rfl fun j _ => ?_
    rw [dv_cmul (dv_smooth (hf j) _), dv_comm (hf j), heq]

/-! ## Consistency -/

theorem Near.cmul {p : ℕ} {u : Spacing D × τ → E D → ℝ} {v : τ → E D → ℝ} (h : Near p u v) (c : ℝ) : Near p (fun i x => c * u i x) fun t x => c * v t x :=
  (near_self (tame_const c)).mul h

theorem Near.sum {ι : Type} (s : Finset ι) {p : ℕ} {u : ι → Spacing D × τ → E D → ℝ} {v : ι → τ → E D → ℝ} (h : ∀ i, Near p (u i) (v i)) : Near p (fun i x => ∑ j ∈ s, u j i x) fun t x => ∑ j ∈ s, v j t x := by
  classical
  induction s using Finset.induction_on with
  | empty => simpa using near_self (tame_const 0)
  | insert a s ha ih =>
    simp only [Finset.sum_insert ha]
    exact (h a).add ih

theorem differences_near {m : ℕ} (hm : 1 ≤ m) (M : Fin D → Fin n → Fin n → ℝ) (u : τ → Fin n → E D → ℝ) (hu : ∀ i, Tame fun t => u t i) (k : ℕ) (i : Fin n) :
    Near (2 * m) (fun q : Spacing D × τ => (differences (2 * m) M q.1.δ)^[k] (u q.2) i) fun t => (inSpaceOnly M)^[k] (u t) i := by
  induction k generalizing i with
  | zero => exact near_self (hu i)
  | succ k ih =>
    simp only [Function.iterate_succ_apply']
    exact Near.sum _ fun d => Near.sum _ fun j => ((ih j).cd hm (.inl rfl) d).cmul _

/-! ## On the grid -/

/-- Sampled fields. -/
noncomputable def onGridPoints (np : Fin D → ℤ) (x₀ δ : E D) (u : Fin n → E D → ℝ) : Space np n := WithLp.toLp 2 fun q => u q.1 (pos x₀ δ q.2.1)

/-- Periodic fields. -/
def Periodic (L : E D) (u : Fin n → E D → ℝ) : Prop := ∀ i (k : Fin D → ℤ) x, u i (x + fun d => k d * L d) = u i x

theorem differences_periodic (order : ℕ) (M : Fin D → Fin n → Fin n → ℝ) (δ L : E D) {u : Fin n → E D → ℝ} (hu : Periodic L u) : Periodic L (differences order M δ u) := by
  intro i k x
  simp only [differences, formula]
  refine Finset.sum_congr rfl fun d _ => Finset.sum_congr rfl fun j _ => ?_
  congr 2
  refine congrArg List.sum (List.map_congr_left fun q _ => ?_)
  rw [add_right_comm, hu j k]

theorem system_onGrid (order : ℕ) (M : Fin D → Fin n → Fin n → ℝ) {np : Fin D → ℤ} (x₀ δ L : E D) (hL : ∀ d, np d * δ d = L d) {u : Fin n → E D → ℝ} (hu : Periodic L u) :
    system order M δ (onGridPoints np x₀ δ u) = onGridPoints np x₀ δ (differences order M δ u) := by
  ext q
  rw [system_apply]
  simp only [onGridPoints, differences, formula, pow_one]
  refine Finset.sum_congr rfl fun d _ => Finset.sum_congr rfl fun j _ => ?_
  congr 2
  refine Eq.trans ?_ (centralList_sum order 1 fun p => u j (pos x₀ δ q.2.1 + ((p : ℝ) * δ d) • Pi.single d 1)).symm
  refine Finset.sum_congr rfl fun p _ => ?_
  congr 1
  have hk := hu j (Pi.single d ((q.2.1 d + p) / np d)) (pos x₀ δ (move d p q.2).1)
  rw [← hk]
  congr 1
  funext e
  by_cases he : e = d
  · subst he
    have h1 := Int.emod_add_mul_ediv (q.2.1 e + p) (np e)
    have h2 : (((q.2.1 e + p) % np e : ℤ) : ℝ) + np e * (((q.2.1 e + p) / np e : ℤ) : ℝ) = q.2.1 e + p := by exact_mod_cast h1
    simp [pos, move, ← hL]
    linear_combination (δ e) * h2
  · simp [pos, move, he]

theorem system_iter (order : ℕ) (M : Fin D → Fin n → Fin n → ℝ) {np : Fin D → ℤ} (x₀ δ L : E D) (hL : ∀ d, np d * δ d = L d) {u : Fin n → E D → ℝ} (hu : Periodic L u) (k : ℕ) :
    (system order M δ)^[k] (onGridPoints np x₀ δ u) = onGridPoints np x₀ δ ((differences order M δ)^[k] u) := by
  induction k generalizing u with
  | zero => rfl
  | succ k ih => rw [Function.iterate_succ_apply, Function.iterate_succ_apply, system_onGrid order M x₀ δ L hL hu, ih (differences_periodic order M δ L hu)]

/-- The error of one step from the exact solution. -/
theorem local_error {m : ℕ} (hm : 1 ≤ m) (M : Fin D → Fin n → Fin n → ℝ) (L : E D) (hLp : ∀ d, 0 < L d) (U : Fin n → ℝ → E D → ℝ) (hU : Solves M L U) (T : ℝ) :
    ∃ C : ℝ, 0 ≤ C ∧ ∀ (np : Fin D → ℤ) (x₀ δ : E D) (h dt t : ℝ), (∀ d, np d * δ d = L d) → (∀ d, 0 < δ d ∧ δ d ≤ h) → 0 ≤ h → h ≤ 1 → 0 ≤ dt → dt ≤ 1 → 0 ≤ t → t + dt ≤ T → ∀ q,
      |(onGridPoints np x₀ δ (fun i => U i (t + dt)) - amplify (system (2 * m) M δ) dt (onGridPoints np x₀ δ fun i => U i t)) q| ≤ C * (dt * (dt ^ 3 + h ^ (2 * m))) := by
  set f : Fin n → ℝ × E D → ℝ := fun i p => U i p.1 p.2 with hf
  have hsm : ∀ i, ContDiff ℝ ∞ (f i) := hU.smooth
  have heq : ∀ i, dv inTime (f i) = inBoth M f i := by
    intro i
    funext ⟨t, x⟩
    have h1 := congrFun (deriv_dv (hsm i) x) t
    rw [← h1]
    refine (hU.equation i t x).trans ?_
    simp only [inBoth]
    refine Finset.sum_congr rfl fun d _ => Finset.sum_congr rfl fun j _ => ?_
    rw [← congrFun (pd_dv (hsm j) d t) x]
  set u : Set.Icc (0 : ℝ) T → Fin n → E D → ℝ := fun t i x => f i (t, x) with hu
  have htame : ∀ i, Tame fun t => u t i := fun i => joint_tame (hsm i) L hLp (fun t k x => hU.periodic i t k x) T
  have near := fun k i => differences_near hm M u htame k i
  choose C hC0 hC using fun (q : ℕ × Fin n) => (near q.1 q.2).error.bound []
  choose B hB0 hB using fun (i : Fin n) => (near 4 i).dom.bound []
  refine ⟨∑ i, (C (1, i) + C (2, i) + C (3, i) + B i), Finset.sum_nonneg fun i _ => by have := hC0 (1, i); have := hC0 (2, i); have := hC0 (3, i); have := hB0 i; positivity, ?_⟩
  intro np x₀ δ h dt t hL hδ h0 h1 hdt0 hdt1 ht0 htT q
  have hper : Periodic L fun i => U i t := fun i k x => hU.periodic i t k x
  have it := fun k => system_iter (2 * m) M x₀ δ L hL hper k
  have i1 := it 1
  have i2 := it 2
  have i3 := it 3
  simp only [Function.iterate_succ_apply, Function.iterate_zero, id_eq] at i1 i2 i3
  obtain ⟨i, x⟩ := q
  set y := pos x₀ δ x.1 with hy
  let sp : Spacing D := ⟨δ, h, fun d => (hδ d).1, fun d => (hδ d).2, h0, h1⟩
  let ts : Set.Icc (0 : ℝ) T := ⟨t, ht0, by linarith⟩
  have e : ∀ k, |(differences (2 * m) M δ)^[k] (fun i => U i t) i y - (inSpaceOnly M)^[k] (fun i => U i t) i y| ≤ C (k, i) * h ^ (2 * m) := fun k => hC (k, i) (sp, ts) y
  have tay := taylor_bound (f := fun s => f i (s, y)) ((hsm i).comp (contDiff_id.prodMk contDiff_const)) 3 t (t + dt) (B i) (by
    intro z hz
    rw [Set.uIcc_of_le (by linarith)] at hz
    rw [iteratedDeriv_dv (hsm i) y, time_derivatives M hsm heq]
    have := hB i (sp, ⟨z, by linarith [hz.1], by linarith [hz.2]⟩) y
    simp only [pds, mul_one, hu, inBoth_at M hsm] at this
    exact this)
  simp only [add_sub_cancel_left, abs_of_nonneg hdt0, iteratedDeriv_dv (hsm i) y, time_derivatives M hsm heq] at tay
  have es : ∀ k, (inBoth M)^[k] f i (t, y) = (inSpaceOnly M)^[k] (fun i => U i t) i y := fun k => (congrFun (congrFun (inBoth_at M hsm t k) i) y).symm
  simp only [es, Finset.sum_range_succ, Finset.sum_range_zero] at tay
  have hval : (onGridPoints np x₀ δ (fun i => U i (t + dt)) - amplify (system (2 * m) M δ) dt (onGridPoints np x₀ δ fun i => U i t)) (i, x) =
      U i (t + dt) y - (U i t y + dt * (differences (2 * m) M δ)^[1] (fun i => U i t) i y + dt ^ 2 / 2 * (differences (2 * m) M δ)^[2] (fun i => U i t) i y + dt ^ 3 / 6 * (differences (2 * m) M δ)^[3] (fun i => U i t) i y) := by
    rw [amplify, i3, i2, i1]
    rfl
  rw [hval]
  have e1 := e 1
  have e2 := e 2
  have e3 := e 3
  generalize (differences (2 * m) M δ)^[1] (fun i => U i t) i y = d1 at e1 ⊢
  generalize (differences (2 * m) M δ)^[2] (fun i => U i t) i y = d2 at e2 ⊢
  generalize (differences (2 * m) M δ)^[3] (fun i => U i t) i y = d3 at e3 ⊢
  generalize (inSpaceOnly M)^[1] (fun i => U i t) i y = s1 at e1 tay
  generalize (inSpaceOnly M)^[2] (fun i => U i t) i y = s2 at e2 tay
  generalize (inSpaceOnly M)^[3] (fun i => U i t) i y = s3 at e3 tay
  have z0 : (inSpaceOnly M)^[0] (fun i => U i t) i y = U i t y := rfl
  have z1 : f i (t + dt, y) = U i (t + dt) y := rfl
  rw [z0, z1] at tay
  generalize U i t y = v0 at tay ⊢
  generalize U i (t + dt) y = v1 at tay ⊢
  have hp : 0 ≤ h ^ (2 * m) := by positivity
  have b1 : |dt * (d1 - s1)| ≤ C (1, i) * (dt * h ^ (2 * m)) := by
    rw [abs_mul, abs_of_nonneg hdt0]
    nlinarith
  have b2 : |dt ^ 2 / 2 * (d2 - s2)| ≤ C (2, i) * (dt * h ^ (2 * m)) := by
    rw [abs_mul, abs_of_nonneg (by positivity : 0 ≤ dt ^ 2 / 2)]
    calc dt ^ 2 / 2 * |d2 - s2| ≤ dt ^ 2 / 2 * (C (2, i) * h ^ (2 * m)) := mul_le_mul_of_nonneg_left e2 (by positivity)
      _ ≤ dt * (C (2, i) * h ^ (2 * m)) := mul_le_mul_of_nonneg_right (by nlinarith) (mul_nonneg (hC0 _) hp)
      _ = _ := by ring
  have b3 : |dt ^ 3 / 6 * (d3 - s3)| ≤ C (3, i) * (dt * h ^ (2 * m)) := by
    rw [abs_mul, abs_of_nonneg (by positivity : 0 ≤ dt ^ 3 / 6)]
    calc dt ^ 3 / 6 * |d3 - s3| ≤ dt ^ 3 / 6 * (C (3, i) * h ^ (2 * m)) := mul_le_mul_of_nonneg_left e3 (by positivity)
      _ ≤ dt * (C (3, i) * h ^ (2 * m)) := mul_le_mul_of_nonneg_right (by
          have : dt ^ 3 ≤ dt := by calc dt ^ 3 = dt * dt ^ 2 := by ring
            _ ≤ dt * 1 := mul_le_mul_of_nonneg_left (pow_le_one₀ hdt0 hdt1) hdt0
            _ = dt := mul_one _
          linarith) (mul_nonneg (hC0 _) hp)
      _ = _ := by ring
  have b4 : |v1 - (v0 + dt * s1 + dt ^ 2 / 2 * s2 + dt ^ 3 / 6 * s3)| ≤ B i * (dt * dt ^ 3) := by
    norm_num [Nat.factorial] at tay
    have : |v1 - (v0 + dt * s1 + dt ^ 2 / 2 * s2 + dt ^ 3 / 6 * s3)| ≤ B i * dt ^ 4 / 24 := by
      convert tay using 2
      ring
    refine this.trans ?_
    have : 0 ≤ B i * dt ^ 4 := mul_nonneg (hB0 i) (by positivity)
    linarith [show B i * (dt * dt ^ 3) = B i * dt ^ 4 by ring]
  have hsum : C (1, i) + C (2, i) + C (3, i) + B i ≤ ∑ i, (C (1, i) + C (2, i) + C (3, i) + B i) :=
    Finset.single_le_sum (f := fun i => C (1, i) + C (2, i) + C (3, i) + B i) (fun j _ => by have := hC0 (1, j); have := hC0 (2, j); have := hC0 (3, j); have := hB0 j; positivity) (Finset.mem_univ i)
  refine le_trans ?_ (mul_le_mul_of_nonneg_right hsum (by positivity))
  have tri : |v1 - (v0 + dt * d1 + dt ^ 2 / 2 * d2 + dt ^ 3 / 6 * d3)| ≤
      |v1 - (v0 + dt * s1 + dt ^ 2 / 2 * s2 + dt ^ 3 / 6 * s3)| + (|dt * (d1 - s1)| + |dt ^ 2 / 2 * (d2 - s2)| + |dt ^ 3 / 6 * (d3 - s3)|) := by
    have : v1 - (v0 + dt * d1 + dt ^ 2 / 2 * d2 + dt ^ 3 / 6 * d3) = (v1 - (v0 + dt * s1 + dt ^ 2 / 2 * s2 + dt ^ 3 / 6 * s3)) - (dt * (d1 - s1) + dt ^ 2 / 2 * (d2 - s2) + dt ^ 3 / 6 * (d3 - s3)) := by ring
    rw [this]
    refine (abs_sub _ _).trans (add_le_add le_rfl ((abs_add_le _ _).trans (add_le_add (abs_add_le _ _) le_rfl)))
  refine tri.trans ?_
  have c1 : 0 ≤ B i * (dt * h ^ (2 * m)) := mul_nonneg (hB0 i) (by positivity)
  have c2 : 0 ≤ (C (1, i) + C (2, i) + C (3, i)) * (dt * dt ^ 3) := mul_nonneg (by have := hC0 (1, i); have := hC0 (2, i); have := hC0 (3, i); positivity) (by positivity)
  linarith [show (C (1, i) + C (2, i) + C (3, i) + B i) * (dt * (dt ^ 3 + h ^ (2 * m))) =
    C (1, i) * (dt * h ^ (2 * m)) + C (2, i) * (dt * h ^ (2 * m)) + C (3, i) * (dt * h ^ (2 * m)) + B i * (dt * dt ^ 3) + B i * (dt * h ^ (2 * m)) + (C (1, i) + C (2, i) + C (3, i)) * (dt * dt ^ 3) by ring]

end OpenSBLI.Order
