import Verif.Lemmas.OrderTaylor
import Verif.Spec.Order
import Mathlib.Analysis.Calculus.Deriv.Shift
import Mathlib.Analysis.Calculus.FDeriv.Symmetric
import Mathlib.Analysis.Calculus.FDeriv.Mul
import Mathlib.Analysis.Calculus.ContDiff.Operations

/-!
# Families of smooth functions with bounds for all partial derivatives
-/
namespace OpenSBLI.Order
open Sim
open scoped ContDiff

variable {D : ℕ} {ι τ : Type}

/-! ## Partial derivatives -/

theorem pd_eq {u : E D → ℝ} (hu : ContDiff ℝ ∞ u) (d : Fin D) : pd d u = fun x => fderiv ℝ u x (Pi.single d 1) := by
  funext x
  exact (hu.differentiable (by simp) x).lineDeriv_eq_fderiv

theorem pd_smooth {u : E D → ℝ} (hu : ContDiff ℝ ∞ u) (d : Fin D) : ContDiff ℝ ∞ (pd d u) := by
  rw [pd_eq hu]
  exact (hu.fderiv_right (m := ∞) (by simp)).clm_apply contDiff_const

theorem pds_smooth (w : List (Fin D)) {u : E D → ℝ} (hu : ContDiff ℝ ∞ u) : ContDiff ℝ ∞ (pds w u) := by
  induction w generalizing u with
  | nil => exact hu
  | cons d w ih => exact ih (pd_smooth hu d)

theorem iter_smooth (d : Fin D) (k : ℕ) {u : E D → ℝ} (hu : ContDiff ℝ ∞ u) : ContDiff ℝ ∞ ((pd d)^[k] u) := by
  induction k generalizing u with
  | zero => exact hu
  | succ k ih => exact ih (pd_smooth hu d)

theorem pd_add {u v : E D → ℝ} (hu : ContDiff ℝ ∞ u) (hv : ContDiff ℝ ∞ v) (d : Fin D) : pd d (fun x => u x + v x) = fun x => pd d u x + pd d v x := by
  rw [pd_eq (hu.add hv), pd_eq hu, pd_eq hv]
  funext x
  rw [fderiv_fun_add (hu.differentiable (by simp) x) (hv.differentiable (by simp) x)]
  rfl

theorem pd_mul {u v : E D → ℝ} (hu : ContDiff ℝ ∞ u) (hv : ContDiff ℝ ∞ v) (d : Fin D) : pd d (fun x => u x * v x) = fun x => pd d u x * v x + u x * pd d v x := by
  rw [pd_eq (hu.mul hv), pd_eq hu, pd_eq hv]
  funext x
  rw [fderiv_fun_mul (hu.differentiable (by simp) x) (hv.differentiable (by simp) x)]
  simp
  ring

theorem pd_const (c : ℝ) (d : Fin D) : pd d (fun _ => c) = fun _ => 0 := by
  rw [pd_eq contDiff_const]
  simp

theorem pd_cmul {u : E D → ℝ} (hu : ContDiff ℝ ∞ u) (c : ℝ) (d : Fin D) : pd d (fun x => c * u x) = fun x => c * pd d u x := by
  rw [pd_mul contDiff_const hu, pd_const]
  simp

theorem pd_shift {u : E D → ℝ} (d : Fin D) (s : E D) : pd d (fun x => u (x + s)) = fun x => pd d u (x + s) := by
  funext x
  simp only [pd, lineDeriv]
  congr 1
  funext t
  rw [add_right_comm]

theorem pds_add (w : List (Fin D)) {u v : E D → ℝ} (hu : ContDiff ℝ ∞ u) (hv : ContDiff ℝ ∞ v) : pds w (fun x => u x + v x) = fun x => pds w u x + pds w v x := by
  induction w generalizing u v with
  | nil => rfl
  | cons d w ih => rw [pds, pd_add hu hv, ih (pd_smooth hu d) (pd_smooth hv d)]; rfl

theorem pds_cmul (w : List (Fin D)) {u : E D → ℝ} (hu : ContDiff ℝ ∞ u) (c : ℝ) : pds w (fun x => c * u x) = fun x => c * pds w u x := by
  induction w generalizing u with
  | nil => rfl
  | cons d w ih => rw [pds, pd_cmul hu, ih (pd_smooth hu d)]; rfl

theorem pds_shift (w : List (Fin D)) (u : E D → ℝ) (s : E D) : pds w (fun x => u (x + s)) = fun x => pds w u (x + s) := by
  induction w generalizing u with
  | nil => rfl
  | cons d w ih => rw [pds, pd_shift, ih]; rfl

theorem pds_iter (w : List (Fin D)) (d : Fin D) (k : ℕ) (u : E D → ℝ) : pds w ((pd d)^[k] u) = pds (List.replicate k d ++ w) u := by
  induction k generalizing u with
  | zero => rfl
  | succ k ih => rw [Function.iterate_succ_apply, ih]; rfl

theorem pds_append (w w' : List (Fin D)) (u : E D → ℝ) : pds (w ++ w') u = pds w' (pds w u) := by
  induction w generalizing u with
  | nil => rfl
  | cons d w ih => exact ih _

theorem pd_comm {u : E D → ℝ} (hu : ContDiff ℝ ∞ u) (d e : Fin D) : pd d (pd e u) = pd e (pd d u) := by
  have h : ∀ d e : Fin D, ∀ x, pd d (pd e u) x = fderiv ℝ (fderiv ℝ u) x (Pi.single d 1) (Pi.single e 1) := fun d e x => by
    rw [pd_eq (pd_smooth hu e), pd_eq hu]
    have hd : DifferentiableAt ℝ (fderiv ℝ u) x := (hu.fderiv_right (m := ∞) (by simp)).differentiable (by simp) x
    have := fderiv_clm_apply hd (differentiableAt_const (𝕜 := ℝ) (c := (Pi.single e 1 : E D)))
    show fderiv ℝ (fun y => fderiv ℝ u y (Pi.single e 1)) x (Pi.single d 1) = _
    rw [this]
    simp
  funext x
  rw [h, h]
  exact (hu.contDiffAt.isSymmSndFDerivAt (by rw [minSmoothness_of_isRCLikeNormedField]; exact WithTop.coe_le_coe.2 (le_top : (2 : ℕ∞) ≤ ⊤))) _ _

theorem pds_pd_comm (w : List (Fin D)) (d : Fin D) {u : E D → ℝ} (hu : ContDiff ℝ ∞ u) : pds w (pd d u) = pd d (pds w u) := by
  induction w generalizing u with
  | nil => rfl
  | cons e w ih => rw [pds, pd_comm hu, ih (pd_smooth hu e)]; rfl

theorem pds_iter_comm (w : List (Fin D)) (d : Fin D) (k : ℕ) {u : E D → ℝ} (hu : ContDiff ℝ ∞ u) : pds w ((pd d)^[k] u) = (pd d)^[k] (pds w u) := by
  induction k generalizing u with
  | zero => rfl
  | succ k ih => rw [Function.iterate_succ_apply, ih (pd_smooth hu d), pds_pd_comm w d hu, Function.iterate_succ_apply]

/-- On a line in direction `d`. -/
theorem line_smooth {u : E D → ℝ} (hu : ContDiff ℝ ∞ u) (d : Fin D) (x : E D) : ContDiff ℝ ∞ fun t : ℝ => u (x + t • Pi.single d 1) :=
  hu.comp (contDiff_const.add (contDiff_id.smul contDiff_const))

theorem line_deriv {u : E D → ℝ} (d : Fin D) (x : E D) : deriv (fun t : ℝ => u (x + t • Pi.single d 1)) = fun t => pd d u (x + t • Pi.single d 1) := by
  funext t
  simp only [pd, lineDeriv]
  have h : (fun s : ℝ => u (x + t • Pi.single d 1 + s • Pi.single d 1)) = fun s => (fun r : ℝ => u (x + r • Pi.single d 1)) (t + s) := by
    funext s
    show _ = u (x + (t + s) • Pi.single d 1)
    rw [add_smul, add_assoc]
  rw [h]
  have := deriv_comp_const_add (fun r : ℝ => u (x + r • Pi.single d 1)) t 0
  rw [add_zero] at this
  exact this.symm

theorem line_iterated {u : E D → ℝ} (d : Fin D) (x : E D) (k : ℕ) : iteratedDeriv k (fun t : ℝ => u (x + t • Pi.single d 1)) = fun t => ((pd d)^[k] u) (x + t • Pi.single d 1) := by
  induction k generalizing u with
  | zero => simp
  | succ k ih => rw [iteratedDeriv_succ', line_deriv, ih, Function.iterate_succ_apply]

/-! ## Bounds for all derivatives -/

/-- A family of smooth functions, all derivatives of `a i` being bounded by multiples of `A i`. -/
structure Dom (a : ι → E D → ℝ) (A : ι → ℝ) : Prop where
  smooth : ∀ i, ContDiff ℝ ∞ (a i)
  bound : ∀ w, ∃ C, 0 ≤ C ∧ ∀ i x, |pds w (a i) x| ≤ C * A i

variable {a b : ι → E D → ℝ} {A B : ι → ℝ}

theorem Dom.mono (h : Dom a A) (hA : ∀ i, A i ≤ B i) : Dom a B where
  smooth := h.smooth
  bound w := by
    obtain ⟨C, hC, h⟩ := h.bound w
    exact ⟨C, hC, fun i x => (h i x).trans (mul_le_mul_of_nonneg_left (hA i) hC)⟩

theorem Dom.add (ha : Dom a A) (hb : Dom b A) : Dom (fun i x => a i x + b i x) A where
  smooth i := (ha.smooth i).add (hb.smooth i)
  bound w := by
    obtain ⟨C, hC, h⟩ := ha.bound w
    obtain ⟨C', hC', h'⟩ := hb.bound w
    refine ⟨C + C', by positivity, fun i x => ?_⟩
    rw [pds_add w (ha.smooth i) (hb.smooth i), add_mul]
    exact (abs_add_le _ _).trans (add_le_add (h i x) (h' i x))

theorem Dom.pd (ha : Dom a A) (d : Fin D) : Dom (fun i => pd d (a i)) A where
  smooth i := pd_smooth (ha.smooth i) d
  bound w := ha.bound (d :: w)

theorem Dom.iter (ha : Dom a A) (d : Fin D) (k : ℕ) : Dom (fun i => (Order.pd d)^[k] (a i)) A where
  smooth i := iter_smooth d k (ha.smooth i)
  bound w := by
    obtain ⟨C, hC, h⟩ := ha.bound (List.replicate k d ++ w)
    exact ⟨C, hC, fun i x => by rw [pds_iter]; exact h i x⟩

theorem Dom.mul (ha : Dom a A) (hb : Dom b B) (hA : ∀ i, 0 ≤ A i) : Dom (fun i x => a i x * b i x) fun i => A i * B i where
  smooth i := (ha.smooth i).mul (hb.smooth i)
  bound w := by
    induction w generalizing a b with
    | nil =>
      obtain ⟨C, hC, h⟩ := ha.bound []
      obtain ⟨C', hC', h'⟩ := hb.bound []
      refine ⟨C * C', by positivity, fun i x => ?_⟩
      simp only [pds] at h h' ⊢
      rw [abs_mul]
      calc |a i x| * |b i x| ≤ (C * A i) * (C' * B i) := mul_le_mul (h i x) (h' i x) (abs_nonneg _) (mul_nonneg hC (hA i))
        _ = _ := by ring
    | cons d w ih =>
      obtain ⟨C, hC, h⟩ := ih (ha.pd d) hb
      obtain ⟨C', hC', h'⟩ := ih ha (hb.pd d)
      refine ⟨C + C', by positivity, fun i x => ?_⟩
      have e : pds (d :: w) (fun x => a i x * b i x) = fun x => pds w (fun x => Order.pd d (a i) x * b i x) x + pds w (fun x => a i x * Order.pd d (b i) x) x := by
        rw [pds, pd_mul (ha.smooth i) (hb.smooth i), pds_add w ((pd_smooth (ha.smooth i) d).mul (hb.smooth i)) ((ha.smooth i).mul (pd_smooth (hb.smooth i) d))]
      rw [e, add_mul]
      exact (abs_add_le _ _).trans (add_le_add (h i x) (h' i x))

theorem Tame.dom {u : τ → E D → ℝ} (h : Tame u) (g : ι → τ) : Dom (fun i => u (g i)) fun _ => 1 where
  smooth _ := h.smooth _
  bound w := by
    obtain ⟨C, hC⟩ := h.bounded w
    exact ⟨|C|, abs_nonneg C, fun _ x => by rw [mul_one]; exact (hC _ x).trans (le_abs_self C)⟩

theorem Dom.tame {u : τ → E D → ℝ} (h : Dom u fun _ => 1) : Tame u where
  smooth := h.smooth
  bounded w := by
    obtain ⟨C, _, h⟩ := h.bound w
    exact ⟨C, fun t x => by simpa using h t x⟩

theorem pds_const (w : List (Fin D)) (c : ℝ) : ∃ c', pds w (fun _ : E D => c) = fun _ => c' := by
  induction w generalizing c with
  | nil => exact ⟨c, rfl⟩
  | cons d w ih => rw [pds, pd_const]; exact ih 0

theorem tame_const (c : ℝ) : Tame (fun (_ : τ) (_ : E D) => c) where
  smooth _ := contDiff_const
  bounded w := by
    obtain ⟨c', h⟩ := pds_const (D := D) w c
    exact ⟨|c'|, fun _ x => by rw [h]⟩

/-! ## Formulas -/

/-- A formula for the `k`-th derivative in direction `d` with spacing `δ`. -/
noncomputable def formula (l : List (ℤ × ℝ)) (k : ℕ) (d : Fin D) (δ : ℝ) (u : E D → ℝ) : E D → ℝ := fun x => (l.map fun q => q.2 * u (x + ((q.1 : ℝ) * δ) • Pi.single d 1)).sum * (1 / δ ^ k)

theorem formula_smooth (l : List (ℤ × ℝ)) (k : ℕ) (d : Fin D) (δ : ℝ) {u : E D → ℝ} (hu : ContDiff ℝ ∞ u) : ContDiff ℝ ∞ (formula l k d δ u) := by
  refine ContDiff.mul ?_ contDiff_const
  induction l with
  | nil => simpa using contDiff_const
  | cons q l ih =>
    simp only [List.map_cons, List.sum_cons]
    exact (contDiff_const.mul (hu.comp (contDiff_id.add contDiff_const))).add ih

theorem pds_formula (w : List (Fin D)) (l : List (ℤ × ℝ)) (k : ℕ) (d : Fin D) (δ : ℝ) {u : E D → ℝ} (hu : ContDiff ℝ ∞ u) : pds w (formula l k d δ u) = formula l k d δ (pds w u) := by
  have hs : ∀ s : E D, ContDiff ℝ ∞ fun x => u (x + s) := fun s => hu.comp (contDiff_id.add contDiff_const)
  have key : (ContDiff ℝ ∞ fun x => (l.map fun q => q.2 * u (x + ((q.1 : ℝ) * δ) • Pi.single d 1)).sum) ∧
      pds w (fun x => (l.map fun q => q.2 * u (x + ((q.1 : ℝ) * δ) • Pi.single d 1)).sum) = fun x => (l.map fun q => q.2 * pds w u (x + ((q.1 : ℝ) * δ) • Pi.single d 1)).sum := by
    induction l with
    | nil =>
      refine ⟨by simpa using contDiff_const, ?_⟩
      simp only [List.map_nil, List.sum_nil]
      induction w generalizing u with
      | nil => rfl
      | cons e w ih => rw [pds, pd_const]; exact ih hu hs
    | cons q l ih =>
      simp only [List.map_cons, List.sum_cons]
      refine ⟨(contDiff_const.mul (hs _)).add ih.1, ?_⟩
      rw [pds_add w (contDiff_const.mul (hs _)) ih.1, ih.2, pds_cmul w (hs _), pds_shift]
  have e : formula l k d δ u = fun x => (1 / δ ^ k) * (l.map fun q => q.2 * u (x + ((q.1 : ℝ) * δ) • Pi.single d 1)).sum := by
    funext x; rw [formula, mul_comm]
  rw [e, pds_cmul w key.1, key.2]
  funext x
  rw [formula, mul_comm]

theorem formula_sub (l : List (ℤ × ℝ)) (k : ℕ) (d : Fin D) (δ : ℝ) (u v : E D → ℝ) : formula l k d δ (fun x => u x - v x) = fun x => formula l k d δ u x - formula l k d δ v x := by
  funext x
  simp only [formula]
  rw [← sub_mul]
  congr 1
  induction l with
  | nil => simp
  | cons q l ih => simp only [List.map_cons, List.sum_cons, ih]; ring

theorem formula_line (l : List (ℤ × ℝ)) (k : ℕ) (d : Fin D) (δ : ℝ) (u : E D → ℝ) (x : E D) :
    formula l k d δ u x = (l.map fun q => q.2 * (fun t : ℝ => u (x + t • Pi.single d 1)) (0 + q.1 * δ)).sum * (1 / δ ^ k) := by
  simp only [formula, zero_add]

/-- A formula which vanishes on polynomials of degree less than `k + 1` keeps bounds. -/
theorem Dom.formula (ha : Dom a A) (l : List (ℤ × ℝ)) (k : ℕ) (hl : ∀ i ≤ k, moment l i = 0) (d : Fin D) (δ : ι → ℝ) (hδ : ∀ i, 0 < δ i) : Dom (fun i => Order.formula l (k + 1) d (δ i) (a i)) A where
  smooth i := formula_smooth _ _ _ _ (ha.smooth i)
  bound w := by
    obtain ⟨C, hC, h⟩ := ha.bound (w ++ List.replicate (k + 1) d)
    refine ⟨errorConst l k * C, mul_nonneg (errorConst_nonneg l k) hC, fun i x => ?_⟩
    rw [pds_formula w _ _ _ _ (ha.smooth i), formula_line, mul_assoc]
    refine formula_bounded (line_smooth (pds_smooth w (ha.smooth i)) d x) k l hl 0 (δ i) _ (hδ i) fun q _ z _ => ?_
    rw [line_iterated]
    have := h i (x + z • Pi.single d 1)
    rw [pds_append] at this
    have e : ∀ u : E D → ℝ, pds (List.replicate (k + 1) d) u = (Order.pd d)^[k + 1] u := fun u => by
      have := pds_iter [] d (k + 1) u
      rw [List.append_nil] at this
      exact this.symm
    rwa [e] at this

/-- The error of a formula which is exact on polynomials of degree at most `N`. -/
theorem Dom.formula_error (ha : Dom a A) (l : List (ℤ × ℝ)) (N k : ℕ) (hk : k ≤ N) (hl : ∀ i ≤ N, moment l i = if i = k then (k.factorial : ℝ) else 0) (d : Fin D) (δ : ι → ℝ) (hδ : ∀ i, 0 < δ i) :
    Dom (fun i x => Order.formula l k d (δ i) (a i) x - ((Order.pd d)^[k] (a i)) x) fun i => A i * δ i ^ (N + 1 - k) where
  smooth i := (formula_smooth _ _ _ _ (ha.smooth i)).sub (iter_smooth d k (ha.smooth i))
  bound w := by
    obtain ⟨C, hC, h⟩ := ha.bound (w ++ List.replicate (N + 1) d)
    refine ⟨errorConst l N * C, mul_nonneg (errorConst_nonneg l N) hC, fun i x => ?_⟩
    have e : ∀ (k : ℕ) (u : E D → ℝ), pds (List.replicate k d) u = (Order.pd d)^[k] u := fun k u => by
      have := pds_iter [] d k u
      rw [List.append_nil] at this
      exact this.symm
    have hcomm := pds_iter_comm w d k (ha.smooth i)
    have e1 : pds w (fun x => Order.formula l k d (δ i) (a i) x - ((Order.pd d)^[k] (a i)) x) = fun x => Order.formula l k d (δ i) (pds w (a i)) x - ((Order.pd d)^[k] (pds w (a i))) x := by
      have h1 : (fun x => Order.formula l k d (δ i) (a i) x - ((Order.pd d)^[k] (a i)) x) = fun x => Order.formula l k d (δ i) (a i) x + (-1) * ((Order.pd d)^[k] (a i)) x := by funext x; ring
      rw [h1, pds_add w (formula_smooth _ _ _ _ (ha.smooth i)) (contDiff_const.mul (iter_smooth d k (ha.smooth i))), pds_formula w _ _ _ _ (ha.smooth i), pds_cmul w (iter_smooth d k (ha.smooth i)), hcomm]
      funext x; ring
    rw [e1]
    have h2 := formula_accurate (line_smooth (pds_smooth w (ha.smooth i)) d x) N k hk l hl 0 (δ i) (C * A i) (hδ i) fun q _ z _ => ?_
    · rw [← formula_line, line_iterated] at h2
      simp only [zero_smul, add_zero] at h2
      refine h2.trans (le_of_eq ?_)
      ring
    · rw [line_iterated]
      have := h i (x + z • Pi.single d 1)
      rwa [pds_append, e] at this

/-! ## Expressions with the derivatives replaced by formulas -/

/-- Expressions with derivatives by central differences, as functions of a continuous position. -/
noncomputable def ext (I : Interp D) (order : ℕ) (δ : E D) (fields : Arr → E D → ℝ) : Ex D → E D → ℝ
  | .num q => fun _ => (q : ℝ)
  | .const c => fun _ => I.const c
  | .indexed t => fun _ => (I.table t).getD I.stage.toNat 0
  | .arr a => fields a
  | .cd d k e => formula (centralList order k) k d (δ d) (ext I order δ fields e)
  | .add a b => fun x => ext I order δ fields a x + ext I order δ fields b x
  | .mul a b => fun x => ext I order δ fields a x * ext I order δ fields b x
  | .pow a b => fun x => I.pow (ext I order δ fields a x) (ext I order δ fields b x)
  | .fn f e => fun x => I.fn f (ext I order δ fields e x)

theorem ext_exact (I : Interp D) (order : ℕ) (δ : E D) (fields : Arr → E D → ℝ) {e : Ex D} (h : e.cds = []) : ext I order δ fields e = exact I fields e := by
  induction e with
  | cd d k e _ => simp [Ex.cds] at h
  | add a b ha hb => simp only [Ex.cds, List.append_eq_nil_iff] at h; simp only [ext, exact, ha h.1, hb h.2]
  | mul a b ha hb => simp only [Ex.cds, List.append_eq_nil_iff] at h; simp only [ext, exact, ha h.1, hb h.2]
  | pow a b ha hb => simp only [Ex.cds, List.append_eq_nil_iff] at h; simp only [ext, exact, ha h.1, hb h.2]
  | fn f e he => simp only [Ex.cds] at h; simp only [ext, exact, he h]
  | _ => rfl

theorem pos_shift (x₀ δ : E D) (x : P D) (d : Fin D) (p : ℤ) : pos x₀ δ (Function.update x d (x d + p)) = pos x₀ δ x + ((p : ℝ) * δ d) • Pi.single d 1 := by
  funext e
  by_cases h : e = d
  · subst h; simp [pos]; ring
  · simp [pos, h]

theorem SameReading.sub {I I₀ : Interp D} {e e' : Ex D} (h : SameReading I I₀ e) (hs : ∀ c ∈ Ex.constNames e', c ∈ Ex.constNames e) : SameReading I I₀ e' :=
  { h with const := fun c hc => h.const c (hs c hc) }

theorem eval_ext (I₀ I : Interp D) (order : ℕ) (x₀ δ : E D) (fields : Arr → E D → ℝ) (e : Ex D) (hI : SameReading I I₀ e) (hc : CentralReading order δ I) (x : P D) :
    e.eval I (sample fields x₀ δ) x = ext I₀ order δ fields e (pos x₀ δ x) := by
  induction e generalizing x with
  | num q => rfl
  | const c => exact hI.const c (by simp [Ex.constNames])
  | indexed t => simp only [Ex.eval, ext, hI.table, hI.stage]
  | arr a => rfl
  | cd d k e ih =>
    simp only [Ex.eval, ext, formula]
    rw [hc, Central.discretise]
    congr 1
    refine Eq.trans ?_ (centralList_sum order k fun p => ext I₀ order δ fields e (pos x₀ δ x + ((p : ℝ) * δ d) • Pi.single d 1)).symm
    refine Finset.sum_congr rfl fun p _ => ?_
    rw [ih (hI.sub fun c hc => by simpa [Ex.constNames] using hc), pos_shift]
  | add a b ha hb =>
    simp only [Ex.eval, ext]
    rw [ha (hI.sub fun c hc => by simp [Ex.constNames, hc]), hb (hI.sub fun c hc => by simp [Ex.constNames, hc])]
  | mul a b ha hb =>
    simp only [Ex.eval, ext]
    rw [ha (hI.sub fun c hc => by simp [Ex.constNames, hc]), hb (hI.sub fun c hc => by simp [Ex.constNames, hc])]
  | pow a b ha hb =>
    simp only [Ex.eval, ext]
    rw [ha (hI.sub fun c hc => by simp [Ex.constNames, hc]), hb (hI.sub fun c hc => by simp [Ex.constNames, hc]), hI.pow]
  | fn f e he =>
    simp only [Ex.eval, ext]
    rw [he (hI.sub fun c hc => by simpa [Ex.constNames] using hc), hI.fn]

/-! ## Consistency -/

/-- Spacings at most `h ≤ 1`. -/
structure Spacing (D : ℕ) where
  δ : E D
  h : ℝ
  pos : ∀ d, 0 < δ d
  le : ∀ d, δ d ≤ h
  nonneg : 0 ≤ h
  small : h ≤ 1

/-- `u` is close to `v`. -/
structure Near (p : ℕ) (u : Spacing D × τ → E D → ℝ) (v : τ → E D → ℝ) : Prop where
  error : Dom (fun i x => u i x - v i.2 x) fun i => i.1.h ^ p
  dom : Dom (fun i : Spacing D × τ => v i.2) fun _ => 1

theorem dom_zero {p : ℕ} : Dom (fun (_ : Spacing D × τ) (_ : E D) => (0 : ℝ)) fun i => i.1.h ^ p where
  smooth _ := contDiff_const
  bound w := by
    obtain ⟨C, hC⟩ := (tame_const (D := D) (τ := Unit) 0).bounded w
    have hz : pds w (fun _ : E D => (0 : ℝ)) = fun _ => 0 := by
      clear hC
      induction w with
      | nil => rfl
      | cons d w ih => rw [pds, pd_const, ih]
    refine ⟨0, le_rfl, fun i x => ?_⟩
    rw [hz]; simp

theorem near_self {p : ℕ} {v : τ → E D → ℝ} (hv : Tame v) : Near p (fun i => v i.2) v where
  error := by simpa using dom_zero
  dom := hv.dom Prod.snd

theorem Near.add {p : ℕ} {u u' : Spacing D × τ → E D → ℝ} {v v' : τ → E D → ℝ} (h : Near p u v) (h' : Near p u' v') : Near p (fun i x => u i x + u' i x) fun t x => v t x + v' t x where
  error := by
    have := h.error.add h'.error
    convert this using 3
    ring
  dom := h.dom.add h'.dom

theorem Near.mul {p : ℕ} {u u' : Spacing D × τ → E D → ℝ} {v v' : τ → E D → ℝ} (h : Near p u v) (h' : Near p u' v') : Near p (fun i x => u i x * u' i x) fun t x => v t x * v' t x where
  error := by
    have h0 : ∀ i : Spacing D × τ, 0 ≤ i.1.h ^ p := fun i => pow_nonneg i.1.nonneg p
    have h1 := (h.error.mul h'.error h0).mono (B := fun i => i.1.h ^ p) fun i => mul_le_of_le_one_left (h0 i) (pow_le_one₀ i.1.nonneg i.1.small)
    have h2 := (h.error.mul h'.dom h0).mono (B := fun i => i.1.h ^ p) fun i => (mul_one _).le
    have h3 := (h.dom.mul h'.error fun _ => zero_le_one).mono (B := fun i => i.1.h ^ p) fun i => (one_mul _).le
    have := (h1.add h2).add h3
    convert this using 3
    ring
  dom := (h.dom.mul h'.dom fun _ => zero_le_one).mono fun _ => (mul_one _).le

theorem Near.pow {p : ℕ} {u : Spacing D × τ → E D → ℝ} {v : τ → E D → ℝ} (h : Near p u v) (n : ℕ) : Near p (fun i x => u i x ^ n) fun t x => v t x ^ n := by
  induction n with
  | zero => simpa using near_self (tame_const 1)
  | succ n ih => simpa [pow_succ] using ih.mul h

theorem Near.cd {m : ℕ} (hm : 1 ≤ m) {k : ℕ} (hk : k = 1 ∨ k = 2) {u : Spacing D × τ → E D → ℝ} {v : τ → E D → ℝ} (h : Near (2 * m) u v) (d : Fin D) :
    Near (2 * m) (fun i => formula (centralList (2 * m) k) k d (i.1.δ d) (u i)) fun t => (pd d)^[k] (v t) where
  error := by
    have hf : Dom (fun (i : Spacing D × τ) x => formula (centralList (2 * m) k) k d (i.1.δ d) (v i.2) x - ((pd d)^[k] (v i.2)) x) fun i => i.1.h ^ (2 * m) := by
      rcases hk with rfl | rfl
      · refine (h.dom.formula_error (centralList (2 * m) 1) (2 * m) 1 (by omega) (fun i hi => central_moment m 1 i (.inl hi)) d (fun i => i.1.δ d) fun i => i.1.pos d).mono fun i => ?_
        rw [one_mul, Nat.add_sub_cancel]
        exact pow_le_pow_left₀ (i.1.pos d).le (i.1.le d) _
      · refine (h.dom.formula_error (centralList (2 * m) 2) (2 * m + 1) 2 (by omega) (fun i hi => central_moment m 2 i (.inr ⟨even_two, by omega, hi⟩)) d (fun i => i.1.δ d) fun i => i.1.pos d).mono fun i => ?_
        rw [one_mul, show 2 * m + 1 + 1 - 2 = 2 * m by omega]
        exact pow_le_pow_left₀ (i.1.pos d).le (i.1.le d) _
    have hg : Dom (fun (i : Spacing D × τ) => formula (centralList (2 * m) k) k d (i.1.δ d) fun x => u i x - v i.2 x) fun i => i.1.h ^ (2 * m) := by
      obtain ⟨k', rfl⟩ : ∃ k', k = k' + 1 := ⟨k - 1, by omega⟩
      refine h.error.formula _ k' (fun i hi => ?_) d (fun i => i.1.δ d) fun i => i.1.pos d
      rw [central_moment m (k' + 1) i (.inl (by omega)), if_neg (by omega)]
    have := hg.add hf
    convert this using 3
    rw [formula_sub]
    ring
  dom := h.dom.iter d k

theorem ext_near {m : ℕ} (hm : 1 ≤ m) (I : Interp D) (fields : τ → Arr → E D → ℝ) (e : Ex D) (he : TameEx I fields e) :
    Near (2 * m) (fun i : Spacing D × τ => ext I (2 * m) i.1.δ (fields i.2) e) fun t => exact I (fields t) e := by
  induction e with
  | num q => exact near_self (tame_const _)
  | const c => exact near_self (tame_const _)
  | indexed t => exact near_self (tame_const _)
  | arr a => exact near_self he
  | cd d k e ih => exact (ih he.2).cd hm he.1 d
  | add a b ha hb => exact (ha he.1).add (hb he.2)
  | mul a b ha hb => exact (ha he.1).mul (hb he.2)
  | pow a b ha hb =>
    rcases he with ⟨h1, h2, h3⟩ | ⟨n, rfl, hn, h⟩
    · simp only [ext, ext_exact I _ _ _ h1, ext_exact I _ _ _ h2]
      exact near_self h3
    · have := (ha h).pow n
      simpa [ext, exact, hn] using this
  | fn f e _ =>
    simp only [ext, ext_exact I _ _ _ he.1]
    exact near_self he.2

end OpenSBLI.Order
