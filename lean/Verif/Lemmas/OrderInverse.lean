import Verif.Lemmas.OrderTame
import Mathlib.LinearAlgebra.Matrix.NonsingularInverse
import Mathlib.Analysis.Calculus.Deriv.Inv
import Mathlib.Analysis.Calculus.ContDiff.Operations
import Mathlib.Tactic.FieldSimp

/-!
# Quotients of families of smooth functions, and inverses of matrices of them
-/
namespace OpenSBLI.Order
open Sim
open scoped ContDiff

variable {D : ℕ} {ι τ : Type}

/-! ## Bounds for derivatives up to an order -/

/-- As `Dom`, for the derivatives up to order `n`. -/
structure DomTo (n : ℕ) (a : ι → E D → ℝ) (A : ι → ℝ) : Prop where
  smooth : ∀ i, ContDiff ℝ ∞ (a i)
  bound : ∀ w, w.length ≤ n → ∃ C, 0 ≤ C ∧ ∀ i x, |pds w (a i) x| ≤ C * A i

variable {a b : ι → E D → ℝ} {A B : ι → ℝ}

theorem Dom.to (h : Dom a A) (n : ℕ) : DomTo n a A := ⟨h.smooth, fun w _ => h.bound w⟩

theorem DomTo.pd {n : ℕ} (h : DomTo (n + 1) a A) (d : Fin D) : DomTo n (fun i => pd d (a i)) A where
  smooth i := pd_smooth (h.smooth i) d
  bound w hw := h.bound (d :: w) (by simpa using hw)

theorem DomTo.down {n : ℕ} (h : DomTo (n + 1) a A) : DomTo n a A := ⟨h.smooth, fun w hw => h.bound w (hw.trans (Nat.le_succ n))⟩

theorem DomTo.mul {n : ℕ} (ha : DomTo n a fun _ => 1) (hb : DomTo n b fun _ => 1) : DomTo n (fun i x => a i x * b i x) fun _ => 1 where
  smooth i := (ha.smooth i).mul (hb.smooth i)
  bound w hw := by
    induction w generalizing a b n with
    | nil =>
      obtain ⟨C, hC, h⟩ := ha.bound [] (Nat.zero_le _)
      obtain ⟨C', hC', h'⟩ := hb.bound [] (Nat.zero_le _)
      refine ⟨C * C', by positivity, fun i x => ?_⟩
      simp only [pds, mul_one] at h h' ⊢
      rw [abs_mul]
      exact mul_le_mul (h i x) (h' i x) (abs_nonneg _) hC
    | cons d w ih =>
      obtain ⟨m, rfl⟩ : ∃ m, n = m + 1 := ⟨n - 1, by simp at hw; omega⟩
      have hw' : w.length ≤ m := by simpa using hw
      obtain ⟨C, hC, h⟩ := ih (ha.pd d) hb.down hw'
      obtain ⟨C', hC', h'⟩ := ih ha.down (hb.pd d) hw'
      refine ⟨C + C', by positivity, fun i x => ?_⟩
      have e : pds (d :: w) (fun x => a i x * b i x) = fun x => pds w (fun x => Order.pd d (a i) x * b i x) x + pds w (fun x => a i x * Order.pd d (b i) x) x := by
        rw [pds, pd_mul (ha.smooth i) (hb.smooth i), pds_add w ((pd_smooth (ha.smooth i) d).mul (hb.smooth i)) ((ha.smooth i).mul (pd_smooth (hb.smooth i) d))]
      rw [e, add_mul]
      exact (abs_add_le _ _).trans (add_le_add (h i x) (h' i x))

theorem pd_inv {u : E D → ℝ} (hu : ContDiff ℝ ∞ u) (h0 : ∀ x, u x ≠ 0) (d : Fin D) : pd d (fun x => (u x)⁻¹) = fun x => (-1 * pd d u x) * ((u x)⁻¹ * (u x)⁻¹) := by
  have hi : ContDiff ℝ ∞ fun x => (u x)⁻¹ := hu.inv h0
  have h1 : pd d (fun x => u x * (u x)⁻¹) = fun _ => 0 := by
    rw [show (fun x => u x * (u x)⁻¹) = fun _ => (1 : ℝ) from funext fun x => mul_inv_cancel₀ (h0 x), pd_const]
  rw [pd_mul hu hi] at h1
  funext x
  have h2 := congrFun h1 x
  have h3 := h0 x
  have h4 : u x * pd d (fun x => (u x)⁻¹) x = -(pd d u x * (u x)⁻¹) := by linarith
  calc pd d (fun x => (u x)⁻¹) x = (u x)⁻¹ * (u x * pd d (fun x => (u x)⁻¹) x) := by field_simp
    _ = _ := by rw [h4]; ring

/-- Reciprocals of functions bounded away from zero. -/
theorem Dom.inv (ha : Dom a fun _ => 1) {c : ℝ} (hc : 0 < c) (hlow : ∀ i x, c ≤ |a i x|) : Dom (fun i x => (a i x)⁻¹) fun _ => 1 := by
  have h0 : ∀ i x, a i x ≠ 0 := fun i x h => by have := hlow i x; rw [h, abs_zero] at this; linarith
  have hs : ∀ i, ContDiff ℝ ∞ fun x => (a i x)⁻¹ := fun i => (ha.smooth i).inv (h0 i)
  have hzero : ∃ C, 0 ≤ C ∧ ∀ i x, |(a i x)⁻¹| ≤ C * 1 := ⟨c⁻¹, by positivity, fun i x => by
    rw [abs_inv, mul_one]
    exact inv_anti₀ hc (hlow i x)⟩
  have main : ∀ n, DomTo n (fun i x => (a i x)⁻¹) fun _ => 1 := by
    intro n
    induction n with
    | zero =>
      refine ⟨hs, fun w hw => ?_⟩
      rw [List.length_eq_zero_iff.1 (Nat.le_zero.1 hw)]
      exact hzero
    | succ n ih =>
      refine ⟨hs, fun w hw => ?_⟩
      cases w with
      | nil => exact hzero
      | cons d w =>
        have hneg : Dom (fun (_ : ι) (_ : E D) => (-1 : ℝ)) fun _ => 1 := (tame_const (τ := ι) (-1)).dom id
        have h1 := ((((hneg.mul (ha.pd d) fun _ => zero_le_one).mono (B := fun _ => 1) fun _ => (mul_one _).le).to n).mul (ih.mul ih)).bound w (by simpa using hw)
        obtain ⟨C, hC, h1⟩ := h1
        refine ⟨C, hC, fun i x => ?_⟩
        rw [pds, pd_inv (ha.smooth i) (h0 i)]
        exact h1 i x
  exact ⟨hs, fun w => (main w.length).bound w le_rfl⟩

theorem Dom.ite (P : ι → Prop) [DecidablePred P] (ha : Dom a A) (hb : Dom b A) (hA : ∀ i, 0 ≤ A i) : Dom (fun i => if P i then a i else b i) A where
  smooth i := by
    split_ifs
    · exact ha.smooth i
    · exact hb.smooth i
  bound w := by
    obtain ⟨C, hC, h⟩ := ha.bound w
    obtain ⟨C', hC', h'⟩ := hb.bound w
    refine ⟨C + C', by positivity, fun i x => ?_⟩
    have h1 := mul_nonneg hC (hA i)
    have h2 := mul_nonneg hC' (hA i)
    rw [add_mul]
    split_ifs
    · exact (h i x).trans (by linarith)
    · exact (h' i x).trans (by linarith)

/-- The error of a formula for functions whose derivatives of high order are bounded. -/
theorem formula_error_high {k : ℕ} (ha : ∀ i, ContDiff ℝ ∞ (a i)) (l : List (ℤ × ℝ)) (N : ℕ) (hk : k ≤ N) (hl : ∀ i ≤ N, moment l i = if i = k then (k.factorial : ℝ) else 0) (d : Fin D) (δ : ι → ℝ) (hδ : ∀ i, 0 < δ i)
    (hd : Dom (fun i => pd d (a i)) A) :
    Dom (fun i x => Order.formula l k d (δ i) (a i) x - ((Order.pd d)^[k] (a i)) x) fun i => A i * δ i ^ (N + 1 - k) where
  smooth i := (formula_smooth _ _ _ _ (ha i)).sub (iter_smooth d k (ha i))
  bound w := by
    obtain ⟨C, hC, h⟩ := hd.bound (w ++ List.replicate N d)
    refine ⟨errorConst l N * C, mul_nonneg (errorConst_nonneg l N) hC, fun i x => ?_⟩
    have e : ∀ (k : ℕ) (u : E D → ℝ), pds (List.replicate k d) u = (Order.pd d)^[k] u := fun k u => by
      have := pds_iter [] d k u
      rw [List.append_nil] at this
      exact this.symm
    have hcomm := pds_iter_comm w d k (ha i)
    have e1 : pds w (fun x => Order.formula l k d (δ i) (a i) x - ((Order.pd d)^[k] (a i)) x) = fun x => Order.formula l k d (δ i) (pds w (a i)) x - ((Order.pd d)^[k] (pds w (a i))) x := by
      have h1 : (fun x => Order.formula l k d (δ i) (a i) x - ((Order.pd d)^[k] (a i)) x) = fun x => Order.formula l k d (δ i) (a i) x + (-1) * ((Order.pd d)^[k] (a i)) x := by funext x; ring
      rw [h1, pds_add w (formula_smooth _ _ _ _ (ha i)) (contDiff_const.mul (iter_smooth d k (ha i))), pds_formula w _ _ _ _ (ha i), pds_cmul w (iter_smooth d k (ha i)), hcomm]
      funext x; ring
    rw [e1]
    have h2 := formula_accurate (line_smooth (pds_smooth w (ha i)) d x) N k hk l hl 0 (δ i) (C * A i) (hδ i) fun q _ z _ => ?_
    · rw [← formula_line, line_iterated] at h2
      simp only [zero_smul, add_zero] at h2
      refine h2.trans (le_of_eq ?_)
      ring
    · rw [line_iterated]
      have := h i (x + z • Pi.single d 1)
      rw [pds_append, e, pds_pd_comm w d (ha i)] at this
      rwa [Function.iterate_succ_apply]

/-! ## Nearness -/

/-- Differences of a function with bounded derivatives. -/
theorem near_cd {m : ℕ} (hm : 1 ≤ m) {k : ℕ} (hk : k = 1 ∨ k = 2) {v : τ → E D → ℝ} (hv : ∀ t, ContDiff ℝ ∞ (v t)) (d : Fin D) (hd : Tame fun t => pd d (v t)) :
    Near (2 * m) (fun i => formula (centralList (2 * m) k) k d (i.1.δ d) (v i.2)) fun t => (pd d)^[k] (v t) where
  error := by
    have hd' : Dom (fun i : Spacing D × τ => pd d (v i.2)) fun _ => 1 := hd.dom Prod.snd
    rcases hk with rfl | rfl
    · refine (formula_error_high (fun i : Spacing D × τ => hv i.2) (centralList (2 * m) 1) (2 * m) (by omega) (fun i hi => central_moment m 1 i (.inl hi)) d (fun i => i.1.δ d) (fun i => i.1.pos d) hd').mono fun i => ?_
      rw [one_mul, Nat.add_sub_cancel]
      exact pow_le_pow_left₀ (i.1.pos d).le (i.1.le d) _
    · refine (formula_error_high (fun i : Spacing D × τ => hv i.2) (centralList (2 * m) 2) (2 * m + 1) (by omega) (fun i hi => central_moment m 2 i (.inr ⟨even_two, by omega, hi⟩)) d (fun i => i.1.δ d) (fun i => i.1.pos d) hd').mono fun i => ?_
      rw [one_mul, show 2 * m + 1 + 1 - 2 = 2 * m by omega]
      exact pow_le_pow_left₀ (i.1.pos d).le (i.1.le d) _
  dom := by
    rcases hk with rfl | rfl
    · exact hd.dom Prod.snd
    · exact (hd.dom Prod.snd).pd d

theorem Near.finsum {σ : Type} {p : ℕ} (s : Finset σ) {u : σ → Spacing D × τ → E D → ℝ} {v : σ → τ → E D → ℝ} (h : ∀ j, Near p (u j) (v j)) : Near p (fun i x => ∑ j ∈ s, u j i x) fun t x => ∑ j ∈ s, v j t x := by
  classical
  induction s using Finset.induction_on with
  | empty => simpa using near_self (tame_const 0)
  | insert j s hj ih => simpa [Finset.sum_insert hj] using (h j).add ih

theorem Near.finprod {σ : Type} {p : ℕ} (s : Finset σ) {u : σ → Spacing D × τ → E D → ℝ} {v : σ → τ → E D → ℝ} (h : ∀ j, Near p (u j) (v j)) : Near p (fun i x => ∏ j ∈ s, u j i x) fun t x => ∏ j ∈ s, v j t x := by
  classical
  induction s using Finset.induction_on with
  | empty => simpa using near_self (tame_const 1)
  | insert j s hj ih => simpa [Finset.prod_insert hj] using (h j).mul ih

/-- Determinants. -/
theorem Near.det {p n : ℕ} {u : Fin n → Fin n → Spacing D × τ → E D → ℝ} {v : Fin n → Fin n → τ → E D → ℝ} (h : ∀ i j, Near p (u i j) (v i j)) :
    Near p (fun q x => (Matrix.of fun i j => u i j q x).det) fun t x => (Matrix.of fun i j => v i j t x).det := by
  simp only [Matrix.det_apply', Matrix.of_apply]
  exact Near.finsum _ fun σ => (near_self (tame_const _)).mul (Near.finprod _ fun i => h (σ i) i)

/-- Adjugates. -/
theorem Near.adjugate {p n : ℕ} {u : Fin n → Fin n → Spacing D × τ → E D → ℝ} {v : Fin n → Fin n → τ → E D → ℝ} (h : ∀ i j, Near p (u i j) (v i j)) (k j : Fin n) :
    Near p (fun q x => (Matrix.of fun i j => u i j q x).adjugate k j) fun t x => (Matrix.of fun i j => v i j t x).adjugate k j := by
  simp only [Matrix.adjugate_apply]
  have hM : ∀ w : Fin n → Fin n → ℝ, (Matrix.of w).updateRow j (Pi.single k 1) = Matrix.of fun i l => if i = j then (Pi.single k 1 : Fin n → ℝ) l else w i l := fun w => by
    ext i l
    by_cases hi : i = j
    · subst hi; simp
    · simp [hi]
  simp only [hM]
  refine Near.det (u := fun i l q x => if i = j then (Pi.single k 1 : Fin n → ℝ) l else u i l q x) (v := fun i l t x => if i = j then (Pi.single k 1 : Fin n → ℝ) l else v i l t x) fun i l => ?_
  by_cases hi : i = j
  · simpa [hi] using near_self (tame_const _)
  · simpa [hi] using h i l

/-- Reciprocals, for small spacings. -/
theorem Near.inv {p : ℕ} (hp : 1 ≤ p) {u : Spacing D × τ → E D → ℝ} {v : τ → E D → ℝ} (h : Near p u v) {c : ℝ} (hc : 0 < c) (hlow : ∀ t x, c ≤ |v t x|) : ∃ h0 : ℝ, 0 < h0 ∧ (∀ i : Spacing D × τ, i.1.h ≤ h0 → ∀ x, u i x ≠ 0) ∧
    ∃ w, Near p w (fun t x => (v t x)⁻¹) ∧ ∀ i : Spacing D × τ, i.1.h ≤ h0 → w i = fun x => (u i x)⁻¹ := by
  classical
  obtain ⟨C, hC, hb⟩ := h.error.bound []
  have h0pos : 0 < c / (2 * (C + 1)) := by positivity
  have hsmall : ∀ i : Spacing D × τ, i.1.h ≤ c / (2 * (C + 1)) → ∀ x, c / 2 ≤ |u i x| := by
    intro i hi x
    have h1 := hb i x
    simp only [pds] at h1
    have h2 : i.1.h ^ p ≤ i.1.h := by
      calc i.1.h ^ p ≤ i.1.h ^ 1 := pow_le_pow_of_le_one i.1.nonneg i.1.small hp
        _ = _ := pow_one _
    have h3 : C * i.1.h ^ p ≤ c / 2 := by
      calc C * i.1.h ^ p ≤ (C + 1) * (c / (2 * (C + 1))) := mul_le_mul (by linarith) (h2.trans hi) (pow_nonneg i.1.nonneg _) (by linarith)
        _ = c / 2 := by field_simp
    have h4 : |v i.2 x| ≤ |u i x| + |u i x - v i.2 x| := by
      have := abs_sub_abs_le_abs_sub (v i.2 x) (u i x)
      rw [abs_sub_comm] at this
      linarith
    linarith [hlow i.2 x]
  have hhp : ∀ i : Spacing D × τ, 0 ≤ i.1.h ^ p := fun i => pow_nonneg i.1.nonneg p
  -- the family continued by its limit
  set a : Spacing D × τ → E D → ℝ := fun i x => (if i.1.h ≤ c / (2 * (C + 1)) then (fun x => u i x - v i.2 x) else fun _ => 0) x + v i.2 x with ha
  have hsub : Dom (fun i x => a i x - v i.2 x) fun i => i.1.h ^ p := by
    have := h.error.ite (fun i => i.1.h ≤ c / (2 * (C + 1))) dom_zero hhp
    convert this using 3
    simp [ha]
  have ha_eq : ∀ i : Spacing D × τ, i.1.h ≤ c / (2 * (C + 1)) → a i = u i := fun i hi => by funext x; simp [ha, hi]
  have ha1 : Dom a fun _ => 1 := by
    have := (hsub.mono (B := fun _ => 1) fun i => pow_le_one₀ i.1.nonneg i.1.small).add h.dom
    convert this using 3
    simp
  have halow : ∀ i x, c / 2 ≤ |a i x| := by
    intro i x
    by_cases hi : i.1.h ≤ c / (2 * (C + 1))
    · rw [ha_eq i hi]; exact hsmall i hi x
    · have : a i x = v i.2 x := by simp [ha, hi]
      rw [this]; linarith [hlow i.2 x]
  have hv0 : ∀ t x, v t x ≠ 0 := fun t x h => by have := hlow t x; rw [h, abs_zero] at this; linarith
  have ha0 : ∀ i x, a i x ≠ 0 := fun i x h => by have := halow i x; rw [h, abs_zero] at this; linarith
  have hainv := ha1.inv (by positivity : 0 < c / 2) halow
  have hvinv : Dom (fun i : Spacing D × τ => fun x => (v i.2 x)⁻¹) fun _ => 1 := h.dom.inv hc fun i x => hlow i.2 x
  refine ⟨_, h0pos, fun i hi x hu => ?_, fun i x => (a i x)⁻¹, ⟨?_, hvinv⟩, fun i hi => by simp only [ha_eq i hi]⟩
  · have := hsmall i hi x; rw [hu, abs_zero] at this; linarith
  · have hneg : Dom (fun (_ : Spacing D × τ) (_ : E D) => (-1 : ℝ)) fun _ => 1 := (tame_const (τ := Unit) (-1)).dom fun _ => ()
    have h1 := (((hneg.mul (hainv.mul hvinv fun _ => zero_le_one) fun _ => zero_le_one).mul hsub fun _ => by norm_num)).mono (B := fun i => i.1.h ^ p) fun i => by simp
    convert h1 using 3 with i x
    have := ha0 i x
    have := hv0 i.2 x
    field_simp
    ring

/-- Entries of inverse matrices, for small spacings. -/
theorem Near.inverse {p n : ℕ} (hp : 1 ≤ p) {u : Fin n → Fin n → Spacing D × τ → E D → ℝ} {v : Fin n → Fin n → τ → E D → ℝ} (h : ∀ i j, Near p (u i j) (v i j)) {c : ℝ} (hc : 0 < c)
    (hlow : ∀ t x, c ≤ |(Matrix.of fun i j => v i j t x).det|) : ∃ h0 : ℝ, 0 < h0 ∧ (∀ i : Spacing D × τ, i.1.h ≤ h0 → ∀ x, (Matrix.of fun k j => u k j i x).det ≠ 0) ∧
    ∃ w : Fin n → Fin n → Spacing D × τ → E D → ℝ, (∀ k j, Near p (w k j) fun t x => (Matrix.of fun i j => v i j t x)⁻¹ k j) ∧
      ∀ k j, ∀ i : Spacing D × τ, i.1.h ≤ h0 → w k j i = fun x => (Matrix.of fun k j => u k j i x)⁻¹ k j := by
  obtain ⟨h0, hpos, hne, w, hw, hwe⟩ := (Near.det h).inv hp hc hlow
  refine ⟨h0, hpos, hne, fun k j i x => w i x * (Matrix.of fun i' j => u i' j i x).adjugate k j, fun k j => ?_, fun k j i hi => ?_⟩
  · have := hw.mul (Near.adjugate h k j)
    simpa [Matrix.inv_def, Ring.inverse_eq_inv'] using this
  · funext x
    simp [Matrix.inv_def, Ring.inverse_eq_inv', hwe i hi]

end OpenSBLI.Order
