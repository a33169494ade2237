import Verif.Lemmas.TimeOrder
import Mathlib.Analysis.Calculus.ContDiff.Deriv

/-!
# Convergence of Runge-Kutta methods

Helper lemmas for C89: from the error of one step to that of many.
-/
namespace OpenSBLI.TimeOrder
open Spec Set Metric

variable {V : Type} [NormedAddCommGroup V] [NormedSpace ℝ V]

/-- Slopes of an explicit method exist. -/
theorem slopes_exist {s : ℕ} (T : Tableau ℝ s) (hT : T.explicit) (F : V → V) (h : ℝ) (u : V) : ∃ k, T.IsSlopes F id h u k := by
  have key : ∀ m : ℕ, ∃ k : Fin s → V, ∀ i : Fin s, i.val < m → k i = F (u + h • ∑ j, T.A i j • k j) := by
    intro m
    induction m with
    | zero => exact ⟨fun _ => 0, fun i hi => absurd hi (Nat.not_lt_zero _)⟩
    | succ m ih =>
      obtain ⟨k, hk⟩ := ih
      by_cases hm : m < s
      · refine ⟨Function.update k ⟨m, hm⟩ (F (u + h • ∑ j, T.A ⟨m, hm⟩ j • k j)), fun i hi => ?_⟩
        have hs : ∀ i : Fin s, i.val ≤ m → ∑ j, T.A i j • Function.update k ⟨m, hm⟩ (F (u + h • ∑ j, T.A ⟨m, hm⟩ j • k j)) j = ∑ j, T.A i j • k j := by
          intro i hi
          refine Finset.sum_congr rfl fun j _ => ?_
          by_cases hj : j = ⟨m, hm⟩
          · subst hj
            rw [hT i _ hi, zero_smul, zero_smul]
          · rw [Function.update_of_ne hj]
        rw [hs i (Nat.lt_succ_iff.1 hi)]
        by_cases he : i = ⟨m, hm⟩
        · subst he
          rw [Function.update_self]
        · rw [Function.update_of_ne he]
          exact hk i (lt_of_le_of_ne (Nat.lt_succ_iff.1 hi) fun e => he (Fin.ext e))
      · exact ⟨k, fun i _ => hk i (i.2.trans_le (not_lt.1 hm))⟩
  obtain ⟨k, hk⟩ := key s
  exact ⟨k, fun i => hk i i.2⟩

/-- Around a compact set a function with two continuous derivatives is bounded with them. -/
theorem tube [FiniteDimensional ℝ V] {F : V → V} {Ω K : Set V} (hΩ : IsOpen Ω) (hF : ContDiffOn ℝ 2 F Ω) (hK : IsCompact K) (hKΩ : K ⊆ Ω) :
    ∃ r, 0 < r ∧ ∃ B L Q, 0 ≤ B ∧ 0 ≤ L ∧ 0 ≤ Q ∧ ∀ p ∈ K, Near F p r B L Q := by
  have : ProperSpace V := FiniteDimensional.proper ℝ V
  obtain ⟨r, hr, hsub⟩ := hK.exists_cthickening_subset_open hΩ hKΩ
  have hC : IsCompact (cthickening r K) := hK.cthickening
  have hF1 : ContDiffOn ℝ 1 (fderiv ℝ F) Ω := hF.fderiv_of_isOpen hΩ (by norm_num)
  obtain ⟨B, hB⟩ := hC.exists_bound_of_continuousOn (hF.continuousOn.mono hsub)
  obtain ⟨L, hL⟩ := hC.exists_bound_of_continuousOn (hF1.continuousOn.mono hsub)
  obtain ⟨Q, hQ⟩ := hC.exists_bound_of_continuousOn ((hF1.continuousOn_fderiv_of_isOpen hΩ le_rfl).mono hsub)
  have hb : ∀ p ∈ K, ball p r ⊆ cthickening r K := fun p hp => (ball_subset_thickening hp r).trans (thickening_subset_cthickening r K)
  have hd : ∀ p ∈ K, ∀ w ∈ ball p r, w ∈ Ω := fun p hp w hw => hsub (hb p hp hw)
  refine ⟨r, hr, |B|, |L|, |Q|, abs_nonneg _, abs_nonneg _, abs_nonneg _, fun p hp => ⟨fun w hw => ?_, fun w hw => ?_, fun w hw => ?_, fun w hw => ?_⟩⟩
  · exact (hF.differentiableOn (by norm_num)).differentiableAt (hΩ.mem_nhds (hd p hp w hw))
  · exact (hB w (hb p hp hw)).trans (le_abs_self B)
  · exact (hL w (hb p hp hw)).trans (le_abs_self L)
  · refine (convex_ball p r).norm_image_sub_le_of_norm_hasFDerivWithin_le (f := fderiv ℝ F) (f' := fderiv ℝ (fderiv ℝ F)) (fun x hx => ?_) (fun x hx => (hQ x (hb p hp hx)).trans (le_abs_self Q)) (mem_ball_self hr) hw
    exact ((hF1.differentiableOn one_ne_zero).differentiableAt (hΩ.mem_nhds (hd p hp x hx))).hasFDerivAt.hasFDerivWithinAt

/-- A solution has one more derivative than the right hand side. -/
theorem solution_smooth {F : V → V} {Ω : Set V} {J : Set ℝ} (hJ : IsOpen J) (hF : ContDiffOn ℝ 3 F Ω) {y : ℝ → V} (hy : ∀ t ∈ J, y t ∈ Ω ∧ HasDerivAt y (F (y t)) t) :
    ContDiffOn ℝ 3 (fun t => F (y t)) J := by
  have up : ∀ n : ℕ, n ≤ 2 → ContDiffOn ℝ n (fun t => F (y t)) J → ContDiffOn ℝ (n + 1 : ℕ) (fun t => F (y t)) J := by
    intro n hn h
    have hy' : ContDiffOn ℝ (n + 1 : ℕ) y J := by
      push_cast
      rw [contDiffOn_succ_iff_deriv_of_isOpen hJ]
      refine ⟨fun t ht => (hy t ht).2.differentiableAt.differentiableWithinAt, by simp, h.congr fun t ht => (hy t ht).2.deriv⟩
    refine (hF.of_le ?_).comp hy' fun t ht => (hy t ht).1
    exact_mod_cast (by omega : n + 1 ≤ 3)
  have h0 : ContDiffOn ℝ 0 (fun t => F (y t)) J := by
    rw [contDiffOn_zero]
    exact hF.continuousOn.comp (fun t ht => (hy t ht).2.continuousAt.continuousWithinAt) fun t ht => (hy t ht).1
  exact_mod_cast up 2 (by norm_num) (up 1 (by norm_num) (up 0 (by norm_num) (by exact_mod_cast h0)))

theorem small (c d : ℝ) (hd : 0 < d) : ∃ h₀, 0 < h₀ ∧ ∀ h, 0 ≤ h → h ≤ h₀ → h * c < d := by
  have hc : 0 < |c| + 1 := by positivity
  refine ⟨d / (|c| + 1), by positivity, fun h h0 h1 => ?_⟩
  rw [le_div_iff₀ hc] at h1
  have h2 := mul_le_mul_of_nonneg_left (le_abs_self c) h0
  rcases h0.eq_or_lt with e | h0
  · rw [← e, zero_mul]; exact hd
  · nlinarith

/-- Errors of steps add up. -/
theorem accumulate {Λ C h : ℝ} (hΛ : 0 ≤ Λ) (hC : 0 ≤ C) (h0 : 0 ≤ h) {e : ℕ → ℝ} (hp : ∀ j, 0 ≤ e j) (he0 : e 0 = 0) (n : ℕ) (hr : ∀ j < n, e j ≤ C * j * Real.exp (Λ * (j * h)) → e (j + 1) ≤ (1 + h * Λ) * e j + C) :
    e n ≤ C * n * Real.exp (Λ * (n * h)) := by
  induction n with
  | zero => simp [he0]
  | succ n ih =>
    have h1 := ih fun j hj => hr j (hj.trans n.lt_succ_self)
    refine (hr n n.lt_succ_self h1).trans ?_
    have h2 : 1 + h * Λ ≤ Real.exp (Λ * h) := by
      have := Real.add_one_le_exp (Λ * h)
      linarith
    have h3 : Real.exp (Λ * ((n + 1 : ℕ) * h)) = Real.exp (Λ * h) * Real.exp (Λ * (n * h)) := by
      rw [← Real.exp_add]
      congr 1
      push_cast
      ring
    have h4 : (1 : ℝ) ≤ Real.exp (Λ * ((n + 1 : ℕ) * h)) := Real.one_le_exp (by positivity)
    have h6 : C ≤ C * Real.exp (Λ * ((n + 1 : ℕ) * h)) := le_mul_of_one_le_right hC h4
    have h7 := mul_le_mul h2 h1 (hp n) (Real.exp_pos _).le
    refine (add_le_add h7 h6).trans (le_of_eq ?_)
    rw [h3]
    push_cast
    ring

/-- An explicit method of order three converges with the third power of the step. -/
theorem converges [FiniteDimensional ℝ V] {s : ℕ} (T : Tableau ℝ s) (hT : T.explicit) (h3 : T.Order3) {Ω : Set V} (hΩ : IsOpen Ω) {F : V → V} (hF : ContDiffOn ℝ 3 F Ω) {y : ℝ → V} {time ε : ℝ} (hε : 0 < ε)
    (hy : ∀ t ∈ Ioo (-ε) (time + ε), y t ∈ Ω ∧ HasDerivAt y (F (y t)) t) :
    ∃ C h₀, 0 < h₀ ∧ ∀ h, 0 ≤ h → h ≤ h₀ → ∀ u : ℕ → V, u 0 = y 0 → (∀ n, ∃ k, T.IsSlopes F id h (u n) k ∧ u (n + 1) = T.result id h (u n) k) → ∀ n : ℕ, n * h ≤ time → ‖u n - y (n * h)‖ ≤ C * h ^ 3 := by
  have hJ : IsOpen (Ioo (-ε) (time + ε)) := isOpen_Ioo
  have hI : Icc (-(ε / 2)) (time + ε / 2) ⊆ Ioo (-ε) (time + ε) := fun t ht => ⟨by linarith [ht.1], by linarith [ht.2]⟩
  -- derivatives of the solution
  have s1 := solution_smooth hJ hF hy
  set y2 := deriv fun t => F (y t) with hy2
  have s2 : ContDiffOn ℝ 2 y2 (Ioo (-ε) (time + ε)) := s1.deriv_of_isOpen hJ (by norm_num)
  set y3 := deriv y2 with hy3
  have s3 : ContDiffOn ℝ 1 y3 (Ioo (-ε) (time + ε)) := s2.deriv_of_isOpen hJ (by norm_num)
  set y4 := deriv y3 with hy4
  have s4 : ContDiffOn ℝ 0 y4 (Ioo (-ε) (time + ε)) := s3.deriv_of_isOpen hJ (by norm_num)
  have d2 : ∀ t ∈ Ioo (-ε) (time + ε), HasDerivAt (fun t => F (y t)) (y2 t) t := fun t ht => ((s1.differentiableOn (by norm_num)).differentiableAt (hJ.mem_nhds ht)).hasDerivAt
  have d3 : ∀ t ∈ Ioo (-ε) (time + ε), HasDerivAt y2 (y3 t) t := fun t ht => ((s2.differentiableOn (by norm_num)).differentiableAt (hJ.mem_nhds ht)).hasDerivAt
  have d4 : ∀ t ∈ Ioo (-ε) (time + ε), HasDerivAt y3 (y4 t) t := fun t ht => ((s3.differentiableOn (by norm_num)).differentiableAt (hJ.mem_nhds ht)).hasDerivAt
  obtain ⟨M2, hM2⟩ := isCompact_Icc.exists_bound_of_continuousOn (s2.continuousOn.mono hI)
  obtain ⟨M3, hM3⟩ := isCompact_Icc.exists_bound_of_continuousOn (s3.continuousOn.mono hI)
  obtain ⟨M4, hM4⟩ := isCompact_Icc.exists_bound_of_continuousOn (s4.continuousOn.mono hI)
  set M := |M2| + |M3| + |M4| with hM
  have hM0 : 0 ≤ M := by positivity
  -- bounds near the solution
  have hyc : ContinuousOn y (Icc (-(ε / 2)) (time + ε / 2)) := fun t ht => (hy t (hI ht)).2.continuousAt.continuousWithinAt
  obtain ⟨r, hr, B, L, Q, hB, hL, hQ, hN⟩ := tube hΩ (hF.of_le (by norm_num)) (isCompact_Icc.image_of_continuousOn hyc) (image_subset_iff.2 fun t ht => (hy t (hI ht)).1)
  have hN' : ∀ t ∈ Icc (-(ε / 2)) (time + ε / 2), Near F (y t) r B L Q := fun t ht => hN _ (mem_image_of_mem y ht)
  -- how small steps have to be
  set cs := ∑ j, |T.c j| with hcs
  have hcs0 : 0 ≤ cs := Finset.sum_nonneg fun _ _ => abs_nonneg _
  obtain ⟨h1, p1, q1⟩ := small 1 1 one_pos
  obtain ⟨h2, p2, q2⟩ := small 1 (ε / 2) (by positivity)
  obtain ⟨h3', p3, q3⟩ := small cs (ε / 2) (by positivity)
  obtain ⟨h4, p4, q4⟩ := small (size T * B) (r / 2) (by positivity)
  obtain ⟨h5, p5, q5⟩ := small (size T * L) (1 / 2) (by positivity)
  obtain ⟨h6, p6, q6⟩ := small (B * cs) r hr
  set H := min h1 (min h2 (min h3' (min h4 (min h5 h6)))) with hH
  have hH0 : 0 < H := by simp [*]
  have hle : ∀ h, h ≤ H → h ≤ h1 ∧ h ≤ h2 ∧ h ≤ h3' ∧ h ≤ h4 ∧ h ≤ h5 ∧ h ≤ h6 := fun h hh => by simpa [hH] using hh
  have cj : ∀ h, 0 ≤ h → ∀ j, |T.c j * h| ≤ h * cs := fun h h0 j => by
    rw [abs_mul, abs_of_nonneg h0, mul_comm]
    exact mul_le_mul_of_nonneg_left (Finset.single_le_sum (f := fun j => |T.c j|) (fun _ _ => abs_nonneg _) (Finset.mem_univ j)) h0
  -- the error of a step
  let ι : Type := {q : ℝ × ℝ × (Fin s → V) // q.1 ∈ Icc 0 time ∧ 0 ≤ q.2.1 ∧ q.2.1 ≤ H ∧ T.IsSlopes F id q.2.1 (y q.1) q.2.2}
  have inI : ∀ t ∈ Icc (0 : ℝ) time, ∀ τ, |τ| ≤ ε / 2 → t + τ ∈ Icc (-(ε / 2)) (time + ε / 2) := fun t ht τ hτ => by
    have := abs_le.1 hτ
    exact ⟨by linarith [ht.1], by linarith [ht.2]⟩
  have inI0 : ∀ t ∈ Icc (0 : ℝ) time, t ∈ Icc (-(ε / 2)) (time + ε / 2) := fun t ht => ⟨by linarith [ht.1], by linarith [ht.2]⟩
  have E := step_error (ι := ι) T (F := F) (y := y) (y2 := y2) (y3 := y3) (y4 := y4) (t := fun q => q.1.1) (h := fun q => q.1.2.1) (k := fun q => q.1.2.2) (a := ε / 2) (r := r) (K := B) (L := L) (Q := Q) (M := M) hT h3
    (fun q => hN' _ (inI0 _ q.2.1)) hr hB hQ hM0 (fun q => q.2.2.1) (fun q => by have := q1 _ q.2.2.1 (hle _ q.2.2.2.1).1; linarith) (fun q => by have := q2 _ q.2.2.1 (hle _ q.2.2.2.1).2.1; linarith)
    (fun q j => (cj _ q.2.2.1 j).trans (q3 _ q.2.2.1 (hle _ q.2.2.2.1).2.2.1).le) (fun q => q4 _ q.2.2.1 (hle _ q.2.2.2.1).2.2.2.1) (fun q => q.2.2.2.2)
    (fun q τ hτ => (hy _ (hI (inI _ q.2.1 τ hτ))).2) (fun q τ hτ => d2 _ (hI (inI _ q.2.1 τ hτ))) (fun q τ hτ => d3 _ (hI (inI _ q.2.1 τ hτ))) (fun q τ hτ => d4 _ (hI (inI _ q.2.1 τ hτ)))
    (fun q => (hM2 _ (inI0 _ q.2.1)).trans (by rw [hM]; linarith [le_abs_self M2, abs_nonneg M3, abs_nonneg M4]))
    (fun q => (hM3 _ (inI0 _ q.2.1)).trans (by rw [hM]; linarith [le_abs_self M3, abs_nonneg M2, abs_nonneg M4]))
    (fun q τ hτ => (hM3 _ (inI _ q.2.1 τ hτ)).trans (by rw [hM]; linarith [le_abs_self M3, abs_nonneg M2, abs_nonneg M4]))
    (fun q τ hτ => (hM4 _ (inI _ q.2.1 τ hτ)).trans (by rw [hM]; linarith [le_abs_self M4, abs_nonneg M2, abs_nonneg M3]))
    (fun q j => by
      have hc := (cj _ q.2.2.1 j).trans (q3 _ q.2.2.1 (hle _ q.2.2.2.1).2.2.1).le
      have := integrate (f := fun τ => y (q.1.1 + τ) - y q.1.1) (f' := fun τ => F (y (q.1.1 + τ))) (a := ε / 2) (K := B) 0 hB (by simp)
        (fun τ hτ => by simpa using ((hy _ (hI (inI _ q.2.1 τ hτ))).2.comp_const_add q.1.1 τ).sub_const (y q.1.1))
        (fun τ hτ => by simpa using (hN' _ (inI _ q.2.1 τ hτ)).value _ (mem_ball_self hr)) _ hc
      rw [mem_ball_iff_norm]
      refine this.trans_lt ?_
      rw [zero_add, pow_one]
      refine (mul_le_mul_of_nonneg_left (cj _ q.2.2.1 j) hB).trans_lt ?_
      have := q6 _ q.2.2.1 (hle _ q.2.2.2.1).2.2.2.2.2
      linarith)
  obtain ⟨C, hC0, hC⟩ := E.nonneg fun q => q.2.2.1
  -- many steps
  set Λ := size T * (2 * L) with hΛ
  have hΛ0 : 0 ≤ Λ := mul_nonneg (size_nonneg T) (by positivity)
  set G := C * |time| * Real.exp (Λ * |time|) with hG
  have hG0 : 0 ≤ G := by positivity
  obtain ⟨h7, p7, q7⟩ := small G (r / 2) (by positivity)
  refine ⟨G, min H h7, lt_min hH0 p7, ?_⟩
  intro h h0 hh u hu0 hu n hn
  have hhH := hh.trans (min_le_left _ _)
  have hl1 : h ≤ 1 := by have := q1 h h0 (hle h hhH).1; linarith
  have tot : ∀ j : ℕ, j ≤ n → C * h ^ 4 * j * Real.exp (Λ * (j * h)) ≤ G * h ^ 3 := by
    intro j hj
    have h8 : (j : ℝ) * h ≤ |time| := by
      have : (j : ℝ) ≤ n := by exact_mod_cast hj
      exact (mul_le_mul_of_nonneg_right this h0).trans (hn.trans (le_abs_self _))
    have h9 : Real.exp (Λ * (j * h)) ≤ Real.exp (Λ * |time|) := Real.exp_le_exp.2 (mul_le_mul_of_nonneg_left h8 hΛ0)
    have h10 := mul_le_mul h8 h9 (Real.exp_pos _).le (abs_nonneg _)
    have h11 := mul_le_mul_of_nonneg_left h10 (mul_nonneg hC0 (pow_nonneg h0 3))
    rw [hG]
    nlinarith
  have acc := accumulate (Λ := Λ) (C := C * h ^ 4) (h := h) hΛ0 (by positivity) h0 (e := fun n => ‖u n - y (n * h)‖) (fun _ => norm_nonneg _) (by simp [hu0]) n (by
    intro j hj hjb
    obtain ⟨k, hk, hk'⟩ := hu j
    have htj : (j : ℝ) * h ∈ Icc 0 time := by
      refine ⟨by positivity, le_trans ?_ hn⟩
      have : (j : ℝ) ≤ n := by exact_mod_cast hj.le
      exact mul_le_mul_of_nonneg_right this h0
    obtain ⟨l, hl⟩ := slopes_exist T hT F h (y (j * h))
    have e1 := hC ⟨(j * h, h, l), htj, h0, hhH, hl⟩
    have hub : ‖u j - y (j * h)‖ < r / 2 := by
      refine (hjb.trans (tot j hj.le)).trans_lt ?_
      have := q7 h h0 (hh.trans (min_le_right _ _))
      have h12 : h ^ 3 ≤ h := by
        calc h ^ 3 ≤ h ^ 1 := pow_le_pow_of_le_one h0 hl1 (by norm_num)
          _ = h := pow_one h
      have := mul_le_mul_of_nonneg_left h12 hG0
      linarith
    have e2 := step_stable T (hN' _ (inI0 _ htj)) hB hL hT h0 (q4 h h0 (hle h hhH).2.2.2.1).le (q5 h h0 (hle h hhH).2.2.2.2.1).le hub (by simpa using hr) hk hl
    show ‖u (j + 1) - y ((j + 1 : ℕ) * h)‖ ≤ (1 + h * Λ) * ‖u j - y (j * h)‖ + C * h ^ 4
    have e3 : u (j + 1) - y ((j + 1 : ℕ) * h) = (T.result id h (u j) k - T.result id h (y (j * h)) l) + (T.result id h (y (j * h)) l - y (j * h + h)) := by
      rw [hk']
      have : ((j + 1 : ℕ) : ℝ) * h = j * h + h := by push_cast; ring
      rw [this]
      abel
    rw [e3]
    exact (norm_add_le _ _).trans (add_le_add e2 e1))
  exact acc.trans (tot n le_rfl)

end OpenSBLI.TimeOrder
