import Verif.Lemmas.Convergence
import Verif.Props.C05_Linear
import Verif.Props.C77_GridLs
import Verif.Props.C85_SimulationText

/-!
# C88: convergence to the solution of the differential equations

For linear systems with constant symmetric coefficients on periodic boxes, everything together: the generated program, its text, the Runge-Kutta scheme and
the central differences of any order.
-/
namespace OpenSBLI.Order
open Sim

variable {D n : ℕ}

/-- The norm of values on the grid that are bounded pointwise. -/
theorem space_norm {np : Fin D → ℤ} (w : Space np n) (b : ℝ) (hb : 0 ≤ b) (h : ∀ q, |w q| ≤ b) : ‖w‖ ≤ √(n * (gridPoints np).card) * b := by
  rw [EuclideanSpace.norm_eq]
  have : √(n * (gridPoints np).card) * b = √(n * (gridPoints np).card * b ^ 2) := by
    rw [Real.sqrt_mul (by positivity) (b ^ 2), Real.sqrt_sq hb]
  rw [this]
  refine Real.sqrt_le_sqrt ?_
  calc ∑ q, ‖w q‖ ^ 2 ≤ ∑ _q : Fin n × GP np, b ^ 2 := Finset.sum_le_sum fun q _ => by rw [Real.norm_eq_abs]; exact pow_le_pow_left₀ (abs_nonneg _) (h q) 2
    _ = _ := by
      rw [Finset.sum_const, Finset.card_univ, Fintype.card_prod, Fintype.card_fin, nsmul_eq_mul, Fintype.card_of_subtype (gridPoints np) (mem_gridPoints np)]
      push_cast
      rfl

/-- The values of components on the grid as an element of the space with the sum of squares. -/
noncomputable def toSpace {np : Fin D → ℤ} (u : GridSol np n) : Space np n := WithLp.toLp 2 fun q => u q.1 q.2

theorem space_norm_sq {np : Fin D → ℤ} (u : GridSol np n) : ‖toSpace u‖ ^ 2 = ∑ i, ∑ x : GP np, u i x ^ 2 := by
  rw [EuclideanSpace.norm_sq_eq, Fintype.sum_prod_type]
  simp [toSpace]

theorem sum_gridPoints {np : Fin D → ℤ} (g : P D → ℝ) : ∑ x ∈ gridPoints np, g x = ∑ x : GP np, g x.1 := Finset.sum_subtype _ (mem_gridPoints np) g

/-- The discretised system on values on the grid. -/
noncomputable def onValues (np : Fin D → ℤ) (order : ℕ) (M : Fin D → Fin n → Fin n → ℝ) (δ : E D) : GridSol np n →ₗ[ℝ] GridSol np n where
  toFun u := fun i x => system order M δ (toSpace u) (i, x)
  map_add' u v := by
    funext i x
    have : toSpace (u + v) = toSpace u + toSpace v := rfl
    rw [this, map_add]
    rfl
  map_smul' c u := by
    funext i x
    have : toSpace (c • u) = c • toSpace u := rfl
    rw [this, map_smul]
    rfl

/-- What the right hand sides make of values on periodic boxes. -/
theorem values_system {S : Setup D n} {I : Interp D} {M : Fin D → Fin n → Fin n → ℝ} {δ : E D} (hn : ∀ d, S.h ≤ S.np d) (hI : IsCentral S I δ) (hM : IsSystem S I M)
    (full : Sol D n → String → P D → ℝ) (hfull : ∀ q i, full q (S.sol i) = q i) (q0 : Sol D n) :
    (fun u => restrict S.np ((fun q i x => (S.rhs i).eval I (memOf (full q)) x) (complete S.np (exchange S.np S.h) q0 u))) = onValues S.np S.order M δ := by
  have hh : 0 ≤ S.h := Int.natCast_nonneg _
  funext u i x
  show (S.rhs i).eval I (memOf (full _)) x.1 = system S.order M δ (toSpace u) (i, x)
  rw [hM, system_apply]
  refine Finset.sum_congr rfl fun d _ => Finset.sum_congr rfl fun j _ => ?_
  rw [hfull, hI, Central.discretise, pow_one]
  congr 2
  refine Finset.sum_congr rfl fun p hp => ?_
  rw [Central.mem_points] at hp
  congr 1
  have hx := x.2
  have hal : Allocated S.np S.h (Function.update x.1 d (x.1 d + p)) := by
    intro e
    have := hx e
    by_cases he : e = d
    · subst he
      rw [Function.update_self]
      simp only [Setup.h]
      omega
    · rw [Function.update_of_ne he]
      omega
  have hw : (fun e => Function.update x.1 d (x.1 d + p) e % S.np e) = (move d p x).1 := by
    funext e
    by_cases he : e = d
    · subst he
      simp [move]
    · simp only [move, Function.update_of_ne he]
      exact Int.emod_eq_of_lt (hx e).1 (hx e).2
  unfold complete
  rw [exchange_image hh hn _ j _ hal, hw, dif_pos (move d p x).2]
  rfl

/-- Values of solutions after each step, which are multiplied by `1 + z + z²/2 + z³/6` in a step. -/
def Amplified (np : Fin D → ℤ) (order : ℕ) (M : Fin D → Fin n → Fin n → ℝ) (δ : E D) (dt : ℝ) (q : ℕ → Sol D n) : Prop :=
  ∃ u : ℕ → Space np n, (∀ k i x, u k (i, x) = q k i x.1) ∧ ∀ k, u (k + 1) = amplify (system order M δ) dt (u k)

/-- A step of the program, for periodic boxes. -/
theorem step_amplify {S : Setup D n} {I : Interp D} {M : Fin D → Fin n → Fin n → ℝ} {δ : E D} (hn : ∀ d, S.h ≤ S.np d) (hI : IsCentral S I δ) (hM : IsSystem S I M) (dt : ℝ)
    (full : Sol D n → String → P D → ℝ) (hfull : ∀ q i, full q (S.sol i) = q i) (s0 : TState D n) :
    Amplified S.np S.order M δ dt fun k => ((rkStep S.np (fun q i x => (S.rhs i).eval I (memOf (full q)) x) (exchange S.np S.h) dt [(2/3, 1/4), (5/12, 3/20), (3/5, 3/5)])^[k] s0).q := by
  have hh : 0 ≤ S.h := Int.natCast_nonneg _
  let r0 : RK.State (GridSol S.np n) := ⟨restrict S.np s0.q, restrict S.np s0.q, restrict S.np s0.q⟩
  have run := fun k => C77_grid_values hh (exchange_fills hh hn) (fun q i x => (S.rhs i).eval I (memOf (full q)) x) dt s0 r0 rfl k
  rw [values_system hn hI hM full hfull] at run
  refine ⟨fun k => toSpace (RK.run (onValues S.np S.order M δ) id dt k r0).new, fun k i x => ?_, fun k => ?_⟩
  · show toSpace (RK.run (onValues S.np S.order M δ) id dt k r0).new (i, x) = _
    rw [← run k]
    rfl
  · show toSpace (RK.run (onValues S.np S.order M δ) id dt (k + 1) r0).new = _
    rw [RK.run_succ', RK.C03_linear_amplification]
    rfl

/-- The low storage schemes of order three, rk_LS.py 75-92. -/
def LowStorage3 (A C : List ℝ) : Prop := (A = RK.lsA3 ∧ C = RK.lsB3) ∨ (A = RK.sspA ∧ C = RK.sspB)

/-- A step of the program of a low storage scheme, for periodic boxes. -/
theorem step_amplify_ls {S : Setup D n} {I : Interp D} {M : Fin D → Fin n → Fin n → ℝ} {δ : E D} (hn : ∀ d, S.h ≤ S.np d) (hI : IsCentral S I δ) (hM : IsSystem S I M) (dt : ℝ) {A C : List ℝ}
    (hAC : LowStorage3 A C) (full : Sol D n → String → P D → ℝ) (hfull : ∀ q i, full q (S.sol i) = q i) (s0 : TState D n) :
    Amplified S.np S.order M δ dt fun k => ((lsStep S.np (fun q i x => (S.rhs i).eval I (memOf (full q)) x) (exchange S.np S.h) dt (A.zip C))^[k] s0).q := by
  have hh : 0 ≤ S.h := Int.natCast_nonneg _
  let r0 : RK.LSState (GridSol S.np n) := ⟨restrict S.np s0.q, restrict S.np s0.aux, restrict S.np s0.q⟩
  have run := fun k => C77_grid_values_ls hh (exchange_fills hh hn) (fun q i x => (S.rhs i).eval I (memOf (full q)) x) dt A C s0 r0 rfl rfl k
  rw [values_system hn hI hM full hfull] at run
  refine ⟨fun k => toSpace (RK.lsRun A C (onValues S.np S.order M δ) id dt k r0).u, fun k i x => ?_, fun k => ?_⟩
  · show toSpace (RK.lsRun A C (onValues S.np S.order M δ) id dt k r0).u (i, x) = _
    rw [← run k]
    rfl
  · show toSpace (RK.lsRun A C (onValues S.np S.order M δ) id dt (k + 1) r0).u = _
    rw [RK.lsRun_succ']
    rcases hAC with ⟨rfl, rfl⟩ | ⟨rfl, rfl⟩
    · rw [RK.C05_linear_amplification]
      rfl
    · rw [RK.C05_ssp_linear_amplification]
      rfl

theorem amplified_stability {np : Fin D → ℤ} {order : ℕ} {M : Fin D → Fin n → Fin n → ℝ} (hsym : ∀ d i j, M d i j = M d j i) {δ : E D} (hδ : ∀ d, 0 < δ d) {dt : ℝ} (hdt : 0 ≤ dt) (hst : Stable order M δ dt)
    {q : ℕ → Sol D n} (hq : Amplified np order M δ dt q) (k : ℕ) : ∑ i, ∑ x ∈ gridPoints np, q k i x ^ 2 ≤ ∑ i, ∑ x ∈ gridPoints np, q 0 i x ^ 2 := by
  obtain ⟨u, h1, h2⟩ := hq
  obtain ⟨μ, μ0, hμ, hcfl⟩ := hst
  have hle : ∀ k, ‖u k‖ ≤ ‖u 0‖ := by
    intro k
    induction k with
    | zero => exact le_rfl
    | succ k ih =>
      rw [h2]
      exact (amplify_norm _ (system_skew _ M hsym δ) _ dt (system_norm _ M hsym μ hμ μ0 δ hδ) hdt hcfl _).trans ih
  have hsq : ∀ k, ‖u k‖ ^ 2 = ∑ i, ∑ x ∈ gridPoints np, q k i x ^ 2 := by
    intro k
    rw [EuclideanSpace.norm_sq_eq, Fintype.sum_prod_type]
    refine Finset.sum_congr rfl fun i _ => ?_
    rw [sum_gridPoints]
    refine Finset.sum_congr rfl fun x _ => ?_
    rw [Real.norm_eq_abs, sq_abs, h1]
  rw [← hsq k, ← hsq 0]
  exact pow_le_pow_left₀ (norm_nonneg _) (hle k) 2

/-- C88: within the limit of stability the sum of the squares of the solution never grows, whatever the initial values and the number of steps. -/
theorem C88_stability {S : Setup D n} {I : Interp D} {M : Fin D → Fin n → Fin n → ℝ} (hsym : ∀ d i j, M d i j = M d j i) {δ : E D} (hδ : ∀ d, 0 < δ d) (hn : ∀ d, S.h ≤ S.np d) (hI : IsCentral S I δ)
    (hM : IsSystem S I M) {dt : ℝ} (hdt : 0 ≤ dt) (hst : Stable S.order M δ dt) (full : Sol D n → String → P D → ℝ) (hfull : ∀ q i, full q (S.sol i) = q i) (s0 : TState D n) (k : ℕ) :
    ∑ i, ∑ x ∈ gridPoints S.np, ((rkStep S.np (fun q i x => (S.rhs i).eval I (memOf (full q)) x) (exchange S.np S.h) dt [(2/3, 1/4), (5/12, 3/20), (3/5, 3/5)])^[k] s0).q i x ^ 2 ≤
      ∑ i, ∑ x ∈ gridPoints S.np, s0.q i x ^ 2 :=
  amplified_stability hsym hδ hdt hst (step_amplify hn hI hM dt full hfull s0) k

/-- C88: nor does it with the low storage schemes of order three, whatever their second register contains at the start. -/
theorem C88_stability_ls {S : Setup D n} {I : Interp D} {M : Fin D → Fin n → Fin n → ℝ} (hsym : ∀ d i j, M d i j = M d j i) {δ : E D} (hδ : ∀ d, 0 < δ d) (hn : ∀ d, S.h ≤ S.np d) (hI : IsCentral S I δ)
    (hM : IsSystem S I M) {dt : ℝ} (hdt : 0 ≤ dt) (hst : Stable S.order M δ dt) {A C : List ℝ} (hAC : LowStorage3 A C) (full : Sol D n → String → P D → ℝ) (hfull : ∀ q i, full q (S.sol i) = q i)
    (s0 : TState D n) (k : ℕ) :
    ∑ i, ∑ x ∈ gridPoints S.np, ((lsStep S.np (fun q i x => (S.rhs i).eval I (memOf (full q)) x) (exchange S.np S.h) dt (A.zip C))^[k] s0).q i x ^ 2 ≤
      ∑ i, ∑ x ∈ gridPoints S.np, s0.q i x ^ 2 :=
  amplified_stability hsym hδ hdt hst (step_amplify_ls hn hI hM dt hAC full hfull s0) k

theorem amplified_convergence {m : ℕ} (hm : 1 ≤ m) (M : Fin D → Fin n → Fin n → ℝ) (hsym : ∀ d i j, M d i j = M d j i) (L : E D) (hL : ∀ d, 0 < L d) (U : Fin n → ℝ → E D → ℝ) (hU : Solves M L U) (T : ℝ) :
    ∃ C : ℝ, ∀ (S : Setup D n) (x₀ δ : E D) (h dt : ℝ), 0 ≤ h → Covers S L δ h → 0 ≤ dt → dt ≤ 1 → Stable (2 * m) M δ dt →
      ∀ q : ℕ → Sol D n, Amplified S.np (2 * m) M δ dt q → (∀ i x, Grid S.np x → q 0 i x = U i 0 (pos x₀ δ x)) → ∀ k : ℕ, k * dt ≤ T →
        MeanSquare S.np (q k) (fun i x => U i (k * dt) (pos x₀ δ x)) (C * (dt ^ 3 + h ^ (2 * m))) := by
  obtain ⟨C, hC0, hC⟩ := local_error hm M L hL U hU T
  refine ⟨T * C, ?_⟩
  intro S x₀ δ h dt h0 hcov hdt0 hdt1 hst q hq hq0 k hk
  obtain ⟨u, h1, h2⟩ := hq
  obtain ⟨μ, μ0, hμ, hcfl⟩ := hst
  set v : ℕ → Space S.np n := fun k => onGridPoints S.np x₀ δ fun i => U i (k * dt) with hv
  set N := √(n * (gridPoints S.np).card) with hN
  have err := amplify_error (system (2 * m) M δ) (system_skew _ M hsym δ) _ dt (system_norm _ M hsym μ hμ μ0 δ fun d => (hcov.fine d).1) hdt0 hcfl u v
    (N * (C * (dt * (dt ^ 3 + h ^ (2 * m))))) k h2 (by
      intro j hj
      refine space_norm _ _ (by positivity) fun q => ?_
      have ht : (j : ℝ) * dt + dt ≤ T := by
        refine le_trans ?_ hk
        have : ((j : ℝ) + 1) ≤ k := by exact_mod_cast hj
        nlinarith
      have := hC S.np x₀ δ h dt (j * dt) hcov.box hcov.fine h0 hcov.small hdt0 hdt1 (by positivity) ht q
      simp only [hv]
      rw [show ((j + 1 : ℕ) : ℝ) * dt = j * dt + dt by push_cast; ring]
      exact this)
    (by
      ext ⟨i, x⟩
      rw [h1]
      simp only [hv, onGridPoints, Nat.cast_zero, zero_mul]
      exact hq0 i x.1 x.2) k le_rfl
  have hT : 0 ≤ T := le_trans (by positivity) hk
  have e2 : ‖u k - v k‖ ≤ N * (T * C * (dt ^ 3 + h ^ (2 * m))) := by
    refine err.trans ?_
    have : (k : ℝ) * (N * (C * (dt * (dt ^ 3 + h ^ (2 * m))))) = (k * dt) * (N * (C * (dt ^ 3 + h ^ (2 * m)))) := by ring
    rw [this]
    refine (mul_le_mul_of_nonneg_right hk (by positivity)).trans (le_of_eq (by ring))
  have e3 := pow_le_pow_left₀ (norm_nonneg _) e2 2
  rw [mul_pow, hN, Real.sq_sqrt (by positivity), EuclideanSpace.norm_sq_eq, Fintype.sum_prod_type] at e3
  unfold MeanSquare
  refine le_trans (le_of_eq ?_) e3
  refine Finset.sum_congr rfl fun i _ => ?_
  rw [sum_gridPoints]
  refine Finset.sum_congr rfl fun x _ => ?_
  rw [Real.norm_eq_abs, sq_abs, PiLp.sub_apply, h1]
  rfl

/-- C88: the solution the program computes from the exact initial values converges to the solution of the differential equations: after any number of steps up
to time `T` the root mean square error is at most `C (dt³ + h^(2m))`, with one constant for all grids and time steps within the limit of stability. -/
theorem C88_convergence {m : ℕ} (hm : 1 ≤ m) (M : Fin D → Fin n → Fin n → ℝ) (hsym : ∀ d i j, M d i j = M d j i) (L : E D) (hL : ∀ d, 0 < L d) (U : Fin n → ℝ → E D → ℝ) (hU : Solves M L U) (T : ℝ) :
    ∃ C : ℝ, ∀ (S : Setup D n) (I : Interp D) (x₀ δ : E D) (h dt : ℝ), S.order = 2 * m → IsCentral S I δ → IsSystem S I M → 0 ≤ h → Covers S L δ h → 0 ≤ dt → dt ≤ 1 → Stable (2 * m) M δ dt →
      ∀ (full : Sol D n → String → P D → ℝ), (∀ q i, full q (S.sol i) = q i) → ∀ s0 : TState D n, (∀ i x, Grid S.np x → s0.q i x = U i 0 (pos x₀ δ x)) → ∀ k : ℕ, k * dt ≤ T →
        MeanSquare S.np ((rkStep S.np (fun q i x => (S.rhs i).eval I (memOf (full q)) x) (exchange S.np S.h) dt [(2/3, 1/4), (5/12, 3/20), (3/5, 3/5)])^[k] s0).q
          (fun i x => U i (k * dt) (pos x₀ δ x)) (C * (dt ^ 3 + h ^ (2 * m))) := by
  obtain ⟨C, hC⟩ := amplified_convergence hm M hsym L hL U hU T
  refine ⟨C, ?_⟩
  intro S I x₀ δ h dt hord hI hM h0 hcov hdt0 hdt1 hst full hfull s0 hs0 k hk
  have amp := step_amplify hcov.points hI hM dt full hfull s0
  rw [hord] at amp
  exact hC S x₀ δ h dt h0 hcov hdt0 hdt1 hst _ amp hs0 k hk

/-- C88: so does the solution computed with the low storage schemes of order three. -/
theorem C88_convergence_ls {m : ℕ} (hm : 1 ≤ m) (M : Fin D → Fin n → Fin n → ℝ) (hsym : ∀ d i j, M d i j = M d j i) (L : E D) (hL : ∀ d, 0 < L d) (U : Fin n → ℝ → E D → ℝ) (hU : Solves M L U) (T : ℝ) :
    ∃ C₀ : ℝ, ∀ (S : Setup D n) (I : Interp D) (x₀ δ : E D) (h dt : ℝ) (A C : List ℝ), LowStorage3 A C → S.order = 2 * m → IsCentral S I δ → IsSystem S I M → 0 ≤ h → Covers S L δ h → 0 ≤ dt → dt ≤ 1 →
      Stable (2 * m) M δ dt → ∀ (full : Sol D n → String → P D → ℝ), (∀ q i, full q (S.sol i) = q i) → ∀ s0 : TState D n, (∀ i x, Grid S.np x → s0.q i x = U i 0 (pos x₀ δ x)) → ∀ k : ℕ, k * dt ≤ T →
        MeanSquare S.np ((lsStep S.np (fun q i x => (S.rhs i).eval I (memOf (full q)) x) (exchange S.np S.h) dt (A.zip C))^[k] s0).q
          (fun i x => U i (k * dt) (pos x₀ δ x)) (C₀ * (dt ^ 3 + h ^ (2 * m))) := by
  obtain ⟨C₀, hC⟩ := amplified_convergence hm M hsym L hL U hU T
  refine ⟨C₀, ?_⟩
  intro S I x₀ δ h dt A C hAC hord hI hM h0 hcov hdt0 hdt1 hst full hfull s0 hs0 k hk
  have amp := step_amplify_ls hcov.points hI hM dt hAC full hfull s0
  rw [hord] at amp
  exact hC S x₀ δ h dt h0 hcov hdt0 hdt1 hst _ amp hs0 k hk

/-- C88: so does what the printed program computes, at its end and in the files with a number, which are written at multiples of the time step. Partial: as C85, linear systems on periodic boxes whose boundary conditions are the exchanges. -/
theorem C88_text_convergence_partial {m : ℕ} (hm : 1 ≤ m) (M : Fin D → Fin n → Fin n → ℝ) (hsym : ∀ d i j, M d i j = M d j i) (L : E D) (hL : ∀ d, 0 < L d) (U : Fin n → ℝ → E D → ℝ) (hU : Solves M L U) (time : ℝ) :
    ∃ C : ℝ, ∀ (T : Text D) (S : Setup D n) (A : Arr → Prop) (pts : Ranges.Kernel D → List (P D)) (inp : Alg.Input (Call D)) (prg : List (Alg.Node (Call D))) (x₀ : E D) (h : ℝ),
      T.Suits S .rk inp A → Program S .rk (T.meaning (T.const prg) 0) pts inp prg → (∀ d, ¬ T.hasClosure d) → inp.stages = 3 → T.table "rknew" = [2/3, 5/12, 3/5] → T.table "rkold" = [1/4, 3/20, 3/5] →
      S.order = 2 * m → IsSystem S (T.meaning (T.const prg) 0) M → 0 ≤ h → Covers S L (fun d => T.const prg (T.delta d)) h →
      0 ≤ T.const prg "dt" → T.const prg "dt" ≤ 1 → Stable (2 * m) M (fun d => T.const prg (T.delta d)) (T.const prg "dt") → inp.niter.toNat * T.const prg "dt" ≤ time →
      ∀ a : Arrays D, (∀ i x, Grid S.np x → T.startState S prg pts (exchange S.np S.h) inp a (.data (S.sol i)) x = U i 0 (pos x₀ (fun d => T.const prg (T.delta d)) x)) →
        let near (a' : Arrays D) (t : ℝ) := MeanSquare S.np (fun i => a' (T.names (.data (S.sol i)))) (fun i x => U i t (pos x₀ (fun d => T.const prg (T.delta d)) x)) (C * (T.const prg "dt" ^ 3 + h ^ (2 * m)))
        (∃ a', T.run prg pts S.sol (exchange S.np S.h) (Alg.runProgram prg) a = some a' ∧ near a' (inp.niter.toNat * T.const prg "dt")) ∧
        ∀ before after o (k : ℤ) e, Alg.runProgram prg = before ++ .write o (some k) e :: after →
          ∃ a', T.run prg pts S.sol (exchange S.np S.h) before a = some a' ∧ near a' (k * T.const prg "dt") := by
  obtain ⟨C, hC⟩ := C88_convergence hm M hsym L hL U hU time
  refine ⟨C, ?_⟩
  intro T S A pts inp prg x₀ h hS hP hcl hst hnew hold hord hM h0 hcov hdt0 hdt1 hstab htime a ha near
  obtain ⟨full, hfull⟩ := program_full hP fun s => T.startState S prg pts (exchange S.np S.h) inp a (.data s)
  have conv := hC S (T.meaning (T.const prg) 0) x₀ _ h (T.const prg "dt") hord (central_meaning hS.order hcl _ _) hM h0 hcov hdt0 hdt1 hstab full (fun q i => (hfull q).sol i)
    (stateOf S (T.startState S prg pts (exchange S.np S.h) inp a)) ha
  obtain ⟨⟨a', r1, r2⟩, r3⟩ := C85_rk_partial hS hP hst hnew hold (exchange S.np S.h) a full hfull
  refine ⟨⟨a', r1, ?_⟩, fun before after o k e he => ?_⟩
  · have : (fun i => a' (T.names (.data (S.sol i)))) = _ := funext r2
    simp only [near]
    rw [this]
    exact conv _ htime
  · obtain ⟨j, j1, j2, j3, a', s1, s2⟩ := r3 before after o k e he
    refine ⟨a', s1, ?_⟩
    have : (fun i => a' (T.names (.data (S.sol i)))) = _ := funext s2
    simp only [near]
    rw [this, ← j1, Int.cast_natCast]
    refine conv j (le_trans ?_ htime)
    have : (j : ℝ) ≤ inp.niter.toNat := by exact_mod_cast j3
    exact mul_le_mul_of_nonneg_right this hdt0

/-- C88: and the printed program of a low storage scheme of order three, at its end and in the files with a number, which are written at multiples of the time step. Partial: as C85, linear systems on periodic boxes whose boundary conditions are the exchanges. -/
theorem C88_text_convergence_ls_partial {m : ℕ} (hm : 1 ≤ m) (M : Fin D → Fin n → Fin n → ℝ) (hsym : ∀ d i j, M d i j = M d j i) (L : E D) (hL : ∀ d, 0 < L d) (U : Fin n → ℝ → E D → ℝ) (hU : Solves M L U) (time : ℝ) :
    ∃ C : ℝ, ∀ (T : Text D) (S : Setup D n) (A : Arr → Prop) (pts : Ranges.Kernel D → List (P D)) (inp : Alg.Input (Call D)) (prg : List (Alg.Node (Call D))) (x₀ : E D) (h : ℝ) (As Bs : List ℝ), LowStorage3 As Bs →
      T.Suits S .lowStorage inp A → Program S .lowStorage (T.meaning (T.const prg) 0) pts inp prg → (∀ d, ¬ T.hasClosure d) → inp.stages = 3 → T.table "rkA" = As → T.table "rkB" = Bs →
      S.order = 2 * m → IsSystem S (T.meaning (T.const prg) 0) M → 0 ≤ h → Covers S L (fun d => T.const prg (T.delta d)) h →
      0 ≤ T.const prg "dt" → T.const prg "dt" ≤ 1 → Stable (2 * m) M (fun d => T.const prg (T.delta d)) (T.const prg "dt") → inp.niter.toNat * T.const prg "dt" ≤ time →
      ∀ a : Arrays D, (∀ i x, Grid S.np x → T.startState S prg pts (exchange S.np S.h) inp a (.data (S.sol i)) x = U i 0 (pos x₀ (fun d => T.const prg (T.delta d)) x)) →
        let near (a' : Arrays D) (t : ℝ) := MeanSquare S.np (fun i => a' (T.names (.data (S.sol i)))) (fun i x => U i t (pos x₀ (fun d => T.const prg (T.delta d)) x)) (C * (T.const prg "dt" ^ 3 + h ^ (2 * m)))
        (∃ a', T.run prg pts S.sol (exchange S.np S.h) (Alg.runProgram prg) a = some a' ∧ near a' (inp.niter.toNat * T.const prg "dt")) ∧
        ∀ before after o (k : ℤ) e, Alg.runProgram prg = before ++ .write o (some k) e :: after →
          ∃ a', T.run prg pts S.sol (exchange S.np S.h) before a = some a' ∧ near a' (k * T.const prg "dt") := by
  obtain ⟨C, hC⟩ := C88_convergence_ls hm M hsym L hL U hU time
  refine ⟨C, ?_⟩
  intro T S A pts inp prg x₀ h As Bs hAB hS hP hcl hst hA hB hord hM h0 hcov hdt0 hdt1 hstab htime a ha near
  have hlen : As.length = 3 ∧ Bs.length = 3 := by rcases hAB with ⟨rfl, rfl⟩ | ⟨rfl, rfl⟩ <;> exact ⟨rfl, rfl⟩
  obtain ⟨full, hfull⟩ := program_full hP fun s => T.startState S prg pts (exchange S.np S.h) inp a (.data s)
  have conv := hC S (T.meaning (T.const prg) 0) x₀ _ h (T.const prg "dt") As Bs hAB hord (central_meaning hS.order hcl _ _) hM h0 hcov hdt0 hdt1 hstab full (fun q i => (hfull q).sol i)
    (stateOf S (T.startState S prg pts (exchange S.np S.h) inp a)) ha
  obtain ⟨⟨a', r1, r2⟩, r3⟩ := C85_ls_partial hS hP As Bs (hlen.1.trans hlen.2.symm) (by rw [hst, hlen.1]; rfl) hA hB (exchange S.np S.h) a full hfull
  refine ⟨⟨a', r1, ?_⟩, fun before after o k e he => ?_⟩
  · have : (fun i => a' (T.names (.data (S.sol i)))) = _ := funext r2
    simp only [near]
    rw [this]
    exact conv _ htime
  · obtain ⟨j, j1, j2, j3, a', s1, s2⟩ := r3 before after o k e he
    refine ⟨a', s1, ?_⟩
    have : (fun i => a' (T.names (.data (S.sol i)))) = _ := funext s2
    simp only [near]
    rw [this, ← j1, Int.cast_natCast]
    refine conv j (le_trans ?_ htime)
    have : (j : ℝ) ≤ inp.niter.toNat := by exact_mod_cast j3
    exact mul_le_mul_of_nonneg_right this hdt0

end OpenSBLI.Order
