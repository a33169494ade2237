import Verif.Lemmas.Convergence5
import Verif.Props.C05_Linear4
import Verif.Props.C88_Convergence

/-!
# C88: the low storage scheme of order four

Linear systems again, with the decimals that rk_LS.py 96-97 contain. They satisfy the conditions of order four up to an error of the size of their last digit, which stays in the
bound; the norm does not grow in spite of it.
-/
namespace OpenSBLI.Order
open Sim

variable {D n : ℕ}

/-- The time step is within the limit of stability of the scheme of order four: `μ d` bounds the sums of the coefficients `Σ_j |M d i j|` of a direction. -/
def StableFourth (order : ℕ) (M : Fin D → Fin n → Fin n → ℝ) (δ : E D) (dt : ℝ) : Prop :=
  ∃ μ : Fin D → ℝ, (∀ d, 0 ≤ μ d) ∧ (∀ d i, ∑ j, |M d i j| ≤ μ d) ∧ dt * ∑ d, μ d * (∑ p ∈ Central.points order, |Central.weight ℝ order 1 p|) / δ d ≤ 10/3

/-- The coefficients of the powers of `dt A` of a step as real numbers. -/
noncomputable def amp4R (j : ℕ) : ℝ := (RK.amp4 j : ℝ)

theorem amp4_mod : Modulus amp4R := by
  obtain ⟨h1, h2, h3, h4, -, h5⟩ := RK.amp4_modulus
  have c1 := (Rat.cast_le (K := ℝ)).2 h1
  have c2 := (Rat.cast_le (K := ℝ)).2 h2
  have c3 := (Rat.cast_le (K := ℝ)).2 h3
  have c4 := (Rat.cast_le (K := ℝ)).2 h4
  have c5 := (Rat.cast_le (K := ℝ)).2 h5
  push_cast at c1 c2 c3 c4 c5
  exact ⟨c1, c2, c3, c4, c5⟩

theorem amp4_exp : NearExp amp4R (1/10^13) := by
  obtain ⟨h1, h2, h3, h4, h5, h6⟩ := RK.amp4_near
  have c1 := (Rat.cast_le (K := ℝ)).2 h1
  have c2 := (Rat.cast_le (K := ℝ)).2 h2
  have c3 := (Rat.cast_le (K := ℝ)).2 h3
  have c4 := (Rat.cast_le (K := ℝ)).2 h4
  have c5 := (Rat.cast_le (K := ℝ)).2 h5
  have c6 := (Rat.cast_le (K := ℝ)).2 h6
  push_cast at c1 c2 c3 c4 c5 c6
  refine ⟨by norm_num, c1, c2, c3, c4, ?_⟩
  rw [amp4R, abs_of_nonneg c5]
  exact c6.trans (by norm_num)

/-- Values of solutions after each step, which are multiplied by `1 + p₁ z + ... + p₅ z⁵` in a step. -/
def Amplified4 (np : Fin D → ℤ) (order : ℕ) (M : Fin D → Fin n → Fin n → ℝ) (δ : E D) (dt : ℝ) (q : ℕ → Sol D n) : Prop :=
  ∃ u : ℕ → Space np n, (∀ k i x, u k (i, x) = q k i x.1) ∧ ∀ k, u (k + 1) = amplify5 amp4R (system order M δ) dt (u k)

/-- A step of the program of the low storage scheme of order four, for periodic boxes. -/
theorem step_amplify_ls4 {S : Setup D n} {I : Interp D} {M : Fin D → Fin n → Fin n → ℝ} {δ : E D} (hn : ∀ d, S.h ≤ S.np d) (hI : IsCentral S I δ) (hM : IsSystem S I M) (dt : ℝ) (full : Sol D n → String → P D → ℝ) (hfull : ∀ q i, full q (S.sol i) = q i) (s0 : TState D n) :
    Amplified4 S.np S.order M δ dt fun k => ((lsStep S.np (fun q i x => (S.rhs i).eval I (memOf (full q)) x) (exchange S.np S.h) dt (RK.lsA4R.zip RK.lsB4R))^[k] s0).q := by
  have hh : 0 ≤ S.h := Int.natCast_nonneg _
  let r0 : RK.LSState (GridSol S.np n) := ⟨restrict S.np s0.q, restrict S.np s0.aux, restrict S.np s0.q⟩
  have run := fun k => C77_grid_values_ls hh (exchange_fills hh hn) (fun q i x => (S.rhs i).eval I (memOf (full q)) x) dt RK.lsA4R RK.lsB4R s0 r0 rfl rfl k
  rw [values_system hn hI hM full hfull] at run
  refine ⟨fun k => toSpace (RK.lsRun RK.lsA4R RK.lsB4R (onValues S.np S.order M δ) id dt k r0).u, fun k i x => ?_, fun k => ?_⟩
  · show toSpace (RK.lsRun RK.lsA4R RK.lsB4R (onValues S.np S.order M δ) id dt k r0).u (i, x) = _
    rw [← run k]
    rfl
  · show toSpace (RK.lsRun RK.lsA4R RK.lsB4R (onValues S.np S.order M δ) id dt (k + 1) r0).u = _
    rw [RK.lsRun_succ']
    rw [RK.C05_order4_linear_amplification]
    rfl

theorem amplified_stability4 {np : Fin D → ℤ} {order : ℕ} {M : Fin D → Fin n → Fin n → ℝ} (hsym : ∀ d i j, M d i j = M d j i) {δ : E D} (hδ : ∀ d, 0 < δ d) {dt : ℝ} (hdt : 0 ≤ dt) (hst : StableFourth order M δ dt)
    {q : ℕ → Sol D n} (hq : Amplified4 np order M δ dt q) (k : ℕ) : ∑ i, ∑ x ∈ gridPoints np, q k i x ^ 2 ≤ ∑ i, ∑ x ∈ gridPoints np, q 0 i x ^ 2 := by
  obtain ⟨u, h1, h2⟩ := hq
  obtain ⟨μ, μ0, hμ, hcfl⟩ := hst
  have hle : ∀ k, ‖u k‖ ≤ ‖u 0‖ := by
    intro k
    induction k with
    | zero => exact le_rfl
    | succ k ih =>
      rw [h2]
      exact (amplify5_norm amp4_mod _ (system_skew _ M hsym δ) _ dt (system_norm _ M hsym μ hμ μ0 δ hδ) hdt hcfl _).trans ih
  have hsq : ∀ k, ‖u k‖ ^ 2 = ∑ i, ∑ x ∈ gridPoints np, q k i x ^ 2 := by
    intro k
    rw [EuclideanSpace.norm_sq_eq, Fintype.sum_prod_type]
    refine Finset.sum_congr rfl fun i _ => ?_
    rw [sum_gridPoints]
    refine Finset.sum_congr rfl fun x _ => ?_
    rw [Real.norm_eq_abs, sq_abs, h1]
  rw [← hsq k, ← hsq 0]
  exact pow_le_pow_left₀ (norm_nonneg _) (hle k) 2

/-- **C88.** With the low storage scheme of order four the sum of the squares of the solution never grows within its limit of stability, which is wider than that of order three, whatever the second register contains at the start. -/
theorem C88_stability_ls4 {S : Setup D n} {I : Interp D} {M : Fin D → Fin n → Fin n → ℝ} (hsym : ∀ d i j, M d i j = M d j i) {δ : E D} (hδ : ∀ d, 0 < δ d) (hn : ∀ d, S.h ≤ S.np d) (hI : IsCentral S I δ)
    (hM : IsSystem S I M) {dt : ℝ} (hdt : 0 ≤ dt) (hst : StableFourth S.order M δ dt) (full : Sol D n → String → P D → ℝ) (hfull : ∀ q i, full q (S.sol i) = q i)
    (s0 : TState D n) (k : ℕ) :
    ∑ i, ∑ x ∈ gridPoints S.np, ((lsStep S.np (fun q i x => (S.rhs i).eval I (memOf (full q)) x) (exchange S.np S.h) dt (RK.lsA4R.zip RK.lsB4R))^[k] s0).q i x ^ 2 ≤
      ∑ i, ∑ x ∈ gridPoints S.np, s0.q i x ^ 2 :=
  amplified_stability4 hsym hδ hdt hst (step_amplify_ls4 hn hI hM dt full hfull s0) k

theorem amplified_convergence4 {m : ℕ} (hm : 1 ≤ m) (M : Fin D → Fin n → Fin n → ℝ) (hsym : ∀ d i j, M d i j = M d j i) (L : E D) (hL : ∀ d, 0 < L d) (U : Fin n → ℝ → E D → ℝ) (hU : Solves M L U) (T : ℝ) :
    ∃ C : ℝ, ∀ sum : ℝ, TimeDerivatives U T sum → ∀ (S : Setup D n) (x₀ δ : E D) (h dt : ℝ), 0 ≤ h → Covers S L δ h → 0 ≤ dt → dt ≤ 1 → StableFourth (2 * m) M δ dt →
      ∀ q : ℕ → Sol D n, Amplified4 S.np (2 * m) M δ dt q → (∀ i x, Grid S.np x → q 0 i x = U i 0 (pos x₀ δ x)) → ∀ k : ℕ, k * dt ≤ T →
        MeanSquare S.np (q k) (fun i x => U i (k * dt) (pos x₀ δ x)) (C * (dt ^ 4 + h ^ (2 * m)) + T * sum / 10 ^ 13) := by
  obtain ⟨C, hC0, hC⟩ := local_error5 hm M L hL U hU T
  refine ⟨T * C, ?_⟩
  intro sum hsum S x₀ δ h dt h0 hcov hdt0 hdt1 hst q hq hq0 k hk
  obtain ⟨u, h1, h2⟩ := hq
  obtain ⟨μ, μ0, hμ, hcfl⟩ := hst
  set v : ℕ → Space S.np n := fun k => onGridPoints S.np x₀ δ fun i => U i (k * dt) with hv
  set N := √(n * (gridPoints S.np).card) with hN
  have err := amplify5_error amp4_mod (system (2 * m) M δ) (system_skew _ M hsym δ) _ dt (system_norm _ M hsym μ hμ μ0 δ fun d => (hcov.fine d).1) hdt0 hcfl u v
    (N * (dt * (C * (dt ^ 4 + h ^ (2 * m)) + sum * (1 / 10 ^ 13)))) k h2 (by
      intro j hj
      refine space_norm _ _ (by have := hsum.1; positivity) fun q => ?_
      have ht : (j : ℝ) * dt + dt ≤ T := by
        refine le_trans ?_ hk
        have : ((j : ℝ) + 1) ≤ k := by exact_mod_cast hj
        nlinarith
      have := hC _ _ _ amp4_exp hsum S.np x₀ δ h dt (j * dt) hcov.box hcov.fine h0 hcov.small hdt0 hdt1 (by positivity) ht q
      simp only [hv]
      rw [show ((j + 1 : ℕ) : ℝ) * dt = j * dt + dt by push_cast; ring]
      exact this)
    (by
      ext ⟨i, x⟩
      rw [h1]
      simp only [hv, onGridPoints, Nat.cast_zero, zero_mul]
      exact hq0 i x.1 x.2) k le_rfl
  have hT : 0 ≤ T := le_trans (by positivity) hk
  have hs := hsum.1
  have e2 : ‖u k - v k‖ ≤ N * (T * C * (dt ^ 4 + h ^ (2 * m)) + T * sum / 10 ^ 13) := by
    refine err.trans ?_
    have : (k : ℝ) * (N * (dt * (C * (dt ^ 4 + h ^ (2 * m)) + sum * (1 / 10 ^ 13)))) = (k * dt) * (N * (C * (dt ^ 4 + h ^ (2 * m)) + sum * (1 / 10 ^ 13))) := by ring
    rw [this]
    refine (mul_le_mul_of_nonneg_right hk (by positivity)).trans (le_of_eq (by ring))
  have e3 := pow_le_pow_left₀ (norm_nonneg _) e2 2
  rw [mul_pow, hN, Real.sq_sqrt (by positivity), EuclideanSpace.norm_sq_eq, Fintype.sum_prod_type] at e3
  unfold MeanSquare
  refine le_trans (le_of_eq ?_) e3
  refine Finset.sum_congr rfl fun i _ => ?_
  rw [sum_gridPoints]
  refine Finset.sum_congr rfl fun x _ => ?_
  rw [Real.norm_eq_abs, sq_abs, PiLp.sub_apply, h1]
  rfl

/-- **C88.** With the scheme of order four the root mean square error is at most `C (dt⁴ + h^(2m)) + 10⁻¹³ T S`, with one constant for all grids and time steps within the limit of stability, where `S` bounds the first four
derivatives of the solution in time. The last term is that of the decimals of the source. -/
theorem C88_convergence_ls4 {m : ℕ} (hm : 1 ≤ m) (M : Fin D → Fin n → Fin n → ℝ) (hsym : ∀ d i j, M d i j = M d j i) (L : E D) (hL : ∀ d, 0 < L d) (U : Fin n → ℝ → E D → ℝ) (hU : Solves M L U) (T : ℝ) :
    ∃ C₀ : ℝ, ∀ sum : ℝ, TimeDerivatives U T sum → ∀ (S : Setup D n) (I : Interp D) (x₀ δ : E D) (h dt : ℝ), S.order = 2 * m → IsCentral S I δ → IsSystem S I M → 0 ≤ h → Covers S L δ h → 0 ≤ dt → dt ≤ 1 →
      StableFourth (2 * m) M δ dt → ∀ (full : Sol D n → String → P D → ℝ), (∀ q i, full q (S.sol i) = q i) → ∀ s0 : TState D n, (∀ i x, Grid S.np x → s0.q i x = U i 0 (pos x₀ δ x)) → ∀ k : ℕ, k * dt ≤ T →
        MeanSquare S.np ((lsStep S.np (fun q i x => (S.rhs i).eval I (memOf (full q)) x) (exchange S.np S.h) dt (RK.lsA4R.zip RK.lsB4R))^[k] s0).q
          (fun i x => U i (k * dt) (pos x₀ δ x)) (C₀ * (dt ^ 4 + h ^ (2 * m)) + T * sum / 10 ^ 13) := by
  obtain ⟨C₀, hC⟩ := amplified_convergence4 hm M hsym L hL U hU T
  refine ⟨C₀, ?_⟩
  intro sum hsum S I x₀ δ h dt hord hI hM h0 hcov hdt0 hdt1 hst full hfull s0 hs0 k hk
  have amp := step_amplify_ls4 hcov.points hI hM dt full hfull s0
  rw [hord] at amp
  exact hC sum hsum S x₀ δ h dt h0 hcov hdt0 hdt1 hst _ amp hs0 k hk

/-- **C88.** So does what the printed program of the scheme of order four computes, at its end and in the files with a number. Partial: as C85, linear systems on periodic boxes whose boundary conditions are the exchanges. -/
theorem C88_text_convergence_ls4_partial {m : ℕ} (hm : 1 ≤ m) (M : Fin D → Fin n → Fin n → ℝ) (hsym : ∀ d i j, M d i j = M d j i) (L : E D) (hL : ∀ d, 0 < L d) (U : Fin n → ℝ → E D → ℝ) (hU : Solves M L U) (time : ℝ) :
    ∃ C : ℝ, ∀ sum : ℝ, TimeDerivatives U time sum → ∀ (T : Text D) (S : Setup D n) (A : Arr → Prop) (pts : Ranges.Kernel D → List (P D)) (inp : Alg.Input (Call D)) (prg : List (Alg.Node (Call D))) (x₀ : E D) (h : ℝ),
      T.Suits S .lowStorage inp A → Program S .lowStorage (T.meaning (T.const prg) 0) pts inp prg → (∀ d, ¬ T.hasClosure d) → inp.stages = 5 → T.table "rkA" = RK.lsA4R → T.table "rkB" = RK.lsB4R →
      S.order = 2 * m → IsSystem S (T.meaning (T.const prg) 0) M → 0 ≤ h → Covers S L (fun d => T.const prg (T.delta d)) h →
      0 ≤ T.const prg "dt" → T.const prg "dt" ≤ 1 → StableFourth (2 * m) M (fun d => T.const prg (T.delta d)) (T.const prg "dt") → inp.niter.toNat * T.const prg "dt" ≤ time →
      ∀ a : Arrays D, (∀ i x, Grid S.np x → T.startState S prg pts (exchange S.np S.h) inp a (.data (S.sol i)) x = U i 0 (pos x₀ (fun d => T.const prg (T.delta d)) x)) →
        let near (a' : Arrays D) (t : ℝ) := MeanSquare S.np (fun i => a' (T.names (.data (S.sol i)))) (fun i x => U i t (pos x₀ (fun d => T.const prg (T.delta d)) x)) (C * (T.const prg "dt" ^ 4 + h ^ (2 * m)) + time * sum / 10 ^ 13)
        (∃ a', T.run prg pts S.sol (exchange S.np S.h) (Alg.runProgram prg) a = some a' ∧ near a' (inp.niter.toNat * T.const prg "dt")) ∧
        ∀ before after o (k : ℤ) e, Alg.runProgram prg = before ++ .write o (some k) e :: after →
          ∃ a', T.run prg pts S.sol (exchange S.np S.h) before a = some a' ∧ near a' (k * T.const prg "dt") := by
  obtain ⟨C, hC⟩ := C88_convergence_ls4 hm M hsym L hL U hU time
  refine ⟨C, ?_⟩
  intro sum hsum T S A pts inp prg x₀ h hS hP hcl hst hA hB hord hM h0 hcov hdt0 hdt1 hstab htime a ha near
  obtain ⟨full, hfull⟩ := program_full hP fun s => T.startState S prg pts (exchange S.np S.h) inp a (.data s)
  have conv := hC sum hsum S (T.meaning (T.const prg) 0) x₀ _ h (T.const prg "dt") hord (central_meaning hS.order hcl _ _) hM h0 hcov hdt0 hdt1 hstab full (fun q i => (hfull q).sol i)
    (stateOf S (T.startState S prg pts (exchange S.np S.h) inp a)) ha
  obtain ⟨⟨a', r1, r2⟩, r3⟩ := C85_ls_partial hS hP RK.lsA4R RK.lsB4R rfl (by rw [hst]; rfl) hA hB (exchange S.np S.h) a full hfull
  refine ⟨⟨a', r1, ?_⟩, fun before after o k e he => ?_⟩
  · have : (fun i => a' (T.names (.data (S.sol i)))) = _ := funext r2
    simp only [near]
    rw [this]
    exact conv _ htime
  · obtain ⟨j, j1, j2, j3, a', s1, s2⟩ := r3 before after o k e he
    refine ⟨a', s1, ?_⟩
    have : (fun i => a' (T.names (.data (S.sol i)))) = _ := funext s2
    simp only [near]
    rw [this, ← j1, Int.cast_natCast]
    refine conv j (le_trans ?_ htime)
    have : (j : ℝ) ≤ inp.niter.toNat := by exact_mod_cast j3
    exact mul_le_mul_of_nonneg_right this hdt0

end OpenSBLI.Order
