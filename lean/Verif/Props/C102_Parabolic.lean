import Verif.Lemmas.Parabolic
import Verif.Props.C88_Convergence
import Verif.Props.C90_Examples

/-!
# C102: advection and diffusion, point by point

Equations with constant coefficients on periodic boxes and differences of second order: no new maxima or minima, and convergence at every grid point.
-/
namespace OpenSBLI.Order
open Sim

variable {D n : ℕ}

/-- What the right hand sides make of values on periodic boxes. -/
theorem values_walk {S : Setup D n} {I : Interp D} {A K : Fin D → Fin n → ℝ} {δ : E D} (hn : ∀ d, S.h ≤ S.np d) (hI : IsCentral S I δ) (hM : IsParabolic S I A K)
    (full : Sol D n → String → P D → ℝ) (hfull : ∀ q i, full q (S.sol i) = q i) (q0 : Sol D n) :
    (fun u => restrict S.np ((fun q i x => (S.rhs i).eval I (memOf (full q)) x) (complete S.np (exchange S.np S.h) q0 u))) = walk S.np S.order A K δ := by
  have hh : 0 ≤ S.h := Int.natCast_nonneg _
  funext u i x
  show (S.rhs i).eval I (memOf (full _)) x.1 = _
  have hp : ∀ d (p : ℤ), p ∈ Central.points S.order → complete S.np (exchange S.np S.h) q0 u i (Function.update x.1 d (x.1 d + p)) = u i (move d p x) := by
    intro d p hp
    rw [Central.mem_points] at hp
    have hx := x.2
    have hal : Allocated S.np S.h (Function.update x.1 d (x.1 d + p)) := by
      intro e
      have := hx e
      by_cases he : e = d
      · subst he
        rw [Function.update_self]
        simp only [Setup.h]
        omega
      · rw [Function.update_of_ne he]
        omega
    have hw : (fun e => Function.update x.1 d (x.1 d + p) e % S.np e) = (move d p x).1 := by
      funext e
      by_cases he : e = d
      · subst he
        simp [move]
      · simp only [move, Function.update_of_ne he]
        exact Int.emod_eq_of_lt (hx e).1 (hx e).2
    unfold complete
    rw [exchange_image hh hn _ i _ hal, hw, dif_pos (move d p x).2]
  rw [hM, walk_apply]
  refine Finset.sum_congr rfl fun d _ => ?_
  rw [hfull, hI, hI, Central.discretise, Central.discretise]
  rw [Finset.sum_congr rfl fun p h => congrArg (Central.weight ℝ S.order 1 p * ·) (hp d p h), Finset.sum_congr rfl fun p h => congrArg (Central.weight ℝ S.order 2 p * ·) (hp d p h)]

/-- Values of solutions after each step, which are multiplied by `1 + z + z²/2 + z³/6` in a step. -/
def Walked (np : Fin D → ℤ) (order : ℕ) (A K : Fin D → Fin n → ℝ) (δ : E D) (dt : ℝ) (q : ℕ → Sol D n) : Prop := ∀ k, restrict np (q (k + 1)) = advance (walk np order A K δ) dt (restrict np (q k))

/-- A step of the program, for periodic boxes. -/
theorem step_walked {S : Setup D n} {I : Interp D} {A K : Fin D → Fin n → ℝ} {δ : E D} (hn : ∀ d, S.h ≤ S.np d) (hI : IsCentral S I δ) (hM : IsParabolic S I A K) (dt : ℝ)
    (full : Sol D n → String → P D → ℝ) (hfull : ∀ q i, full q (S.sol i) = q i) (s0 : TState D n) :
    Walked S.np S.order A K δ dt fun k => ((rkStep S.np (fun q i x => (S.rhs i).eval I (memOf (full q)) x) (exchange S.np S.h) dt [(2/3, 1/4), (5/12, 3/20), (3/5, 3/5)])^[k] s0).q := by
  have hh : 0 ≤ S.h := Int.natCast_nonneg _
  let r0 : RK.State (GridSol S.np n) := ⟨restrict S.np s0.q, restrict S.np s0.q, restrict S.np s0.q⟩
  have run := fun k => C77_grid_values hh (exchange_fills hh hn) (fun q i x => (S.rhs i).eval I (memOf (full q)) x) dt s0 r0 rfl k
  rw [values_walk hn hI hM full hfull] at run
  intro k
  simp only [run]
  rw [RK.run_succ', RK.C03_linear_amplification]
  rfl

/-- A step of the program of a low storage scheme, for periodic boxes. -/
theorem step_walked_ls {S : Setup D n} {I : Interp D} {A K : Fin D → Fin n → ℝ} {δ : E D} (hn : ∀ d, S.h ≤ S.np d) (hI : IsCentral S I δ) (hM : IsParabolic S I A K) (dt : ℝ) {As Bs : List ℝ}
    (hAB : LowStorage3 As Bs) (full : Sol D n → String → P D → ℝ) (hfull : ∀ q i, full q (S.sol i) = q i) (s0 : TState D n) :
    Walked S.np S.order A K δ dt fun k => ((lsStep S.np (fun q i x => (S.rhs i).eval I (memOf (full q)) x) (exchange S.np S.h) dt (As.zip Bs))^[k] s0).q := by
  have hh : 0 ≤ S.h := Int.natCast_nonneg _
  let r0 : RK.LSState (GridSol S.np n) := ⟨restrict S.np s0.q, restrict S.np s0.aux, restrict S.np s0.q⟩
  have run := fun k => C77_grid_values_ls hh (exchange_fills hh hn) (fun q i x => (S.rhs i).eval I (memOf (full q)) x) dt As Bs s0 r0 rfl rfl k
  rw [values_walk hn hI hM full hfull] at run
  intro k
  simp only [run]
  rw [RK.lsRun_succ']
  rcases hAB with ⟨rfl, rfl⟩ | ⟨rfl, rfl⟩
  · rw [RK.C05_linear_amplification]
    rfl
  · rw [RK.C05_ssp_linear_amplification]
    rfl

theorem walk_const {np : Fin D → ℤ} (A K : Fin D → Fin n → ℝ) (δ : E D) (c : Fin n → ℝ) : walk np 2 A K δ (fun i _ => c i) = 0 := by
  funext i x
  rw [walk_two]
  refine Finset.sum_eq_zero fun d _ => ?_
  ring

theorem walked_principle {np : Fin D → ℤ} {A K : Fin D → Fin n → ℝ} {δ : E D} (hδ : ∀ d, 0 < δ d) {dt : ℝ} (hdt : 0 ≤ dt) (hlim : Diffusive A K δ dt) {q : ℕ → Sol D n} (hq : Walked np 2 A K δ dt q) {i : Fin n}
    {lo hi : ℝ} (h0 : ∀ x, Grid np x → lo ≤ q 0 i x ∧ q 0 i x ≤ hi) (k : ℕ) : ∀ x, Grid np x → lo ≤ q k i x ∧ q k i x ≤ hi := by
  have hc : advance (walk np 2 A K δ) dt (fun _ _ => (lo + hi) / 2) = fun _ _ => (lo + hi) / 2 := by
    simp only [advance, walk_const A K δ fun _ => (lo + hi) / 2, map_zero, smul_zero, add_zero]
  -- a single component
  let only (w : GridSol np n) : GridSol np n := fun j x => if j = i then w j x else (lo + hi) / 2
  have hboth : ∀ v w : GridSol np n, (∀ x, v i x = w i x) → ∀ x, walk np 2 A K δ v i x = walk np 2 A K δ w i x := by
    intro v w h x
    simp only [walk_two, h]
  have hadv : ∀ v w : GridSol np n, (∀ x, v i x = w i x) → ∀ x, advance (walk np 2 A K δ) dt v i x = advance (walk np 2 A K δ) dt w i x := by
    intro v w h x
    have h1 := hboth v w h
    have h2 := hboth _ _ h1
    have h3 := hboth _ _ h2
    simp only [advance, Pi.add_apply, Pi.smul_apply, h, h1, h2, h3]
  induction k with
  | zero => exact h0
  | succ k ih =>
    intro x hx
    have hb : Bounded ((hi - lo) / 2) (only (restrict np (q k)) - fun _ _ => (lo + hi) / 2) := by
      intro j y
      simp only [Pi.sub_apply, only]
      split
      · rename_i hj
        subst hj
        have := ih y.1 y.2
        rw [abs_le]
        constructor <;> simp only [restrict] <;> linarith [this.1, this.2]
      · have := ih y.1 y.2
        rw [sub_self, abs_zero]
        linarith [this.1, this.2]
    have hs := advance_bounded hδ hdt hlim hb i ⟨x, hx⟩
    rw [advance_sub, hc] at hs
    have he := congrFun (congrFun (hq k) i) ⟨x, hx⟩
    have hr := hadv (only (restrict np (q k))) (restrict np (q k)) (fun y => by simp [only]) ⟨x, hx⟩
    simp only [Pi.sub_apply, hr, ← he, restrict] at hs
    obtain ⟨h1, h2⟩ := abs_le.1 hs
    constructor <;> linarith

/-- **C102.** Within the limits no component ever leaves the interval of its initial values, whatever they are and whatever the number of steps. -/
theorem C102_principle {S : Setup D n} {I : Interp D} {A K : Fin D → Fin n → ℝ} {δ : E D} (hδ : ∀ d, 0 < δ d) (hn : ∀ d, S.h ≤ S.np d) (hord : S.order = 2) (hI : IsCentral S I δ)
    (hM : IsParabolic S I A K) {dt : ℝ} (hdt : 0 ≤ dt) (hlim : Diffusive A K δ dt) (full : Sol D n → String → P D → ℝ) (hfull : ∀ q i, full q (S.sol i) = q i) (s0 : TState D n) (i : Fin n) (lo hi : ℝ)
    (h0 : ∀ x, Grid S.np x → lo ≤ s0.q i x ∧ s0.q i x ≤ hi) (k : ℕ) (x : P D) (hx : Grid S.np x) :
    let q := ((rkStep S.np (fun q i x => (S.rhs i).eval I (memOf (full q)) x) (exchange S.np S.h) dt [(2/3, 1/4), (5/12, 3/20), (3/5, 3/5)])^[k] s0).q
    lo ≤ q i x ∧ q i x ≤ hi := by
  have hw := step_walked hn hI hM dt full hfull s0
  rw [hord] at hw
  exact walked_principle hδ hdt hlim hw h0 k x hx

/-- **C102.** Nor with the low storage schemes of order three, both of them: for linear equations their limit is that of Euler's method. -/
theorem C102_principle_ls {S : Setup D n} {I : Interp D} {A K : Fin D → Fin n → ℝ} {δ : E D} (hδ : ∀ d, 0 < δ d) (hn : ∀ d, S.h ≤ S.np d) (hord : S.order = 2) (hI : IsCentral S I δ)
    (hM : IsParabolic S I A K) {dt : ℝ} (hdt : 0 ≤ dt) (hlim : Diffusive A K δ dt) {As Bs : List ℝ} (hAB : LowStorage3 As Bs) (full : Sol D n → String → P D → ℝ) (hfull : ∀ q i, full q (S.sol i) = q i)
    (s0 : TState D n) (i : Fin n) (lo hi : ℝ) (h0 : ∀ x, Grid S.np x → lo ≤ s0.q i x ∧ s0.q i x ≤ hi) (k : ℕ) (x : P D) (hx : Grid S.np x) :
    let q := ((lsStep S.np (fun q i x => (S.rhs i).eval I (memOf (full q)) x) (exchange S.np S.h) dt (As.zip Bs))^[k] s0).q
    lo ≤ q i x ∧ q i x ≤ hi := by
  have hw := step_walked_ls hn hI hM dt hAB full hfull s0
  rw [hord] at hw
  exact walked_principle hδ hdt hlim hw h0 k x hx

theorem walked_convergence (A K : Fin D → Fin n → ℝ) (L : E D) (hL : ∀ d, 0 < L d) (U : Fin n → ℝ → E D → ℝ) (hU : SolvesParabolic A K L U) (T : ℝ) :
    ∃ C : ℝ, ∀ (S : Setup D n) (x₀ δ : E D) (h dt : ℝ), 0 ≤ h → Covers S L δ h → 0 ≤ dt → dt ≤ 1 → Diffusive A K δ dt →
      ∀ q : ℕ → Sol D n, Walked S.np 2 A K δ dt q → (∀ i x, Grid S.np x → q 0 i x = U i 0 (pos x₀ δ x)) → ∀ k : ℕ, k * dt ≤ T →
        Within S.np (q k) (fun i x => U i (k * dt) (pos x₀ δ x)) (C * (dt ^ 3 + h ^ 2)) := by
  obtain ⟨C, hC0, hC⟩ := p_local_error (m := 1) le_rfl A K L hL U hU T
  refine ⟨T * C, ?_⟩
  intro S x₀ δ h dt h0 hcov hdt0 hdt1 hlim q hq hq0 k hk i x hx
  set v : ℕ → GridSol S.np n := fun k => sampled S.np x₀ δ fun i => U i (k * dt) with hv
  have err := advance_error (fun d => (hcov.fine d).1) hdt0 hlim (fun k => restrict S.np (q k)) v (C * (dt * (dt ^ 3 + h ^ 2))) k hq (by
      intro j hj
      have ht : (j : ℝ) * dt + dt ≤ T := by
        refine le_trans ?_ hk
        have : ((j : ℝ) + 1) ≤ k := by exact_mod_cast hj
        nlinarith
      have := hC S.np x₀ δ h dt (j * dt) hcov.box hcov.fine h0 hcov.small hdt0 hdt1 (by positivity) ht
      simp only [hv]
      rw [show ((j + 1 : ℕ) : ℝ) * dt = j * dt + dt by push_cast; ring]
      exact this)
    (by
      funext i x
      simp only [hv, sampled, Nat.cast_zero, zero_mul, restrict]
      exact hq0 i x.1 x.2) k le_rfl i ⟨x, hx⟩
  refine le_trans err ?_
  have : (k : ℝ) * (C * (dt * (dt ^ 3 + h ^ 2))) = (k * dt) * (C * (dt ^ 3 + h ^ 2)) := by ring
  rw [this]
  exact (mul_le_mul_of_nonneg_right hk (by positivity)).trans (le_of_eq (by ring))

/-- **C102.** The solution the program computes from the exact initial values converges at every grid point to the solution of the differential equations: after any number of steps up to time `T` no value is further away
than `C (dt³ + h²)`, with one constant for all grids and time steps within the limits. -/
theorem C102_convergence (A K : Fin D → Fin n → ℝ) (L : E D) (hL : ∀ d, 0 < L d) (U : Fin n → ℝ → E D → ℝ) (hU : SolvesParabolic A K L U) (T : ℝ) :
    ∃ C : ℝ, ∀ (S : Setup D n) (I : Interp D) (x₀ δ : E D) (h dt : ℝ), S.order = 2 → IsCentral S I δ → IsParabolic S I A K → 0 ≤ h → Covers S L δ h → 0 ≤ dt → dt ≤ 1 → Diffusive A K δ dt →
      ∀ (full : Sol D n → String → P D → ℝ), (∀ q i, full q (S.sol i) = q i) → ∀ s0 : TState D n, (∀ i x, Grid S.np x → s0.q i x = U i 0 (pos x₀ δ x)) → ∀ k : ℕ, k * dt ≤ T →
        Within S.np ((rkStep S.np (fun q i x => (S.rhs i).eval I (memOf (full q)) x) (exchange S.np S.h) dt [(2/3, 1/4), (5/12, 3/20), (3/5, 3/5)])^[k] s0).q
          (fun i x => U i (k * dt) (pos x₀ δ x)) (C * (dt ^ 3 + h ^ 2)) := by
  obtain ⟨C, hC⟩ := walked_convergence A K L hL U hU T
  refine ⟨C, ?_⟩
  intro S I x₀ δ h dt hord hI hM h0 hcov hdt0 hdt1 hlim full hfull s0 hs0 k hk
  have hw := step_walked hcov.points hI hM dt full hfull s0
  rw [hord] at hw
  exact hC S x₀ δ h dt h0 hcov hdt0 hdt1 hlim _ hw hs0 k hk

/-- **C102.** So does the solution computed with the low storage schemes of order three. -/
theorem C102_convergence_ls (A K : Fin D → Fin n → ℝ) (L : E D) (hL : ∀ d, 0 < L d) (U : Fin n → ℝ → E D → ℝ) (hU : SolvesParabolic A K L U) (T : ℝ) :
    ∃ C : ℝ, ∀ (S : Setup D n) (I : Interp D) (x₀ δ : E D) (h dt : ℝ) (As Bs : List ℝ), LowStorage3 As Bs → S.order = 2 → IsCentral S I δ → IsParabolic S I A K → 0 ≤ h → Covers S L δ h → 0 ≤ dt → dt ≤ 1 →
      Diffusive A K δ dt → ∀ (full : Sol D n → String → P D → ℝ), (∀ q i, full q (S.sol i) = q i) → ∀ s0 : TState D n, (∀ i x, Grid S.np x → s0.q i x = U i 0 (pos x₀ δ x)) → ∀ k : ℕ, k * dt ≤ T →
        Within S.np ((lsStep S.np (fun q i x => (S.rhs i).eval I (memOf (full q)) x) (exchange S.np S.h) dt (As.zip Bs))^[k] s0).q
          (fun i x => U i (k * dt) (pos x₀ δ x)) (C * (dt ^ 3 + h ^ 2)) := by
  obtain ⟨C, hC⟩ := walked_convergence A K L hL U hU T
  refine ⟨C, ?_⟩
  intro S I x₀ δ h dt As Bs hAB hord hI hM h0 hcov hdt0 hdt1 hlim full hfull s0 hs0 k hk
  have hw := step_walked_ls hcov.points hI hM dt hAB full hfull s0
  rw [hord] at hw
  exact hC S x₀ δ h dt h0 hcov hdt0 hdt1 hlim _ hw hs0 k hk

/-- **C102.** So does what the printed program computes, at its end and in the files with a number, which are written at multiples of the time step. Partial: as C85, equations with constant coefficients on periodic boxes whose
boundary conditions are the exchanges. -/
theorem C102_text_partial (A K : Fin D → Fin n → ℝ) (L : E D) (hL : ∀ d, 0 < L d) (U : Fin n → ℝ → E D → ℝ) (hU : SolvesParabolic A K L U) (time : ℝ) :
    ∃ C : ℝ, ∀ (T : Text D) (S : Setup D n) (arrs : Arr → Prop) (pts : Ranges.Kernel D → List (P D)) (inp : Alg.Input (Call D)) (prg : List (Alg.Node (Call D))) (x₀ : E D) (h : ℝ),
      T.Suits S .rk inp arrs → Program S .rk (T.meaning (T.const prg) 0) pts inp prg → (∀ d, ¬ T.hasClosure d) → inp.stages = 3 → T.table "rknew" = [2/3, 5/12, 3/5] → T.table "rkold" = [1/4, 3/20, 3/5] →
      S.order = 2 → IsParabolic S (T.meaning (T.const prg) 0) A K → 0 ≤ h → Covers S L (fun d => T.const prg (T.delta d)) h →
      0 ≤ T.const prg "dt" → T.const prg "dt" ≤ 1 → Diffusive A K (fun d => T.const prg (T.delta d)) (T.const prg "dt") → inp.niter.toNat * T.const prg "dt" ≤ time →
      ∀ a : Arrays D, (∀ i x, Grid S.np x → T.startState S prg pts (exchange S.np S.h) inp a (.data (S.sol i)) x = U i 0 (pos x₀ (fun d => T.const prg (T.delta d)) x)) →
        let near (a' : Arrays D) (t : ℝ) := Within S.np (fun i => a' (T.names (.data (S.sol i)))) (fun i x => U i t (pos x₀ (fun d => T.const prg (T.delta d)) x)) (C * (T.const prg "dt" ^ 3 + h ^ 2))
        (∃ a', T.run prg pts S.sol (exchange S.np S.h) (Alg.runProgram prg) a = some a' ∧ near a' (inp.niter.toNat * T.const prg "dt")) ∧
        ∀ before after o (k : ℤ) e, Alg.runProgram prg = before ++ .write o (some k) e :: after →
          ∃ a', T.run prg pts S.sol (exchange S.np S.h) before a = some a' ∧ near a' (k * T.const prg "dt") := by
  obtain ⟨C, hC⟩ := C102_convergence A K L hL U hU time
  refine ⟨C, ?_⟩
  intro T S arrs pts inp prg x₀ h hS hP hcl hst hnew hold hord hM h0 hcov hdt0 hdt1 hlim htime a ha near
  obtain ⟨full, hfull⟩ := program_full hP fun s => T.startState S prg pts (exchange S.np S.h) inp a (.data s)
  have conv := hC S (T.meaning (T.const prg) 0) x₀ _ h (T.const prg "dt") hord (central_meaning hS.order hcl _ _) hM h0 hcov hdt0 hdt1 hlim full (fun q i => (hfull q).sol i)
    (stateOf S (T.startState S prg pts (exchange S.np S.h) inp a)) ha
  obtain ⟨⟨a', r1, r2⟩, r3⟩ := C85_rk_partial hS hP hst hnew hold (exchange S.np S.h) a full hfull
  refine ⟨⟨a', r1, ?_⟩, fun before after o k e he => ?_⟩
  · have : (fun i => a' (T.names (.data (S.sol i)))) = _ := funext r2
    simp only [near]
    rw [this]
    exact conv _ htime
  · obtain ⟨j, j1, j2, j3, a', s1, s2⟩ := r3 before after o k e he
    refine ⟨a', s1, ?_⟩
    have : (fun i => a' (T.names (.data (S.sol i)))) = _ := funext s2
    simp only [near]
    rw [this, ← j1, Int.cast_natCast]
    refine conv j (le_trans ?_ htime)
    have : (j : ℝ) ≤ inp.niter.toNat := by exact_mod_cast j3
    exact mul_le_mul_of_nonneg_right this hdt0

end OpenSBLI.Order
