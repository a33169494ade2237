import Verif.Lemmas.Parabolic5
import Verif.Props.C88_Fourth
import Verif.Props.C102_Parabolic

/-!
# C102: the low storage scheme of order four

Advection and diffusion again, with the decimals that rk_LS.py 96-97 contain. Written in powers of `1 + z` their amplification has no negative coefficients, so that its limit is that of
Euler's method too.
-/
namespace OpenSBLI.Order
open Sim

variable {D n : ℕ}

theorem amp4_shares_rat : 0 ≤ 1 - RK.amp4 1 + RK.amp4 2 - RK.amp4 3 + RK.amp4 4 - RK.amp4 5 ∧ 0 ≤ RK.amp4 1 - 2 * RK.amp4 2 + 3 * RK.amp4 3 - 4 * RK.amp4 4 + 5 * RK.amp4 5 ∧
    0 ≤ RK.amp4 2 - 3 * RK.amp4 3 + 6 * RK.amp4 4 - 10 * RK.amp4 5 ∧ 0 ≤ RK.amp4 3 - 4 * RK.amp4 4 + 10 * RK.amp4 5 ∧ 0 ≤ RK.amp4 4 - 5 * RK.amp4 5 ∧ 0 ≤ RK.amp4 5 := by
  decide +kernel

theorem amp4_shares : Shares amp4R := by
  obtain ⟨h0, h1, h2, h3, h4, h5⟩ := amp4_shares_rat
  have c0 := (Rat.cast_le (K := ℝ)).2 h0
  have c1 := (Rat.cast_le (K := ℝ)).2 h1
  have c2 := (Rat.cast_le (K := ℝ)).2 h2
  have c3 := (Rat.cast_le (K := ℝ)).2 h3
  have c4 := (Rat.cast_le (K := ℝ)).2 h4
  have c5 := (Rat.cast_le (K := ℝ)).2 h5
  push_cast at c0 c1 c2 c3 c4 c5
  exact ⟨c0, c1, c2, c3, c4, c5⟩

/-- Values of solutions after each step, which are multiplied by `1 + p₁ z + ... + p₅ z⁵` in a step. -/
def Walked4 (np : Fin D → ℤ) (order : ℕ) (A K : Fin D → Fin n → ℝ) (δ : E D) (dt : ℝ) (q : ℕ → Sol D n) : Prop := ∀ k, restrict np (q (k + 1)) = advance5 amp4R (walk np order A K δ) dt (restrict np (q k))

/-- A step of the program of the low storage scheme of order four, for periodic boxes. -/
theorem step_walked_ls4 {S : Setup D n} {I : Interp D} {A K : Fin D → Fin n → ℝ} {δ : E D} (hn : ∀ d, S.h ≤ S.np d) (hI : IsCentral S I δ) (hM : IsParabolic S I A K) (dt : ℝ)
    (full : Sol D n → String → P D → ℝ) (hfull : ∀ q i, full q (S.sol i) = q i) (s0 : TState D n) :
    Walked4 S.np S.order A K δ dt fun k => ((lsStep S.np (fun q i x => (S.rhs i).eval I (memOf (full q)) x) (exchange S.np S.h) dt (RK.lsA4R.zip RK.lsB4R))^[k] s0).q := by
  have hh : 0 ≤ S.h := Int.natCast_nonneg _
  let r0 : RK.LSState (GridSol S.np n) := ⟨restrict S.np s0.q, restrict S.np s0.aux, restrict S.np s0.q⟩
  have run := fun k => C77_grid_values_ls hh (exchange_fills hh hn) (fun q i x => (S.rhs i).eval I (memOf (full q)) x) dt RK.lsA4R RK.lsB4R s0 r0 rfl rfl k
  rw [values_walk hn hI hM full hfull] at run
  intro k
  simp only [run]
  rw [RK.lsRun_succ', RK.C05_order4_linear_amplification]
  rfl

theorem walked_principle4 {np : Fin D → ℤ} {A K : Fin D → Fin n → ℝ} {δ : E D} (hδ : ∀ d, 0 < δ d) {dt : ℝ} (hdt : 0 ≤ dt) (hlim : Diffusive A K δ dt) {q : ℕ → Sol D n} (hq : Walked4 np 2 A K δ dt q) {i : Fin n}
    {lo hi : ℝ} (h0 : ∀ x, Grid np x → lo ≤ q 0 i x ∧ q 0 i x ≤ hi) (k : ℕ) : ∀ x, Grid np x → lo ≤ q k i x ∧ q k i x ≤ hi := by
  have hc : advance5 amp4R (walk np 2 A K δ) dt (fun _ _ => (lo + hi) / 2) = fun _ _ => (lo + hi) / 2 := by
    simp only [advance5, walk_const A K δ fun _ => (lo + hi) / 2, map_zero, smul_zero, add_zero]
  -- a single component
  let only (w : GridSol np n) : GridSol np n := fun j x => if j = i then w j x else (lo + hi) / 2
  have hboth : ∀ v w : GridSol np n, (∀ x, v i x = w i x) → ∀ x, walk np 2 A K δ v i x = walk np 2 A K δ w i x := by
    intro v w h x
    simp only [walk_two, h]
  have hadv : ∀ v w : GridSol np n, (∀ x, v i x = w i x) → ∀ x, advance5 amp4R (walk np 2 A K δ) dt v i x = advance5 amp4R (walk np 2 A K δ) dt w i x := by
    intro v w h x
    have h1 := hboth v w h
    have h2 := hboth _ _ h1
    have h3 := hboth _ _ h2
    have h4 := hboth _ _ h3
    have h5 := hboth _ _ h4
    simp only [advance5, Pi.add_apply, Pi.smul_apply, h, h1, h2, h3, h4, h5]
  induction k with
  | zero => exact h0
  | succ k ih =>
    intro x hx
    have hb : Bounded ((hi - lo) / 2) (only (restrict np (q k)) - fun _ _ => (lo + hi) / 2) := by
      intro j y
      simp only [Pi.sub_apply, only]
      split
      · rename_i hj
        subst hj
        have := ih y.1 y.2
        rw [abs_le]
        constructor <;> simp only [restrict] <;> linarith [this.1, this.2]
      · have := ih y.1 y.2
        rw [sub_self, abs_zero]
        linarith [this.1, this.2]
    have hs := advance5_bounded amp4_shares hδ hdt hlim hb i ⟨x, hx⟩
    rw [advance5_sub, hc] at hs
    have he := congrFun (congrFun (hq k) i) ⟨x, hx⟩
    have hr := hadv (only (restrict np (q k))) (restrict np (q k)) (fun y => by simp [only]) ⟨x, hx⟩
    simp only [Pi.sub_apply, hr, ← he, restrict] at hs
    obtain ⟨h1, h2⟩ := abs_le.1 hs
    constructor <;> linarith

/-- **C102.** With the low storage scheme of order four no component leaves the interval of its initial values either, within the same limits and whatever the second register contains at the start. -/
theorem C102_principle_ls4 {S : Setup D n} {I : Interp D} {A K : Fin D → Fin n → ℝ} {δ : E D} (hδ : ∀ d, 0 < δ d) (hn : ∀ d, S.h ≤ S.np d) (hord : S.order = 2) (hI : IsCentral S I δ)
    (hM : IsParabolic S I A K) {dt : ℝ} (hdt : 0 ≤ dt) (hlim : Diffusive A K δ dt) (full : Sol D n → String → P D → ℝ) (hfull : ∀ q i, full q (S.sol i) = q i) (s0 : TState D n) (i : Fin n) (lo hi : ℝ)
    (h0 : ∀ x, Grid S.np x → lo ≤ s0.q i x ∧ s0.q i x ≤ hi) (k : ℕ) (x : P D) (hx : Grid S.np x) :
    let q := ((lsStep S.np (fun q i x => (S.rhs i).eval I (memOf (full q)) x) (exchange S.np S.h) dt (RK.lsA4R.zip RK.lsB4R))^[k] s0).q
    lo ≤ q i x ∧ q i x ≤ hi := by
  have hw := step_walked_ls4 hn hI hM dt full hfull s0
  rw [hord] at hw
  exact walked_principle4 hδ hdt hlim hw h0 k x hx

theorem walked_convergence4 (A K : Fin D → Fin n → ℝ) (L : E D) (hL : ∀ d, 0 < L d) (U : Fin n → ℝ → E D → ℝ) (hU : SolvesParabolic A K L U) (T : ℝ) :
    ∃ C : ℝ, ∀ sum : ℝ, TimeDerivatives U T sum → ∀ (S : Setup D n) (x₀ δ : E D) (h dt : ℝ), 0 ≤ h → Covers S L δ h → 0 ≤ dt → dt ≤ 1 → Diffusive A K δ dt →
      ∀ q : ℕ → Sol D n, Walked4 S.np 2 A K δ dt q → (∀ i x, Grid S.np x → q 0 i x = U i 0 (pos x₀ δ x)) → ∀ k : ℕ, k * dt ≤ T →
        Within S.np (q k) (fun i x => U i (k * dt) (pos x₀ δ x)) (C * (dt ^ 4 + h ^ 2) + T * sum / 10 ^ 13) := by
  obtain ⟨C, hC0, hC⟩ := p_local_error5 (m := 1) le_rfl A K L hL U hU T
  refine ⟨T * C, ?_⟩
  intro sum hsum S x₀ δ h dt h0 hcov hdt0 hdt1 hlim q hq hq0 k hk i x hx
  have hs := hsum.1
  set v : ℕ → GridSol S.np n := fun k => sampled S.np x₀ δ fun i => U i (k * dt) with hv
  have err := advance5_error amp4_shares (fun d => (hcov.fine d).1) hdt0 hlim (fun k => restrict S.np (q k)) v (dt * (C * (dt ^ 4 + h ^ 2) + sum * (1 / 10 ^ 13))) k hq (by
      intro j hj
      have ht : (j : ℝ) * dt + dt ≤ T := by
        refine le_trans ?_ hk
        have : ((j : ℝ) + 1) ≤ k := by exact_mod_cast hj
        nlinarith
      have := hC _ _ _ amp4_exp hsum S.np x₀ δ h dt (j * dt) hcov.box hcov.fine h0 hcov.small hdt0 hdt1 (by positivity) ht
      simp only [hv]
      rw [show ((j + 1 : ℕ) : ℝ) * dt = j * dt + dt by push_cast; ring]
      exact this)
    (by
      funext i x
      simp only [hv, sampled, Nat.cast_zero, zero_mul, restrict]
      exact hq0 i x.1 x.2) k le_rfl i ⟨x, hx⟩
  refine le_trans err ?_
  have : (k : ℝ) * (dt * (C * (dt ^ 4 + h ^ 2) + sum * (1 / 10 ^ 13))) = (k * dt) * (C * (dt ^ 4 + h ^ 2) + sum * (1 / 10 ^ 13)) := by ring
  rw [this]
  exact (mul_le_mul_of_nonneg_right hk (by positivity)).trans (le_of_eq (by ring))

/-- **C102.** With the scheme of order four no value is further away from the solution of the differential equations than `C (dt⁴ + h²) + 10⁻¹³ T S`, where `S` bounds the first four derivatives of the solution in time. The last
term is that of the decimals of the source. -/
theorem C102_convergence_ls4 (A K : Fin D → Fin n → ℝ) (L : E D) (hL : ∀ d, 0 < L d) (U : Fin n → ℝ → E D → ℝ) (hU : SolvesParabolic A K L U) (T : ℝ) :
    ∃ C : ℝ, ∀ sum : ℝ, TimeDerivatives U T sum → ∀ (S : Setup D n) (I : Interp D) (x₀ δ : E D) (h dt : ℝ), S.order = 2 → IsCentral S I δ → IsParabolic S I A K → 0 ≤ h → Covers S L δ h → 0 ≤ dt → dt ≤ 1 →
      Diffusive A K δ dt → ∀ (full : Sol D n → String → P D → ℝ), (∀ q i, full q (S.sol i) = q i) → ∀ s0 : TState D n, (∀ i x, Grid S.np x → s0.q i x = U i 0 (pos x₀ δ x)) → ∀ k : ℕ, k * dt ≤ T →
        Within S.np ((lsStep S.np (fun q i x => (S.rhs i).eval I (memOf (full q)) x) (exchange S.np S.h) dt (RK.lsA4R.zip RK.lsB4R))^[k] s0).q
          (fun i x => U i (k * dt) (pos x₀ δ x)) (C * (dt ^ 4 + h ^ 2) + T * sum / 10 ^ 13) := by
  obtain ⟨C, hC⟩ := walked_convergence4 A K L hL U hU T
  refine ⟨C, ?_⟩
  intro sum hsum S I x₀ δ h dt hord hI hM h0 hcov hdt0 hdt1 hlim full hfull s0 hs0 k hk
  have hw := step_walked_ls4 hcov.points hI hM dt full hfull s0
  rw [hord] at hw
  exact hC sum hsum S x₀ δ h dt h0 hcov hdt0 hdt1 hlim _ hw hs0 k hk

/-- **C102.** What the printed program of the three stage scheme computes stays within the interval of the initial values, at its end and in the files with a number. Partial: as C85, equations with constant coefficients on periodic boxes whose
boundary conditions are the exchanges. -/
theorem C102_text_principle_partial {T : Text D} {S : Setup D n} {arrs : Arr → Prop} {pts : Ranges.Kernel D → List (P D)} {inp : Alg.Input (Call D)} {prg : List (Alg.Node (Call D))} {A K : Fin D → Fin n → ℝ} 
    (hS : T.Suits S .rk inp arrs) (hP : Program S .rk (T.meaning (T.const prg) 0) pts inp prg) (hcl : ∀ d, ¬ T.hasClosure d) (hst : inp.stages = 3) (hnew : T.table "rknew" = [2/3, 5/12, 3/5]) (hold : T.table "rkold" = [1/4, 3/20, 3/5])
    (hord : S.order = 2) (hM : IsParabolic S (T.meaning (T.const prg) 0) A K) (hn : ∀ d, S.h ≤ S.np d) (hδ : ∀ d, 0 < T.const prg (T.delta d)) (hdt : 0 ≤ T.const prg "dt")
    (hlim : Diffusive A K (fun d => T.const prg (T.delta d)) (T.const prg "dt")) (a : Arrays D) (i : Fin n) (lo hi : ℝ)
    (h0 : ∀ x, Grid S.np x → lo ≤ T.startState S prg pts (exchange S.np S.h) inp a (.data (S.sol i)) x ∧ T.startState S prg pts (exchange S.np S.h) inp a (.data (S.sol i)) x ≤ hi) :
    let inside (a' : Arrays D) := ∀ x, Grid S.np x → lo ≤ a' (T.names (.data (S.sol i))) x ∧ a' (T.names (.data (S.sol i))) x ≤ hi
    (∃ a', T.run prg pts S.sol (exchange S.np S.h) (Alg.runProgram prg) a = some a' ∧ inside a') ∧
    ∀ before after o (k : ℤ) e, Alg.runProgram prg = before ++ .write o (some k) e :: after → ∃ a', T.run prg pts S.sol (exchange S.np S.h) before a = some a' ∧ inside a' := by
  intro inside
  obtain ⟨full, hfull⟩ := program_full hP fun s => T.startState S prg pts (exchange S.np S.h) inp a (.data s)
  have key := C102_principle hδ hn hord (central_meaning hS.order hcl _ _) hM hdt hlim full (fun q i => (hfull q).sol i) (stateOf S (T.startState S prg pts (exchange S.np S.h) inp a)) i lo hi h0
  obtain ⟨⟨a', r1, r2⟩, r3⟩ := C85_rk_partial hS hP hst hnew hold (exchange S.np S.h) a full hfull
  refine ⟨⟨a', r1, fun x hx => ?_⟩, fun before after o k e he => ?_⟩
  · rw [r2 i]
    exact key _ x hx
  · obtain ⟨j, -, -, -, a', s1, s2⟩ := r3 before after o k e he
    refine ⟨a', s1, fun x hx => ?_⟩
    rw [s2 i]
    exact key j x hx

/-- **C102.** So does what the printed programs of the low storage schemes of order three compute. Partial: as C85, equations with constant coefficients on periodic boxes whose
boundary conditions are the exchanges. -/
theorem C102_text_principle_ls_partial {T : Text D} {S : Setup D n} {arrs : Arr → Prop} {pts : Ranges.Kernel D → List (P D)} {inp : Alg.Input (Call D)} {prg : List (Alg.Node (Call D))} {A K : Fin D → Fin n → ℝ} {As Bs : List ℝ} (hAB : LowStorage3 As Bs)
    (hS : T.Suits S .lowStorage inp arrs) (hP : Program S .lowStorage (T.meaning (T.const prg) 0) pts inp prg) (hcl : ∀ d, ¬ T.hasClosure d) (hst : inp.stages = 3) (hA : T.table "rkA" = As) (hB : T.table "rkB" = Bs)
    (hord : S.order = 2) (hM : IsParabolic S (T.meaning (T.const prg) 0) A K) (hn : ∀ d, S.h ≤ S.np d) (hδ : ∀ d, 0 < T.const prg (T.delta d)) (hdt : 0 ≤ T.const prg "dt")
    (hlim : Diffusive A K (fun d => T.const prg (T.delta d)) (T.const prg "dt")) (a : Arrays D) (i : Fin n) (lo hi : ℝ)
    (h0 : ∀ x, Grid S.np x → lo ≤ T.startState S prg pts (exchange S.np S.h) inp a (.data (S.sol i)) x ∧ T.startState S prg pts (exchange S.np S.h) inp a (.data (S.sol i)) x ≤ hi) :
    let inside (a' : Arrays D) := ∀ x, Grid S.np x → lo ≤ a' (T.names (.data (S.sol i))) x ∧ a' (T.names (.data (S.sol i))) x ≤ hi
    (∃ a', T.run prg pts S.sol (exchange S.np S.h) (Alg.runProgram prg) a = some a' ∧ inside a') ∧
    ∀ before after o (k : ℤ) e, Alg.runProgram prg = before ++ .write o (some k) e :: after → ∃ a', T.run prg pts S.sol (exchange S.np S.h) before a = some a' ∧ inside a' := by
  intro inside
  have hlen : As.length = 3 ∧ Bs.length = 3 := by rcases hAB with ⟨rfl, rfl⟩ | ⟨rfl, rfl⟩ <;> exact ⟨rfl, rfl⟩
  obtain ⟨full, hfull⟩ := program_full hP fun s => T.startState S prg pts (exchange S.np S.h) inp a (.data s)
  have key := C102_principle_ls hδ hn hord (central_meaning hS.order hcl _ _) hM hdt hlim hAB full (fun q i => (hfull q).sol i) (stateOf S (T.startState S prg pts (exchange S.np S.h) inp a)) i lo hi h0
  obtain ⟨⟨a', r1, r2⟩, r3⟩ := C85_ls_partial hS hP As Bs (hlen.1.trans hlen.2.symm) (by rw [hst, hlen.1]; rfl) hA hB (exchange S.np S.h) a full hfull
  refine ⟨⟨a', r1, fun x hx => ?_⟩, fun before after o k e he => ?_⟩
  · rw [r2 i]
    exact key _ x hx
  · obtain ⟨j, -, -, -, a', s1, s2⟩ := r3 before after o k e he
    refine ⟨a', s1, fun x hx => ?_⟩
    rw [s2 i]
    exact key j x hx

/-- **C102.** So does what the printed program of the scheme of order four computes. Partial: as C85, equations with constant coefficients on periodic boxes whose
boundary conditions are the exchanges. -/
theorem C102_text_principle_ls4_partial {T : Text D} {S : Setup D n} {arrs : Arr → Prop} {pts : Ranges.Kernel D → List (P D)} {inp : Alg.Input (Call D)} {prg : List (Alg.Node (Call D))} {A K : Fin D → Fin n → ℝ} 
    (hS : T.Suits S .lowStorage inp arrs) (hP : Program S .lowStorage (T.meaning (T.const prg) 0) pts inp prg) (hcl : ∀ d, ¬ T.hasClosure d) (hst : inp.stages = 5) (hA : T.table "rkA" = RK.lsA4R) (hB : T.table "rkB" = RK.lsB4R)
    (hord : S.order = 2) (hM : IsParabolic S (T.meaning (T.const prg) 0) A K) (hn : ∀ d, S.h ≤ S.np d) (hδ : ∀ d, 0 < T.const prg (T.delta d)) (hdt : 0 ≤ T.const prg "dt")
    (hlim : Diffusive A K (fun d => T.const prg (T.delta d)) (T.const prg "dt")) (a : Arrays D) (i : Fin n) (lo hi : ℝ)
    (h0 : ∀ x, Grid S.np x → lo ≤ T.startState S prg pts (exchange S.np S.h) inp a (.data (S.sol i)) x ∧ T.startState S prg pts (exchange S.np S.h) inp a (.data (S.sol i)) x ≤ hi) :
    let inside (a' : Arrays D) := ∀ x, Grid S.np x → lo ≤ a' (T.names (.data (S.sol i))) x ∧ a' (T.names (.data (S.sol i))) x ≤ hi
    (∃ a', T.run prg pts S.sol (exchange S.np S.h) (Alg.runProgram prg) a = some a' ∧ inside a') ∧
    ∀ before after o (k : ℤ) e, Alg.runProgram prg = before ++ .write o (some k) e :: after → ∃ a', T.run prg pts S.sol (exchange S.np S.h) before a = some a' ∧ inside a' := by
  intro inside
  obtain ⟨full, hfull⟩ := program_full hP fun s => T.startState S prg pts (exchange S.np S.h) inp a (.data s)
  have key := C102_principle_ls4 hδ hn hord (central_meaning hS.order hcl _ _) hM hdt hlim full (fun q i => (hfull q).sol i) (stateOf S (T.startState S prg pts (exchange S.np S.h) inp a)) i lo hi h0
  obtain ⟨⟨a', r1, r2⟩, r3⟩ := C85_ls_partial hS hP RK.lsA4R RK.lsB4R rfl (by rw [hst]; rfl) hA hB (exchange S.np S.h) a full hfull
  refine ⟨⟨a', r1, fun x hx => ?_⟩, fun before after o k e he => ?_⟩
  · rw [r2 i]
    exact key _ x hx
  · obtain ⟨j, -, -, -, a', s1, s2⟩ := r3 before after o k e he
    refine ⟨a', s1, fun x hx => ?_⟩
    rw [s2 i]
    exact key j x hx

/-- **C102.** So does what the printed programs of the low storage schemes of order three compute. Partial: as C85, equations with constant coefficients on periodic boxes whose boundary conditions are the exchanges. -/
theorem C102_text_ls_partial (A K : Fin D → Fin n → ℝ) (L : E D) (hL : ∀ d, 0 < L d) (U : Fin n → ℝ → E D → ℝ) (hU : SolvesParabolic A K L U) (time : ℝ) :
    ∃ C : ℝ, ∀ (T : Text D) (S : Setup D n) (arrs : Arr → Prop) (pts : Ranges.Kernel D → List (P D)) (inp : Alg.Input (Call D)) (prg : List (Alg.Node (Call D))) (x₀ : E D) (h : ℝ) (As Bs : List ℝ), LowStorage3 As Bs →
      T.Suits S .lowStorage inp arrs → Program S .lowStorage (T.meaning (T.const prg) 0) pts inp prg → (∀ d, ¬ T.hasClosure d) → inp.stages = 3 → T.table "rkA" = As → T.table "rkB" = Bs →
      S.order = 2 → IsParabolic S (T.meaning (T.const prg) 0) A K → 0 ≤ h → Covers S L (fun d => T.const prg (T.delta d)) h →
      0 ≤ T.const prg "dt" → T.const prg "dt" ≤ 1 → Diffusive A K (fun d => T.const prg (T.delta d)) (T.const prg "dt") → inp.niter.toNat * T.const prg "dt" ≤ time →
      ∀ a : Arrays D, (∀ i x, Grid S.np x → T.startState S prg pts (exchange S.np S.h) inp a (.data (S.sol i)) x = U i 0 (pos x₀ (fun d => T.const prg (T.delta d)) x)) →
        let near (a' : Arrays D) (t : ℝ) := Within S.np (fun i => a' (T.names (.data (S.sol i)))) (fun i x => U i t (pos x₀ (fun d => T.const prg (T.delta d)) x)) (C * (T.const prg "dt" ^ 3 + h ^ 2))
        (∃ a', T.run prg pts S.sol (exchange S.np S.h) (Alg.runProgram prg) a = some a' ∧ near a' (inp.niter.toNat * T.const prg "dt")) ∧
        ∀ before after o (k : ℤ) e, Alg.runProgram prg = before ++ .write o (some k) e :: after →
          ∃ a', T.run prg pts S.sol (exchange S.np S.h) before a = some a' ∧ near a' (k * T.const prg "dt") := by
  obtain ⟨C, hC⟩ := C102_convergence_ls A K L hL U hU time
  refine ⟨C, ?_⟩
  intro T S arrs pts inp prg x₀ h As Bs hAB hS hP hcl hst hA hB hord hM h0 hcov hdt0 hdt1 hlim htime a ha near
  have hlen : As.length = 3 ∧ Bs.length = 3 := by rcases hAB with ⟨rfl, rfl⟩ | ⟨rfl, rfl⟩ <;> exact ⟨rfl, rfl⟩
  obtain ⟨full, hfull⟩ := program_full hP fun s => T.startState S prg pts (exchange S.np S.h) inp a (.data s)
  have conv := hC S (T.meaning (T.const prg) 0) x₀ _ h (T.const prg "dt") As Bs hAB hord (central_meaning hS.order hcl _ _) hM h0 hcov hdt0 hdt1 hlim full (fun q i => (hfull q).sol i)
    (stateOf S (T.startState S prg pts (exchange S.np S.h) inp a)) ha
  obtain ⟨⟨a', r1, r2⟩, r3⟩ := C85_ls_partial hS hP As Bs (hlen.1.trans hlen.2.symm) (by rw [hst, hlen.1]; rfl) hA hB (exchange S.np S.h) a full hfull
  refine ⟨⟨a', r1, ?_⟩, fun before after o k e he => ?_⟩
  · have : (fun i => a' (T.names (.data (S.sol i)))) = _ := funext r2
    simp only [near]
    rw [this]
    exact conv _ htime
  · obtain ⟨j, j1, j2, j3, a', s1, s2⟩ := r3 before after o k e he
    refine ⟨a', s1, ?_⟩
    have : (fun i => a' (T.names (.data (S.sol i)))) = _ := funext s2
    simp only [near]
    rw [this, ← j1, Int.cast_natCast]
    refine conv j (le_trans ?_ htime)
    have : (j : ℝ) ≤ inp.niter.toNat := by exact_mod_cast j3
    exact mul_le_mul_of_nonneg_right this hdt0

/-- **C102.** So does what the printed program of the scheme of order four computes. Partial: as C85, equations with constant coefficients on periodic boxes whose boundary conditions are the exchanges. -/
theorem C102_text_ls4_partial (A K : Fin D → Fin n → ℝ) (L : E D) (hL : ∀ d, 0 < L d) (U : Fin n → ℝ → E D → ℝ) (hU : SolvesParabolic A K L U) (time : ℝ) :
    ∃ C : ℝ, ∀ sum : ℝ, TimeDerivatives U time sum → ∀ (T : Text D) (S : Setup D n) (arrs : Arr → Prop) (pts : Ranges.Kernel D → List (P D)) (inp : Alg.Input (Call D)) (prg : List (Alg.Node (Call D))) (x₀ : E D) (h : ℝ),
      T.Suits S .lowStorage inp arrs → Program S .lowStorage (T.meaning (T.const prg) 0) pts inp prg → (∀ d, ¬ T.hasClosure d) → inp.stages = 5 → T.table "rkA" = RK.lsA4R → T.table "rkB" = RK.lsB4R →
      S.order = 2 → IsParabolic S (T.meaning (T.const prg) 0) A K → 0 ≤ h → Covers S L (fun d => T.const prg (T.delta d)) h →
      0 ≤ T.const prg "dt" → T.const prg "dt" ≤ 1 → Diffusive A K (fun d => T.const prg (T.delta d)) (T.const prg "dt") → inp.niter.toNat * T.const prg "dt" ≤ time →
      ∀ a : Arrays D, (∀ i x, Grid S.np x → T.startState S prg pts (exchange S.np S.h) inp a (.data (S.sol i)) x = U i 0 (pos x₀ (fun d => T.const prg (T.delta d)) x)) →
        let near (a' : Arrays D) (t : ℝ) := Within S.np (fun i => a' (T.names (.data (S.sol i)))) (fun i x => U i t (pos x₀ (fun d => T.const prg (T.delta d)) x)) (C * (T.const prg "dt" ^ 4 + h ^ 2) + time * sum / 10 ^ 13)
        (∃ a', T.run prg pts S.sol (exchange S.np S.h) (Alg.runProgram prg) a = some a' ∧ near a' (inp.niter.toNat * T.const prg "dt")) ∧
        ∀ before after o (k : ℤ) e, Alg.runProgram prg = before ++ .write o (some k) e :: after →
          ∃ a', T.run prg pts S.sol (exchange S.np S.h) before a = some a' ∧ near a' (k * T.const prg "dt") := by
  obtain ⟨C, hC⟩ := C102_convergence_ls4 A K L hL U hU time
  refine ⟨C, ?_⟩
  intro sum hsum T S arrs pts inp prg x₀ h hS hP hcl hst hA hB hord hM h0 hcov hdt0 hdt1 hlim htime a ha near
  obtain ⟨full, hfull⟩ := program_full hP fun s => T.startState S prg pts (exchange S.np S.h) inp a (.data s)
  have conv := hC sum hsum S (T.meaning (T.const prg) 0) x₀ _ h (T.const prg "dt") hord (central_meaning hS.order hcl _ _) hM h0 hcov hdt0 hdt1 hlim full (fun q i => (hfull q).sol i)
    (stateOf S (T.startState S prg pts (exchange S.np S.h) inp a)) ha
  obtain ⟨⟨a', r1, r2⟩, r3⟩ := C85_ls_partial hS hP RK.lsA4R RK.lsB4R rfl (by rw [hst]; rfl) hA hB (exchange S.np S.h) a full hfull
  refine ⟨⟨a', r1, ?_⟩, fun before after o k e he => ?_⟩
  · have : (fun i => a' (T.names (.data (S.sol i)))) = _ := funext r2
    simp only [near]
    rw [this]
    exact conv _ htime
  · obtain ⟨j, j1, j2, j3, a', s1, s2⟩ := r3 before after o k e he
    refine ⟨a', s1, ?_⟩
    have : (fun i => a' (T.names (.data (S.sol i)))) = _ := funext s2
    simp only [near]
    rw [this, ← j1, Int.cast_natCast]
    refine conv j (le_trans ?_ htime)
    have : (j : ℝ) ≤ inp.niter.toNat := by exact_mod_cast j3
    exact mul_le_mul_of_nonneg_right this hdt0

end OpenSBLI.Order
