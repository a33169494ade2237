import Verif.Spec.TimeOrder
import Verif.Lemmas.TimeOrderGlobal
import Verif.Lemmas.TimeOrderSmooth
import Verif.Props.C05_SSP
import Verif.Props.C77_GridLs
import Verif.Props.C85_SimulationText
import Mathlib.Analysis.ODE.ExistUnique

/-!
# C89: the schemes integrate nonlinear equations with third order
-/
namespace OpenSBLI.TimeOrder
open Spec

variable {V : Type} [NormedAddCommGroup V] [NormedSpace ℝ V] [FiniteDimensional ℝ V]

theorem third_order {s : ℕ} {T : Tableau ℝ s} (hT : T.explicit) (h3 : T.Order3) {F : V → V} {Ω : Set V} (hF : SmoothOn F Ω) {y : ℝ → V} {time : ℝ} (hy : SolvesODE F Ω y time)
    {u : ℝ → ℕ → V} (hu0 : ∀ dt, u dt 0 = y 0) (hu : ∀ dt k, ∃ l, T.IsSlopes F id dt (u dt k) l ∧ u dt (k + 1) = T.result id dt (u dt k) l) : ThirdOrder u y time := by
  obtain ⟨ε, hε, hy⟩ := hy
  obtain ⟨C, h₀, h1, h2⟩ := converges T hT h3 hF.isOpen hF.smooth hε hy
  exact ⟨C, h₀, h1, fun dt d0 d1 k hk => h2 dt d0 d1 (u dt) (hu0 dt) (hu dt) k hk⟩

/-- C89: the default scheme is of third order: for every nonlinear system with a three times differentiable right hand side and every solution of it, the error is at most
`C dt³` up to the time the solution is known to exist, with a constant that does not depend on the time step, whatever the work arrays held. -/
theorem C89_default {F : V → V} {Ω : Set V} (hF : SmoothOn F Ω) {y : ℝ → V} {time : ℝ} (hy : SolvesODE F Ω y time) (s : ℝ → RK.State V) (hs : ∀ dt, (s dt).new = y 0) :
    ThirdOrder (fun dt k => (RK.run F id dt k (s dt)).new) y time := by
  obtain ⟨T, hT, h3, hst⟩ := RK.C03_step_is_third_order_RK (K := ℝ) (V := V)
  refine third_order hT h3 hF hy hs fun dt k => ?_
  rw [RK.run_succ']
  exact hst F id dt _ rfl

/-- C89: so are the low storage scheme of order three and its strong stability preserving variant. -/
theorem C89_low_storage {F : V → V} {Ω : Set V} (hF : SmoothOn F Ω) {y : ℝ → V} {time : ℝ} (hy : SolvesODE F Ω y time) (s : ℝ → RK.LSState V) (hs : ∀ dt, (s dt).u = y 0) :
    ThirdOrder (fun dt k => (RK.lsRun RK.lsA3 RK.lsB3 F id dt k (s dt)).u) y time ∧ ThirdOrder (fun dt k => (RK.lsRun RK.sspA RK.sspB F id dt k (s dt)).u) y time := by
  constructor
  · obtain ⟨T, hT, h3, hst⟩ := RK.C05_order3_is_third_order_RK (K := ℝ) (V := V)
    refine third_order hT h3 hF hy hs fun dt k => ?_
    rw [RK.lsRun_succ']
    exact hst F dt _
  · obtain ⟨T, hT, h3, hst⟩ := RK.C05_ssp_is_third_order_RK (V := V)
    refine third_order hT h3 hF hy hs fun dt k => ?_
    rw [RK.lsRun_succ']
    exact hst F dt _

/-- C89: what the errors are compared with exists: from every initial value there is a solution for some time. -/
theorem C89_solutions_exist {F : V → V} {Ω : Set V} (hF : SmoothOn F Ω) {v : V} (hv : v ∈ Ω) : ∃ y : ℝ → V, y 0 = v ∧ ∃ time, 0 < time ∧ SolvesODE F Ω y time := by
  have : CompleteSpace V := FiniteDimensional.complete ℝ V
  have h := (hF.smooth.contDiffAt (hF.isOpen.mem_nhds hv)).of_le (show (1 : WithTop ℕ∞) ≤ 3 by norm_num)
  obtain ⟨y, hy0, ε, hε, hy⟩ := h.exists_forall_mem_closedBall_exists_eq_forall_mem_Ioo_hasDerivAt₀ 0
  have hc : ContinuousAt y 0 := (hy 0 ⟨by linarith, by linarith⟩).continuousAt
  have hn := hc.preimage_mem_nhds (hF.isOpen.mem_nhds (by rw [hy0]; exact hv))
  obtain ⟨η, hη, hball⟩ := Metric.mem_nhds_iff.1 hn
  have hm : 0 < min ε η := lt_min hε hη
  refine ⟨y, hy0, min ε η / 2, by positivity, min ε η / 2, by positivity, fun t ht => ?_⟩
  have h1 := min_le_left ε η
  have h2 := min_le_right ε η
  refine ⟨hball ?_, hy t ⟨by linarith [ht.1], by linarith [ht.2]⟩⟩
  rw [Metric.mem_ball, Real.dist_eq, sub_zero, abs_lt]
  exact ⟨by linarith [ht.1], by linarith [ht.2]⟩

end OpenSBLI.TimeOrder

namespace OpenSBLI.Sim
open Spec TimeOrder Alg

variable {D n : ℕ}

/-- The discretised equations as equations for the values on the grid, the halos being filled by the boundary conditions. -/
noncomputable def onGridValues (np : Fin D → ℤ) (F B : Sol D n → Sol D n) (q0 : Sol D n) (u : GridSol np n) : GridSol np n := restrict np (F (complete np B q0 u))

/-- C89: simulations with the default scheme integrate the discretised equations with third order, whatever the right hand sides and the boundary conditions. -/
theorem C89_simulation {np : Fin D → ℤ} {h : ℤ} (hh : 0 ≤ h) {F B : Sol D n → Sol D n} (hB : FillsHalos np h B) (s0 : TState D n) {Ω : Set (GridSol np n)} (hF : SmoothOn (onGridValues np F B s0.q) Ω)
    {y : ℝ → GridSol np n} {time : ℝ} (hy : SolvesODE (onGridValues np F B s0.q) Ω y time) (h0 : restrict np s0.q = y 0) :
    ThirdOrder (fun dt k => restrict np ((rkStep np F B dt [(2/3, 1/4), (5/12, 3/20), (3/5, 3/5)])^[k] s0).q) y time := by
  have := C89_default hF hy (fun _ => ⟨restrict np s0.q, restrict np s0.q, restrict np s0.q⟩) fun _ => h0
  have e : (fun dt k => restrict np ((rkStep np F B dt [(2/3, 1/4), (5/12, 3/20), (3/5, 3/5)])^[k] s0).q) = _ :=
    funext fun dt => funext fun k => C77_grid_values hh hB F dt s0 ⟨restrict np s0.q, restrict np s0.q, restrict np s0.q⟩ rfl k
  rw [e]
  exact this

/-- C89: so do simulations with the low storage schemes of order three, whatever their register held. -/
theorem C89_simulation_ls {np : Fin D → ℤ} {h : ℤ} (hh : 0 ≤ h) {F B : Sol D n → Sol D n} (hB : FillsHalos np h B) (s0 : TState D n) {Ω : Set (GridSol np n)} (hF : SmoothOn (onGridValues np F B s0.q) Ω)
    {y : ℝ → GridSol np n} {time : ℝ} (hy : SolvesODE (onGridValues np F B s0.q) Ω y time) (h0 : restrict np s0.q = y 0) (A C : List ℝ) (hAC : (A = RK.lsA3 ∧ C = RK.lsB3) ∨ (A = RK.sspA ∧ C = RK.sspB)) :
    ThirdOrder (fun dt k => restrict np ((lsStep np F B dt (A.zip C))^[k] s0).q) y time := by
  obtain ⟨h1, h2⟩ := C89_low_storage hF hy (fun _ => ⟨restrict np s0.q, restrict np s0.aux, restrict np s0.q⟩) fun _ => h0
  have e : (fun dt k => restrict np ((lsStep np F B dt (A.zip C))^[k] s0).q) = _ :=
    funext fun dt => funext fun k => C77_grid_values_ls hh hB F dt A C s0 ⟨restrict np s0.q, restrict np s0.aux, restrict np s0.q⟩ rfl rfl k
  rw [e]
  rcases hAC with ⟨rfl, rfl⟩ | ⟨rfl, rfl⟩
  · exact h1
  · exact h2

/-- C89: the right hand sides of a problem the code accepts are smooth functions of the values on the grid where the powers and functions in them and in the constituent relations are,
for example where densities do not vanish. -/
theorem C89_smooth {S : Setup D n} (hS : S.Valid) {ks : List (Ker D)} (hks : S.spatial = .ok ks) {I : Interp D} {δ : Fin D → ℝ} (hI : IsCentral S I δ) (hn : ∀ d, S.h ≤ S.np d) {init : String → P D → ℝ}
    {full : Sol D n → String → P D → ℝ} (hfull : ∀ q, Consistent S I init q (full q)) (q0 : Sol D n) {Ω : Set (GridSol S.np n)} (hΩ : IsOpen Ω)
    (hp : ∀ e, ((∃ i, e = S.rhs i) ∨ ∃ s, (s, e) ∈ S.rel) → PowersSmooth 3 I (fun u : GridSol S.np n => memOf (full (complete S.np (exchange S.np S.h) q0 u))) Ω e) :
    SmoothOn (onGridValues S.np (fun q i x => (S.rhs i).eval I (memOf (full q)) x) (exchange S.np S.h) q0) Ω := by
  obtain ⟨order, hord⟩ := spatial_order hks
  refine ⟨hΩ, contDiffOn_pi.2 fun i => contDiffOn_pi.2 fun x => ?_⟩
  show ContDiffOn ℝ 3 (fun u : GridSol S.np n => (S.rhs i).eval I (memOf (full (complete S.np (exchange S.np S.h) q0 u))) x.1) Ω
  refine eval_smooth hI _ (fun a ha y => ?_) (hp _ (.inl ⟨i, rfl⟩)) x.1
  obtain ⟨s, rfl⟩ := (hS.rhsPlain i).1 a ha
  exact datasets_smooth hS.relations hI hord (fun u => hfull _) (exchange_smooth (Int.natCast_nonneg _) hn q0 Ω) (fun s e h => hp e (.inr ⟨s, h⟩)) s (rhs_required hS i s ((mem_datas _ s).2 ha)) y

/-- C89: so does the printed program: there is one constant for all programs and time steps such that the solution arrays, at the end and in the files with a number, differ on the grid from the solution of the discretised equations
by at most `C dt³`. Partial: as C85. -/
theorem C89_text_partial {S : Setup D n} {G : GridSol S.np n → GridSol S.np n} {Ω : Set (GridSol S.np n)} (hG : SmoothOn G Ω) {y : ℝ → GridSol S.np n} {time : ℝ} (hy : SolvesODE G Ω y time) :
    ∃ C h₀ : ℝ, 0 < h₀ ∧ ∀ (T : Text D) (U : Arr → Prop) (pts : Ranges.Kernel D → List (P D)) (inp : Input (Call D)) (prg : List (Node (Call D))) (B : Sol D n → Sol D n) (a : Arrays D) (full : Sol D n → String → P D → ℝ),
      T.Suits S .rk inp U → Program S .rk (T.meaning (T.const prg) 0) pts inp prg → inp.stages = 3 → T.table "rknew" = [2/3, 5/12, 3/5] → T.table "rkold" = [1/4, 3/20, 3/5] → FillsHalos S.np S.h B →
      (∀ q, Consistent S (T.meaning (T.const prg) 0) (fun s => T.startState S prg pts B inp a (.data s)) q (full q)) →
      onGridValues S.np (fun q i x => (S.rhs i).eval (T.meaning (T.const prg) 0) (memOf (full q)) x) B (stateOf S (T.startState S prg pts B inp a)).q = G →
      restrict S.np (stateOf S (T.startState S prg pts B inp a)).q = y 0 → 0 ≤ T.const prg "dt" → T.const prg "dt" ≤ h₀ → inp.niter.toNat * T.const prg "dt" ≤ time →
        let near (a' : Arrays D) (t : ℝ) := ∀ i x (hx : Grid S.np x), |a' (T.names (.data (S.sol i))) x - y t i ⟨x, hx⟩| ≤ C * T.const prg "dt" ^ 3
        (∃ a', T.run prg pts S.sol B (runProgram prg) a = some a' ∧ near a' (inp.niter.toNat * T.const prg "dt")) ∧
        ∀ before after o (k : ℤ) e, runProgram prg = before ++ .write o (some k) e :: after → ∃ a', T.run prg pts S.sol B before a = some a' ∧ near a' (k * T.const prg "dt") := by
  obtain ⟨C, h₀, hpos, hC⟩ := C89_default hG hy (fun _ => ⟨y 0, y 0, y 0⟩) fun _ => rfl
  refine ⟨C, h₀, hpos, ?_⟩
  intro T U pts inp prg B a full hS hP hst hnew hold hB hfull hF h0 d0 d1 htime near
  set dt := T.const prg "dt" with hdt
  set s0 := stateOf S (T.startState S prg pts B inp a) with hs0
  have key : ∀ k : ℕ, k * dt ≤ time → ∀ i x (hx : Grid S.np x),
      |((rkStep S.np (fun q i x => (S.rhs i).eval (T.meaning (T.const prg) 0) (memOf (full q)) x) B dt [(2/3, 1/4), (5/12, 3/20), (3/5, 3/5)])^[k] s0).q i x - y (k * dt) i ⟨x, hx⟩| ≤ C * dt ^ 3 := by
    intro k hk i x hx
    have h1 : ‖(RK.run G id dt k ⟨y 0, y 0, y 0⟩).new - y (k * dt)‖ ≤ C * dt ^ 3 := hC dt d0 d1 k hk
    have h2 := C77_grid_values (Int.natCast_nonneg _) hB (fun q i x => (S.rhs i).eval (T.meaning (T.const prg) 0) (memOf (full q)) x) dt s0 ⟨y 0, y 0, y 0⟩ h0.symm k
    have h3 : (fun u => restrict S.np ((fun q i x => (S.rhs i).eval (T.meaning (T.const prg) 0) (memOf (full q)) x) (complete S.np B s0.q u))) = G := hF
    rw [h3] at h2
    rw [← h2] at h1
    have h4 := (norm_le_pi_norm _ (⟨x, hx⟩ : Order.GP S.np)).trans ((norm_le_pi_norm _ i).trans h1)
    exact h4
  obtain ⟨⟨a', r1, r2⟩, r3⟩ := C85_rk_partial hS hP hst hnew hold B a full hfull
  refine ⟨⟨a', r1, fun i x hx => ?_⟩, fun before after o k e he => ?_⟩
  · rw [r2 i]
    exact key _ htime i x hx
  · obtain ⟨j, j1, j2, j3, a', s1, s2⟩ := r3 before after o k e he
    refine ⟨a', s1, fun i x hx => ?_⟩
    rw [s2 i, ← j1]
    refine key j (le_trans (mul_le_mul_of_nonneg_right ?_ d0) htime) i x hx
    exact_mod_cast j3

/-- C89: and the printed program of a low storage scheme of order three. -/
theorem C89_text_ls_partial {S : Setup D n} {G : GridSol S.np n → GridSol S.np n} {Ω : Set (GridSol S.np n)} (hG : SmoothOn G Ω) {y : ℝ → GridSol S.np n} {time : ℝ} (hy : SolvesODE G Ω y time)
    (A C' : List ℝ) (hAC : (A = RK.lsA3 ∧ C' = RK.lsB3) ∨ (A = RK.sspA ∧ C' = RK.sspB)) :
    ∃ C h₀ : ℝ, 0 < h₀ ∧ ∀ (T : Text D) (U : Arr → Prop) (pts : Ranges.Kernel D → List (P D)) (inp : Input (Call D)) (prg : List (Node (Call D))) (B : Sol D n → Sol D n) (a : Arrays D) (full : Sol D n → String → P D → ℝ),
      T.Suits S .lowStorage inp U → Program S .lowStorage (T.meaning (T.const prg) 0) pts inp prg → inp.stages = 3 → T.table "rkA" = A → T.table "rkB" = C' → FillsHalos S.np S.h B →
      (∀ q, Consistent S (T.meaning (T.const prg) 0) (fun s => T.startState S prg pts B inp a (.data s)) q (full q)) →
      onGridValues S.np (fun q i x => (S.rhs i).eval (T.meaning (T.const prg) 0) (memOf (full q)) x) B (stateOf S (T.startState S prg pts B inp a)).q = G →
      restrict S.np (stateOf S (T.startState S prg pts B inp a)).q = y 0 →
      0 ≤ T.const prg "dt" → T.const prg "dt" ≤ h₀ → inp.niter.toNat * T.const prg "dt" ≤ time →
        let near (a' : Arrays D) (t : ℝ) := ∀ i x (hx : Grid S.np x), |a' (T.names (.data (S.sol i))) x - y t i ⟨x, hx⟩| ≤ C * T.const prg "dt" ^ 3
        (∃ a', T.run prg pts S.sol B (runProgram prg) a = some a' ∧ near a' (inp.niter.toNat * T.const prg "dt")) ∧
        ∀ before after o (k : ℤ) e, runProgram prg = before ++ .write o (some k) e :: after → ∃ a', T.run prg pts S.sol B before a = some a' ∧ near a' (k * T.const prg "dt") := by
  obtain ⟨C, h₀, hpos, hC⟩ : ThirdOrder (fun dt k => (RK.lsRun A C' G id dt k ⟨y 0, y 0, y 0⟩).u) y time := by
    obtain ⟨h1, h2⟩ := C89_low_storage hG hy (fun _ => ⟨y 0, y 0, y 0⟩) fun _ => rfl
    rcases hAC with ⟨rfl, rfl⟩ | ⟨rfl, rfl⟩
    · exact h1
    · exact h2
  have hstale : ∀ (dt : ℝ) k (s t : RK.LSState (GridSol S.np n)), s.u = t.u → (RK.lsRun A C' G id dt k s).u = (RK.lsRun A C' G id dt k t).u := by
    rcases hAC with ⟨rfl, rfl⟩ | ⟨rfl, rfl⟩ <;> exact fun dt k s t h => RK.C05_stale_register_irrelevant _ _ G id dt (by simp [RK.lsB3, RK.sspB]) k s t h
  have hlen : A.length = 3 ∧ C'.length = 3 := by rcases hAC with ⟨rfl, rfl⟩ | ⟨rfl, rfl⟩ <;> exact ⟨rfl, rfl⟩
  refine ⟨C, h₀, hpos, ?_⟩
  intro T U pts inp prg B a full hS hP hst hA hC' hB hfull hF h0 d0 d1 htime near
  set dt := T.const prg "dt" with hdt
  set s0 := stateOf S (T.startState S prg pts B inp a) with hs0
  have key : ∀ k : ℕ, k * dt ≤ time → ∀ i x (hx : Grid S.np x),
      |((lsStep S.np (fun q i x => (S.rhs i).eval (T.meaning (T.const prg) 0) (memOf (full q)) x) B dt (A.zip C'))^[k] s0).q i x - y (k * dt) i ⟨x, hx⟩| ≤ C * dt ^ 3 := by
    intro k hk i x hx
    have h1 : ‖(RK.lsRun A C' G id dt k ⟨y 0, y 0, y 0⟩).u - y (k * dt)‖ ≤ C * dt ^ 3 := hC dt d0 d1 k hk
    rw [hstale dt k ⟨y 0, y 0, y 0⟩ ⟨y 0, restrict S.np s0.aux, y 0⟩ rfl] at h1
    have h2 := C77_grid_values_ls (Int.natCast_nonneg _) hB (fun q i x => (S.rhs i).eval (T.meaning (T.const prg) 0) (memOf (full q)) x) dt A C' s0 ⟨y 0, restrict S.np s0.aux, y 0⟩ h0.symm rfl k
    have h3 : (fun u => restrict S.np ((fun q i x => (S.rhs i).eval (T.meaning (T.const prg) 0) (memOf (full q)) x) (complete S.np B s0.q u))) = G := hF
    rw [h3] at h2
    rw [← h2] at h1
    exact (norm_le_pi_norm _ (⟨x, hx⟩ : Order.GP S.np)).trans ((norm_le_pi_norm _ i).trans h1)
  obtain ⟨⟨a', r1, r2⟩, r3⟩ := C85_ls_partial hS hP A C' (hlen.1.trans hlen.2.symm) (by rw [hst, hlen.1]; rfl) hA hC' B a full hfull
  refine ⟨⟨a', r1, fun i x hx => ?_⟩, fun before after o k e he => ?_⟩
  · rw [r2 i]
    exact key _ htime i x hx
  · obtain ⟨j, j1, j2, j3, a', s1, s2⟩ := r3 before after o k e he
    refine ⟨a', s1, fun i x hx => ?_⟩
    rw [s2 i, ← j1]
    refine key j (le_trans (mul_le_mul_of_nonneg_right ?_ d0) htime) i x hx
    exact_mod_cast j3

end OpenSBLI.Sim
