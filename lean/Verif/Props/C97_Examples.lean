import Verif.Props.C98_Text

/-!
# C97: gas at rest, and examples for C97 and C98
-/
namespace OpenSBLI.Sim
open EulerWave

/-- C97: gas at rest with uniform pressure stays as it is, whatever the densities: the program for the Euler equations in two dimensions does not move or smear contact discontinuities at rest. -/
theorem C97_gas_at_rest {pts : Ranges.Kernel 2 → List (P 2)} {I : Interp 2} {inp : Alg.Input (Call 2)} {prg : List (Alg.Node (Call 2))} (hP : ShockProgram eulerWave .rk I pts inp prg) (hp : RealPowers I) (hg : 1 < I.const "gama")
    (hst : inp.stages = 3) (hnew : I.table "rknew" = [2/3, 5/12, 3/5]) (hold : I.table "rkold" = [1/4, 3/20, 3/5]) (m : Mem 2) (q : ℝ) (hq : 0 < q) (ρ : P 2 → ℝ) (hρ : ∀ x, Grid ![400, 400] x → 0 < ρ x)
    (hm : ∀ x, Grid ![400, 400] x → let start := atStart I pts eulerWave.sol eulerWave.exchange inp m
      start (.data "rho") x = ρ x ∧ start (.data "rhou0") x = 0 ∧ start (.data "rhou1") x = 0 ∧ start (.data "rhoE") x = q / (I.const "gama" - 1)) (x : P 2) (hx : Grid ![400, 400] x) :
    let final := Alg.effect (exec I pts eulerWave.sol eulerWave.exchange) (Alg.runProgram prg) m
    final (.data "rho") x = ρ x ∧ final (.data "rhou0") x = 0 ∧ final (.data "rhou1") x = 0 ∧ final (.data "rhoE") x = q / (I.const "gama" - 1) := by
  have h := C97_at_rest hP (eulerWave_carries hp (U := 0) hg hq) (by simp [eulerWave]) eulerWave_reach hst hnew hold m ρ hρ (fun i y hy => by
    obtain ⟨e0, e1, e2, e3⟩ := hm y hy
    fin_cases i
    · refine Eq.trans e0 ?_; simp [resting, moving]
    · refine Eq.trans e1 ?_; simp [resting, moving]
    · refine Eq.trans e2 ?_; simp [resting, moving]
    · refine Eq.trans e3 ?_; simp [resting, moving])
  intro final
  refine ⟨Eq.trans (h 0 x hx) ?_, Eq.trans (h 1 x hx) ?_, Eq.trans (h 2 x hx) ?_, Eq.trans (h 3 x hx) ?_⟩ <;> simp [resting, moving]

/-- The values of constants and functions for the application. -/
noncomputable def eulerWaveInterp : Interp 2 where
  const := fun c => if c = "dt" then 1/1000 else if c = "gama" then 7/5 else if c = "M_PI" then Real.pi else 1/200
  table := fun t => if t = "rknew" then [2/3, 5/12, 3/5] else [1/4, 3/20, 3/5]
  stage := 0
  cd := fun d k f x => Central.discretise 0 k (1/200 : ℝ) (fun y => f (Function.update x d y)) (x d)
  pow := fun a b => a ^ b
  fn := fun f a => if f = "sin" then Real.sin a else a

theorem eulerWave_meant : EulerWave.Meant eulerWaveInterp where
  gama := by simp [eulerWaveInterp]
  pi := by simp [eulerWaveInterp]
  delta0 := by simp [eulerWaveInterp]
  delta1 := by simp [eulerWaveInterp]
  powers := fun _ _ => rfl
  sine := by funext a; simp [eulerWaveInterp]
  new := by simp [eulerWaveInterp]
  old := by simp [eulerWaveInterp]
  central := fun _ _ _ _ => rfl

/-- The program of the application conserves mass, momentum and energy. -/
example (pts : Ranges.Kernel 2 → List (P 2)) (hp : Enumerates pts) (m : Mem 2) :
    ∃ prg, Alg.generate eulerWaveInput = .ok prg ∧ ∀ i, Conserves eulerWave.toSetup eulerWaveInterp pts eulerWave.exchange eulerWaveInput prg m i := C98_euler_wave_conserves hp eulerWave_meant m

/-- The wave at the beginning is positive. -/
example (x : P 2) : 0 < densityWave x := by
  have := Real.neg_one_le_sin (Real.pi * (1/200 * x 0 + 1/200 * x 1))
  unfold densityWave
  linarith

/-- The algorithm without the initial conditions, for any number of steps. -/
noncomputable def restInput (niter : ℤ) : Alg.Input (Call 2) :=
  { eulerWaveInput with items := [.simulation ((eulerWave.startKernels .rk).map .comp) [] ((eulerWave.advanceKernels .rk).map .comp) [.bc] eulerWave_spatial.choose], niter := niter }

theorem rest_program {pts : Ranges.Kernel 2 → List (P 2)} (hp : Enumerates pts) (niter : ℤ) : ∃ prg, ShockProgram eulerWave .rk eulerWaveInterp pts (restInput niter) prg := by
  have hg : ∃ prg, Alg.generate (restInput niter) = .ok prg := by
    simp [Alg.generate, restInput, eulerWaveInput, Alg.Acc.add, Alg.sortByOrder]
    exact ⟨_, rfl⟩
  obtain ⟨prg, hg⟩ := hg
  refine ⟨prg, eulerWave_valid, hp, central_local eulerWave_meant.central, _, eulerWave_spatial.choose_spec, ⟨[], [], rfl, by simp, by simp⟩, ?_, hg⟩
  intro o places k h
  simp [restInput] at h

/-- A bubble of a gas a thousand times heavier: density 1000 in a square, 1 outside. -/
noncomputable def bubble (x : P 2) : ℝ := if 100 ≤ x 0 ∧ x 0 < 300 ∧ 100 ≤ x 1 ∧ x 1 < 300 then 1000 else 1

/-- It stays where it is, for any number of steps. -/
example (pts : Ranges.Kernel 2 → List (P 2)) (hp : Enumerates pts) (niter : ℤ) : ∃ prg, Alg.generate (restInput niter) = .ok prg ∧
    let m : Mem 2 := fun a x => if a = .data "rho" then bubble x else if a = .data "rhoE" then 5/2 else 0
    ∀ x, Grid ![400, 400] x → Alg.effect (exec eulerWaveInterp pts eulerWave.sol eulerWave.exchange) (Alg.runProgram prg) m (.data "rho") x = bubble x := by
  obtain ⟨prg, hP⟩ := rest_program hp niter
  obtain ⟨_, _, hA⟩ := hP.items
  refine ⟨prg, hA.generated, ?_⟩
  intro m x hx
  have hs : atStart eulerWaveInterp pts eulerWave.sol eulerWave.exchange (restInput niter) m = m := by
    simp [atStart, restInput, Alg.others, Alg.sortByOrder, Alg.placedAt, Alg.calls, Alg.effect]
  refine (C97_gas_at_rest hP eulerWave_meant.powers (by rw [eulerWave_meant.gama]; norm_num) rfl eulerWave_meant.new eulerWave_meant.old m 1 one_pos bubble (fun y _ => by unfold bubble; split_ifs <;> norm_num) (fun y _ => ?_) x hx).1
  rw [hs, eulerWave_meant.gama]
  refine ⟨by simp [m], by simp [m], by simp [m], by simp [m]; norm_num⟩

/-- Uniform density is positive at all stages: then the hypothesis of C98 holds, for this density in place of the wave. -/
example (l : List (ℝ × ℝ)) (dt c : ℝ) (hc : 0 < c) (j : ℕ) (coef : List (ℝ × ℝ)) (x : P 2) :
    let scalar := fun l => rkStep ![400, 400] (fun (ρ : Sol 2 1) _ x => Spec.advection eulerWave.scheme [0, 1] ![1, -1/2] (fun _ => 1/200) (ρ 0) x) (periodic ![400, 400]) dt l
    0 < (scalar l ((scalar coef)^[j] ⟨fun _ _ => c, fun _ _ => c⟩)).q 0 x := by
  intro scalar
  have hz : ∀ ρ : Sol 2 1, (∀ y, ρ 0 y = c) → ∀ y, Spec.advection eulerWave.scheme [0, 1] ![1, -1/2] (fun _ => 1/200) (ρ 0) y = 0 := by
    intro ρ hρ y
    have : ρ 0 = fun _ => c := funext hρ
    rw [this]
    simp [Spec.advection]
  have hstep : ∀ (l : List (ℝ × ℝ)) (s : TState 2 1), (∀ y, s.q 0 y = c) → (∀ y, (scalar l s).q 0 y = c) ∧ ∀ y, Grid ![400, 400] y → (scalar l s).aux 0 y = c := by
    intro l s hs
    induction l using List.reverseRecOn with
    | nil =>
      refine ⟨fun y => hs _, fun y hy => ?_⟩
      simp only [scalar, rkStep, List.foldl_nil, onGrid, if_pos hy]
      exact hs _
    | append_singleton l a ih =>
      have step : scalar (l ++ [a]) s = rkStage ![400, 400] (fun (ρ : Sol 2 1) _ x => Spec.advection eulerWave.scheme [0, 1] ![1, -1/2] (fun _ => 1/200) (ρ 0) x) (periodic ![400, 400]) dt (scalar l s) a := by
        simp only [scalar, rkStep]; rw [List.foldl_append]; rfl
      rw [step]
      refine ⟨fun y => ?_, fun y hy => ?_⟩
      · simp only [rkStage, periodic, onGrid, hz _ ih.1]
        split_ifs with hg
        · rw [ih.2 _ hg]; simp
        · exact ih.1 _
      · simp only [rkStage, onGrid, if_pos hy, hz _ ih.1]
        rw [ih.2 y hy]; simp
  have hiter : ∀ y, ((scalar coef)^[j] ⟨fun _ _ => c, fun _ _ => c⟩).q 0 y = c := by
    induction j with
    | zero => exact fun _ => rfl
    | succ j ih =>
      rw [Function.iterate_succ_apply']
      exact (hstep _ _ ih).1
  rw [(hstep l _ hiter).1 x]
  exact hc

end OpenSBLI.Sim
