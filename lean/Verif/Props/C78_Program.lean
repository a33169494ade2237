import Verif.Props.C77_Conservation
import Verif.Lemmas.ShockProgram

/-!
# C78: what the program of a shock capturing simulation computes

`C.spatial` are the spatial kernels the code generates; the theorems compare the arrays with `Spec/ShockProgram.lean` and the steps of `Spec/Simulation.lean`.
-/
namespace OpenSBLI.Sim

variable {D n : ℕ}

theorem shock_order {C : Shock D n} {cs : List (Call D)} (h : C.spatial = .ok cs) : ∃ order, C.relOrder = .ok order := by
  unfold Shock.spatial at h
  split at h
  · cases h
  · split at h
    · cases h
    · exact ⟨_, by assumption⟩

/-- C78: whenever the code generates kernels, every solution has values of the datasets belonging to it. -/
theorem C78_datasets_exist {C : Shock D n} (hC : C.Valid) (I : Interp D) (cs : List (Call D)) (hcs : C.spatial = .ok cs) (init : String → P D → ℝ) (q : Sol D n) :
    ∃ f, ConsistentOn C.toSetup C.required I init q f := by
  obtain ⟨order, hord⟩ := shock_order hcs
  exact datasets_exist hC.relations I order hord init q

/-! ## One evaluation -/

/-- C78: run in any stage on arrays whose solution, halo points included, is `q`, the spatial kernels leave in each residual array, on the grid, the differences of the numerical fluxes of the datasets belonging to `q`, with their
coefficients, plus the other terms. They leave the solution unchanged. -/
theorem C78_residual_partial {C : Shock D n} (hC : C.Valid) {I : Interp D} {pts : Ranges.Kernel D → List (P D)} (hp : Enumerates pts) (hl : Local I C.np C.h) (B : Sol D n → Sol D n)
    (cs : List (Call D)) (hcs : C.spatial = .ok cs) (step stage : ℕ) (m : Mem D) (f : String → P D → ℝ) (hf : ConsistentOn C.toSetup C.required I (fun s => m (.data s)) (fun i => m (.data (C.sol i))) f) :
    (∀ i : Fin n, ∀ x, Grid C.np x → Alg.effect (exec I pts C.sol B) (Alg.calls cs (Alg.inStage step stage)) m (.res i) x = shockRhs C I f i x) ∧
    ∀ i : Fin n, Alg.effect (exec I pts C.sol B) (Alg.calls cs (Alg.inStage step stage)) m (.data (C.sol i)) = m (.data (C.sol i)) := by
  classical
  set q0 : Sol D n := fun i => m (.data (C.sol i)) with hq0
  have hex := fun q => C78_datasets_exist hC I cs hcs (fun s => m (.data s)) q
  have hE := shock_evaluates hC hp hl (B := B) (init := fun s => m (.data s)) (full := fun q => if q = q0 then f else (hex q).choose) (fun q => by
    by_cases h : q = q0
    · rw [if_pos h, h]; exact hf
    · rw [if_neg h]; exact (hex q).choose_spec) cs hcs
  obtain ⟨h1, h2⟩ := hE m (stateOf C.toSetup m) step stage ⟨fun _ => rfl, fun _ => rfl, fun _ _ _ => rfl⟩
  refine ⟨fun i x hx => ?_, fun i => h1.q i⟩
  rw [h2 i x hx]
  have : (stateOf C.toSetup m).q = q0 := rfl
  simp only [this, if_true]

/-! ## The program -/

/-- What the theorems on programs assume: a problem the code accepts, one simulation item, all other equations placed before the time loop. -/
structure ShockProgram (C : Shock D n) (t : Temporal) (I : Interp D) (pts : Ranges.Kernel D → List (P D)) (inp : Alg.Input (Call D)) (prg : List (Alg.Node (Call D))) : Prop where
  valid : C.Valid
  loops : Enumerates pts
  reach : Local I C.np C.h
  items : ∃ cs, C.spatial = .ok cs ∧ Assembled C.toSetup t cs inp prg

section
variable {C : Shock D n} {I : Interp D} {pts : Ranges.Kernel D → List (P D)} {inp : Alg.Input (Call D)} {prg : List (Alg.Node (Call D))}

/-- C78: the program of the three stage scheme. After the program the solution arrays hold the solution advanced by `niter` Runge-Kutta steps of the flux differences; every file with a number holds, when written, the solution
advanced by that number of steps. The boundary conditions may be any function of the solution arrays. -/
theorem C78_program_rk_partial (hP : ShockProgram C .rk I pts inp prg) (hst : inp.stages = 3) (hnew : I.table "rknew" = [2/3, 5/12, 3/5]) (hold : I.table "rkold" = [1/4, 3/20, 3/5])
    (B : Sol D n → Sol D n) (m : Mem D) (full : Sol D n → String → P D → ℝ) (hfull : ∀ q, ConsistentOn C.toSetup C.required I (fun s => atStart I pts C.sol B inp m (.data s)) q (full q)) :
    let step := rkStep C.np (fun q i x => shockRhs C I (full q) i x) B (I.const "dt") [(2/3, 1/4), (5/12, 3/20), (3/5, 3/5)]
    let s0 := stateOf C.toSetup (atStart I pts C.sol B inp m)
    (∀ i : Fin n, Alg.effect (exec I pts C.sol B) (Alg.runProgram prg) m (.data (C.sol i)) = (step^[inp.niter.toNat] s0).q i) ∧
    ∀ before after o k e, Alg.runProgram prg = before ++ .write o (some k) e :: after → ∃ j : ℕ, (j : ℤ) = k ∧ 1 ≤ j ∧ j ≤ inp.niter.toNat ∧
      ∀ i : Fin n, Alg.effect (exec I pts C.sol B) before m (.data (C.sol i)) = (step^[j] s0).q i := by
  obtain ⟨cs, hcs, hA⟩ := hP.items
  exact assembled_rk hA hP.valid.relations.solInj hP.loops hst hnew hold B _ m (shock_evaluates hP.valid hP.loops hP.reach hfull cs hcs)

/-- C78: the program of a low storage scheme, with coefficients `A` and `L` of any number of stages. -/
theorem C78_program_ls_partial (hP : ShockProgram C .lowStorage I pts inp prg) (A L : List ℝ) (hAC : A.length = L.length) (hst : inp.stages = A.length) (hA : I.table "rkA" = A) (hL : I.table "rkB" = L)
    (B : Sol D n → Sol D n) (m : Mem D) (full : Sol D n → String → P D → ℝ) (hfull : ∀ q, ConsistentOn C.toSetup C.required I (fun s => atStart I pts C.sol B inp m (.data s)) q (full q)) :
    let step := lsStep C.np (fun q i x => shockRhs C I (full q) i x) B (I.const "dt") (A.zip L)
    let s0 := stateOf C.toSetup (atStart I pts C.sol B inp m)
    (∀ i : Fin n, Alg.effect (exec I pts C.sol B) (Alg.runProgram prg) m (.data (C.sol i)) = (step^[inp.niter.toNat] s0).q i) ∧
    ∀ before after o k e, Alg.runProgram prg = before ++ .write o (some k) e :: after → ∃ j : ℕ, (j : ℤ) = k ∧ 1 ≤ j ∧ j ≤ inp.niter.toNat ∧
      ∀ i : Fin n, Alg.effect (exec I pts C.sol B) before m (.data (C.sol i)) = (step^[j] s0).q i := by
  obtain ⟨cs, hcs, hAs⟩ := hP.items
  exact assembled_ls hAs hP.valid.relations.solInj hP.loops A L hAC hst hA hL B _ m (shock_evaluates hP.valid hP.loops hP.reach hfull cs hcs)

end

end OpenSBLI.Sim
