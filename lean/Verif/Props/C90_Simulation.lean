import Verif.Props.C90_StrongStability
import Verif.Props.C89_TimeOrder

/-!
# C90: simulations and printed programs
-/
namespace OpenSBLI.Sim
open Spec Alg

variable {D n : ℕ}

/-- C90: simulations with the default scheme keep the values on the grid in every convex set that steps of Euler's method for the discretised equations do not leave, whatever the equations and boundary conditions. -/
theorem C90_simulation {np : Fin D → ℤ} {h : ℤ} (hh : 0 ≤ h) {F B : Sol D n → Sol D n} (hB : FillsHalos np h B) (s0 : TState D n) {K : Set (GridSol np n)} (hK : Convex ℝ K) {τ : ℝ} (hτ : 0 < τ)
    (hF : EulerKeeps (onGridValues np F B s0.q) K τ) {dt : ℝ} (d0 : 0 ≤ dt) (d1 : dt ≤ 3 / 5 * τ) (h0 : restrict np s0.q ∈ K) (k : ℕ) :
    restrict np ((rkStep np F B dt [(2/3, 1/4), (5/12, 3/20), (3/5, 3/5)])^[k] s0).q ∈ K := by
  rw [C77_grid_values hh hB F dt s0 ⟨restrict np s0.q, restrict np s0.q, restrict np s0.q⟩ rfl k]
  exact RK.C90_default hK hτ hF d0 d1 _ h0 k

/-- C90: so do simulations with the strong stability preserving low storage scheme and smaller time steps, whatever its register held. -/
theorem C90_simulation_ssp {np : Fin D → ℤ} {h : ℤ} (hh : 0 ≤ h) {F B : Sol D n → Sol D n} (hB : FillsHalos np h B) (s0 : TState D n) {K : Set (GridSol np n)} (hK : Convex ℝ K) {τ : ℝ} (hτ : 0 < τ)
    (hF : EulerKeeps (onGridValues np F B s0.q) K τ) {dt : ℝ} (d0 : 0 ≤ dt) (d1 : dt ≤ 8 / 25 * τ) (h0 : restrict np s0.q ∈ K) (k : ℕ) :
    restrict np ((lsStep np F B dt (RK.sspA.zip RK.sspB))^[k] s0).q ∈ K := by
  rw [C77_grid_values_ls hh hB F dt RK.sspA RK.sspB s0 ⟨restrict np s0.q, restrict np s0.aux, restrict np s0.q⟩ rfl rfl k]
  exact RK.C90_ssp hK hτ hF d0 d1 _ h0 k

/-- C90: and so does the printed program: its solution arrays, at the end and in the files with a number, hold values in the set. Partial: as C85. -/
theorem C90_text_partial {T : Text D} {S : Setup D n} {U : Arr → Prop} {pts : Ranges.Kernel D → List (P D)} {inp : Input (Call D)} {prg : List (Node (Call D))} (hS : T.Suits S .rk inp U)
    (hP : Program S .rk (T.meaning (T.const prg) 0) pts inp prg) (hst : inp.stages = 3) (hnew : T.table "rknew" = [2/3, 5/12, 3/5]) (hold : T.table "rkold" = [1/4, 3/20, 3/5])
    {B : Sol D n → Sol D n} (hB : FillsHalos S.np S.h B) (a : Arrays D) (full : Sol D n → String → P D → ℝ)
    (hfull : ∀ q, Consistent S (T.meaning (T.const prg) 0) (fun s => T.startState S prg pts B inp a (.data s)) q (full q)) {K : Set (GridSol S.np n)} (hK : Convex ℝ K) {τ : ℝ} (hτ : 0 < τ)
    (hF : EulerKeeps (onGridValues S.np (fun q i x => (S.rhs i).eval (T.meaning (T.const prg) 0) (memOf (full q)) x) B (stateOf S (T.startState S prg pts B inp a)).q) K τ)
    (d0 : 0 ≤ T.const prg "dt") (d1 : T.const prg "dt" ≤ 3 / 5 * τ) (h0 : restrict S.np (stateOf S (T.startState S prg pts B inp a)).q ∈ K) :
    let inside (a' : Arrays D) := (fun i (x : {x // Grid S.np x}) => a' (T.names (.data (S.sol i))) x) ∈ K
    (∃ a', T.run prg pts S.sol B (runProgram prg) a = some a' ∧ inside a') ∧
    ∀ before after o (k : ℤ) e, runProgram prg = before ++ .write o (some k) e :: after → ∃ a', T.run prg pts S.sol B before a = some a' ∧ inside a' := by
  intro inside
  have key := C90_simulation (Int.natCast_nonneg _) hB _ hK hτ hF d0 d1 h0
  obtain ⟨⟨a', r1, r2⟩, r3⟩ := C85_rk_partial hS hP hst hnew hold B a full hfull
  refine ⟨⟨a', r1, ?_⟩, fun before after o k e he => ?_⟩
  · simp only [inside, r2]
    exact key _
  · obtain ⟨j, -, -, -, a', s1, s2⟩ := r3 before after o k e he
    refine ⟨a', s1, ?_⟩
    simp only [inside, s2]
    exact key _

end OpenSBLI.Sim
