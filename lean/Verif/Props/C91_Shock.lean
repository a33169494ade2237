import Verif.Props.C91_Conditions
import Verif.Props.C86_ShockText

/-!
# C91: printed boundary conditions in programs with shock capturing schemes
-/
namespace OpenSBLI.Bc
open OpenSBLI.CCode OpenSBLI.Sim OpenSBLI.Reg

variable {D n : ℕ} {T : Text D} {prg : List (Alg.Node (Call D))} {pts : Ranges.Kernel D → List (P D)} {vs : Fin n → Var D} {C : Shock D n} {K : Fin D → Recon.Input D n} {Y : Recon.Sympy D} {lit : ℝ → Sym D}
  {inp : Alg.Input (Call D)} {U : Sim.Arr → Prop}

/-- C91: the complete printed program of a shock capturing scheme, with the kernels of its boundary conditions, performs the Runge-Kutta steps of the scheme with these conditions. Partial: as C86. -/
theorem C91_shock_rk_partial (hT : T.Captures C K Y lit .rk inp U) (hP : ShockProgram C .rk (T.meaning (T.const prg) 0) pts inp prg) (hc : Captured C K Y (T.meaning (T.const prg) 0)) (hst : inp.stages = 3)
    (hnew : T.table "rknew" = [2/3, 5/12, 3/5]) (hold : T.table "rkold" = [1/4, 3/20, 3/5]) {items : List (Item D)} (h : List.Forall₂ (Renders T prg C.sol vs) T.bcs items) (a : Arrays D)
    (hreg : NeverSingular T C K pts prg (conditions vs items) a) (full : Sol D n → String → P D → ℝ)
    (hfull : ∀ q, ConsistentOn C.toSetup C.required (T.meaning (T.const prg) 0) (fun s => T.startState C.toSetup prg pts (conditions vs items) inp a (.data s)) q (full q)) :
    let step := rkStep C.np (fun q i x => shockRhs C (T.meaning (T.const prg) 0) (full q) i x) (conditions vs items) (T.const prg "dt") [(2/3, 1/4), (5/12, 3/20), (3/5, 3/5)]
    let s0 := stateOf C.toSetup (T.startState C.toSetup prg pts (conditions vs items) inp a)
    (∃ a', T.runText prg pts (Alg.runProgram prg) a = some a' ∧ ∀ i, a' (T.names (.data (C.sol i))) = (step^[inp.niter.toNat] s0).q i) ∧
    ∀ before after o k e, Alg.runProgram prg = before ++ .write o (some k) e :: after → ∃ j : ℕ, (j : ℤ) = k ∧ 1 ≤ j ∧ j ≤ inp.niter.toNat ∧
      ∃ a', T.runText prg pts before a = some a' ∧ ∀ i, a' (T.names (.data (C.sol i))) = (step^[j] s0).q i := by
  intro step s0
  obtain ⟨h1, h2⟩ := C86_rk_partial hT hP hc hst hnew hold (conditions vs items) a hreg full hfull
  have hF := (shock_fits hT hP).1
  refine ⟨?_, fun before after o k e he => ?_⟩
  · rw [C91_program hF hP.loops h _ (fun _ h => h)]
    exact h1
  · rw [C91_program hF hP.loops h _ (fun v hv => by rw [he]; exact List.mem_append_left _ hv)]
    exact h2 before after o k e he

/-- C91: so does that of a low storage scheme. Partial: as C86. -/
theorem C91_shock_ls_partial (hT : T.Captures C K Y lit .lowStorage inp U) (hP : ShockProgram C .lowStorage (T.meaning (T.const prg) 0) pts inp prg) (hc : Captured C K Y (T.meaning (T.const prg) 0)) (A L : List ℝ)
    (hAL : A.length = L.length) (hst : inp.stages = A.length) (hA : T.table "rkA" = A) (hL : T.table "rkB" = L) {items : List (Item D)} (h : List.Forall₂ (Renders T prg C.sol vs) T.bcs items) (a : Arrays D)
    (hreg : NeverSingular T C K pts prg (conditions vs items) a) (full : Sol D n → String → P D → ℝ)
    (hfull : ∀ q, ConsistentOn C.toSetup C.required (T.meaning (T.const prg) 0) (fun s => T.startState C.toSetup prg pts (conditions vs items) inp a (.data s)) q (full q)) :
    let step := lsStep C.np (fun q i x => shockRhs C (T.meaning (T.const prg) 0) (full q) i x) (conditions vs items) (T.const prg "dt") (A.zip L)
    let s0 := stateOf C.toSetup (T.startState C.toSetup prg pts (conditions vs items) inp a)
    (∃ a', T.runText prg pts (Alg.runProgram prg) a = some a' ∧ ∀ i, a' (T.names (.data (C.sol i))) = (step^[inp.niter.toNat] s0).q i) ∧
    ∀ before after o k e, Alg.runProgram prg = before ++ .write o (some k) e :: after → ∃ j : ℕ, (j : ℤ) = k ∧ 1 ≤ j ∧ j ≤ inp.niter.toNat ∧
      ∃ a', T.runText prg pts before a = some a' ∧ ∀ i, a' (T.names (.data (C.sol i))) = (step^[j] s0).q i := by
  intro step s0
  obtain ⟨h1, h2⟩ := C86_ls_partial hT hP hc A L hAL hst hA hL (conditions vs items) a hreg full hfull
  have hF := (shock_fits hT hP).1
  refine ⟨?_, fun before after o k e he => ?_⟩
  · rw [C91_program hF hP.loops h _ (fun _ h => h)]
    exact h1
  · rw [C91_program hF hP.loops h _ (fun v hv => by rw [he]; exact List.mem_append_left _ hv)]
    exact h2 before after o k e he

end OpenSBLI.Bc
