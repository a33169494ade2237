import Verif.Lemmas.SimulationTextSetup

/-!
# C85: the C text of a generated program computes what the equations say

`C77` is about programs whose kernels are equations. Here the kernels are the functions printed by the code generator, called point by point with the constants
defined in the program. The text of derivatives contains the weights and the generated constants for the inverse spacings.
-/
namespace OpenSBLI.Sim
open OpenSBLI.Reg OpenSBLI.CCode

variable {D n : ℕ} {T : Text D} {S : Setup D n} {pts : Ranges.Kernel D → List (P D)} {inp : Alg.Input (Call D)} {prg : List (Alg.Node (Call D))} {U : Arr → Prop}

/-- C85: the run of any part of a program whose kernels have a faithful text, with their printed functions, compiles and changes every array as the equations
say, also the kernels of other equations, such as initial conditions with grid indices, whose text says what they compute, the derivatives being central differences, or the formulas of a closure close to a boundary, with the spacings of the program. -/
theorem C85_text_run_partial {sol : Fin n → String} (hF : T.Fits prg U sol) (hN : ∀ k, .fn k ∈ written prg → ∀ eqs, T.fns k = some eqs → T.Says U k eqs) (B : Sol D n → Sol D n) (events : List (Alg.Event (Call D)))
    (hv : ∀ v ∈ events, v ∈ Alg.runProgram prg) (a : Arrays D) : ∃ a', T.run prg pts sol B events a = some a' ∧
      ∀ A, U A → a' (T.names A) = Alg.effect (exec (T.meaning (T.const prg) 0) pts sol B) events (fun A => a (T.names A)) A :=
  run_agree hF pts B events hv _ (fun pre k e suf he hs => by
    have hw : .fn k ∈ written prg := written_of_call _ e (hv _ (by rw [he]; simp))
    obtain ⟨eqs, hq⟩ := Option.isSome_iff_exists.1 hs
    exact says_body hF pts k hw eqs hq (hN k hw eqs hq) _) a fun _ _ => rfl

/-- C85: the constants of the program have the values of the input file, or the values of their definitions. -/
theorem C85_constants {sol : Fin n → String} (hF : T.Fits prg U sol) (c : Const (Sym D)) (hc : c ∈ T.start.constants) (o : Outer D ℝ) (ho : o.const = T.const prg)
    (hv : ∀ k, c.value = some k → k.Closed) (st : CCode.Mem D ℝ) :
    T.const prg c.name = match c.value with | none => T.inputs c.name | some k => k.val T.lib o st :=
  constants_hold hF.registered hF.allProper c hc o ho hv st

theorem formulaAt_none {d : Fin D} (h : ¬ T.hasClosure d) (np : ℤ) (k : ℕ) (i : ℤ) : T.formulaAt np d k i = none := by
  simp only [Text.hasClosure, not_or, Option.not_isSome_iff_eq_none] at h
  simp [Text.formulaAt, h.1, h.2, Text.formulas]

theorem central_meaning (ho : T.order = S.order) (hm : ∀ d, ¬ T.hasClosure d) (c : String → ℝ) (stage : ℤ) : IsCentral S (T.meaning c stage) fun d => c (T.delta d) := by
  intro d k f x
  simp only [Text.meaning, ho, formulaAt_none (hm d)]
  rfl

/-- The state of the time integration in the arrays before the time loop. -/
noncomputable def Text.startState (T : Text D) (S : Setup D n) (prg : List (Alg.Node (Call D))) (pts : Ranges.Kernel D → List (P D)) (B : Sol D n → Sol D n)
    (inp : Alg.Input (Call D)) (a : Arrays D) : Mem D := atStart (T.meaning (T.const prg) 0) pts S.sol B inp fun A => a (T.names A)

/-- C85: the printed program of the three stage scheme compiles, and its solution arrays have, at the end and in the files with a number, the Runge-Kutta iterates
of the system of equations, discretised with central differences of the order of the scheme and the closures at boundaries, with the spacings of the program.
Partial: as C77 and C75. -/
theorem C85_rk_partial (hS : T.Suits S .rk inp U) (hP : Program S .rk (T.meaning (T.const prg) 0) pts inp prg) (hst : inp.stages = 3)
    (hnew : T.table "rknew" = [2/3, 5/12, 3/5]) (hold : T.table "rkold" = [1/4, 3/20, 3/5]) (B : Sol D n → Sol D n) (a : Arrays D) (full : Sol D n → String → P D → ℝ)
    (hfull : ∀ q, Consistent S (T.meaning (T.const prg) 0) (fun s => T.startState S prg pts B inp a (.data s)) q (full q)) :
    let step := rkStep S.np (fun q i x => (S.rhs i).eval (T.meaning (T.const prg) 0) (memOf (full q)) x) B (T.const prg "dt") [(2/3, 1/4), (5/12, 3/20), (3/5, 3/5)]
    let s0 := stateOf S (T.startState S prg pts B inp a)
    (∃ a', T.run prg pts S.sol B (Alg.runProgram prg) a = some a' ∧ ∀ i, a' (T.names (.data (S.sol i))) = (step^[inp.niter.toNat] s0).q i) ∧
    ∀ before after o k e, Alg.runProgram prg = before ++ .write o (some k) e :: after → ∃ j : ℕ, (j : ℤ) = k ∧ 1 ≤ j ∧ j ≤ inp.niter.toNat ∧
      ∃ a', T.run prg pts S.sol B before a = some a' ∧ ∀ i, a' (T.names (.data (S.sol i))) = (step^[j] s0).q i := by
  obtain ⟨h1, h2⟩ := C77_program_rk_partial hP hst hnew hold B (fun A => a (T.names A)) full hfull
  obtain ⟨hF, hN⟩ := fits hS hP
  refine ⟨?_, fun before after o k e he => ?_⟩
  · obtain ⟨a', r1, r2⟩ := C85_text_run_partial (pts := pts) hF hN B _ (fun _ h => h) a
    exact ⟨a', r1, fun i => (r2 _ (hS.arrays i).2.2).trans (h1 i)⟩
  · obtain ⟨j, j1, j2, j3, j4⟩ := h2 before after o k e he
    obtain ⟨a', r1, r2⟩ := C85_text_run_partial (pts := pts) hF hN B before (fun v hv => by rw [he]; exact List.mem_append_left _ hv) a
    exact ⟨j, j1, j2, j3, a', r1, fun i => (r2 _ (hS.arrays i).2.2).trans (j4 i)⟩

/-- C85: so does the printed program of a low storage scheme with any number of stages. -/
theorem C85_ls_partial (hS : T.Suits S .lowStorage inp U) (hP : Program S .lowStorage (T.meaning (T.const prg) 0) pts inp prg) (A C : List ℝ) (hAC : A.length = C.length)
    (hst : inp.stages = A.length) (hA : T.table "rkA" = A) (hC : T.table "rkB" = C) (B : Sol D n → Sol D n) (a : Arrays D) (full : Sol D n → String → P D → ℝ)
    (hfull : ∀ q, Consistent S (T.meaning (T.const prg) 0) (fun s => T.startState S prg pts B inp a (.data s)) q (full q)) :
    let step := lsStep S.np (fun q i x => (S.rhs i).eval (T.meaning (T.const prg) 0) (memOf (full q)) x) B (T.const prg "dt") (A.zip C)
    let s0 := stateOf S (T.startState S prg pts B inp a)
    (∃ a', T.run prg pts S.sol B (Alg.runProgram prg) a = some a' ∧ ∀ i, a' (T.names (.data (S.sol i))) = (step^[inp.niter.toNat] s0).q i) ∧
    ∀ before after o k e, Alg.runProgram prg = before ++ .write o (some k) e :: after → ∃ j : ℕ, (j : ℤ) = k ∧ 1 ≤ j ∧ j ≤ inp.niter.toNat ∧
      ∃ a', T.run prg pts S.sol B before a = some a' ∧ ∀ i, a' (T.names (.data (S.sol i))) = (step^[j] s0).q i := by
  obtain ⟨h1, h2⟩ := C77_program_ls_partial hP A C hAC hst hA hC B (fun A => a (T.names A)) full hfull
  obtain ⟨hF, hN⟩ := fits hS hP
  refine ⟨?_, fun before after o k e he => ?_⟩
  · obtain ⟨a', r1, r2⟩ := C85_text_run_partial (pts := pts) hF hN B _ (fun _ h => h) a
    exact ⟨a', r1, fun i => (r2 _ (hS.arrays i).2.2).trans (h1 i)⟩
  · obtain ⟨j, j1, j2, j3, j4⟩ := h2 before after o k e he
    obtain ⟨a', r1, r2⟩ := C85_text_run_partial (pts := pts) hF hN B before (fun v hv => by rw [he]; exact List.mem_append_left _ hv) a
    exact ⟨j, j1, j2, j3, a', r1, fun i => (r2 _ (hS.arrays i).2.2).trans (j4 i)⟩

/-- The run of the text conserves the sum over the grid of a component: at the end of the program and in every file with a number. -/
def TextConserves (T : Text D) (S : Setup D n) (pts : Ranges.Kernel D → List (P D)) (B : Sol D n → Sol D n) (inp : Alg.Input (Call D)) (prg : List (Alg.Node (Call D)))
    (a : Arrays D) (i : Fin n) : Prop :=
  let start := ∑ x ∈ gridPoints S.np, T.startState S prg pts B inp a (.data (S.sol i)) x
  (∃ a', T.run prg pts S.sol B (Alg.runProgram prg) a = some a' ∧ ∑ x ∈ gridPoints S.np, a' (T.names (.data (S.sol i))) x = start) ∧
  ∀ before after o k e, Alg.runProgram prg = before ++ .write o (some k) e :: after →
    ∃ a', T.run prg pts S.sol B before a = some a' ∧ ∑ x ∈ gridPoints S.np, a' (T.names (.data (S.sol i))) x = start

theorem text_conserves {t : Temporal} (hS : T.Suits S t inp U) (hP : Program S t (T.meaning (T.const prg) 0) pts inp prg) (B : Sol D n → Sol D n) (a : Arrays D) (i : Fin n)
    (h : Conserves S (T.meaning (T.const prg) 0) pts B inp prg (fun A => a (T.names A)) i) : TextConserves T S pts B inp prg a i := by
  obtain ⟨hF, hN⟩ := fits hS hP
  refine ⟨?_, fun before after o k e he => ?_⟩
  · obtain ⟨a', r1, r2⟩ := C85_text_run_partial (pts := pts) hF hN B _ (fun _ h => h) a
    exact ⟨a', r1, by rw [r2 _ (hS.arrays i).2.2]; exact h.1⟩
  · obtain ⟨a', r1, r2⟩ := C85_text_run_partial (pts := pts) hF hN B before (fun v hv => by rw [he]; exact List.mem_append_left _ hv) a
    exact ⟨a', r1, by rw [r2 _ (hS.arrays i).2.2]; exact h.2 before after o k e he⟩

/-- C85: on a periodic box the printed program of the three stage scheme conserves the sum over the grid of every component whose right hand side is a sum of
derivatives, whatever the number of steps and points and the values of the constants. -/
theorem C85_conservation_rk_partial (hS : T.Suits S .rk inp U) (hP : Program S .rk (T.meaning (T.const prg) 0) pts inp prg) (hcl : Closed S) (hm : ∀ d, ¬ T.hasClosure d) (hn : ∀ d, S.h ≤ S.np d)
    (hst : inp.stages = 3) (hnew : T.table "rknew" = [2/3, 5/12, 3/5]) (hold : T.table "rkold" = [1/4, 3/20, 3/5]) (a : Arrays D) (i : Fin n)
    (hi : (S.rhs i).fluxes = true) : TextConserves T S pts (exchange S.np S.h) inp prg a i :=
  text_conserves hS hP _ a i (C77_conservation_rk hP (central_meaning hS.order hm _ _) hcl hn hst hnew hold _ i hi)

/-- C85: so does that of a low storage scheme. -/
theorem C85_conservation_ls_partial (hS : T.Suits S .lowStorage inp U) (hP : Program S .lowStorage (T.meaning (T.const prg) 0) pts inp prg) (hcl : Closed S) (hm : ∀ d, ¬ T.hasClosure d)
    (hn : ∀ d, S.h ≤ S.np d) (A C : List ℝ) (hAC : A.length = C.length) (hst : inp.stages = A.length) (hA : T.table "rkA" = A) (hC : T.table "rkB" = C)
    (hA0 : A.head? = some 0) (a : Arrays D) (i : Fin n) (hi : (S.rhs i).fluxes = true) : TextConserves T S pts (exchange S.np S.h) inp prg a i :=
  text_conserves hS hP _ a i (C77_conservation_ls hP (central_meaning hS.order hm _ _) hcl hn A C hAC hst hA hC hA0 _ i hi)

end OpenSBLI.Sim
