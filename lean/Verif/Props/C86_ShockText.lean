import Verif.Lemmas.ShockTextSetup
import Verif.Props.C78_Conservation
import Verif.Props.C85_SimulationText

/-!
# C86: the text of a program with a shock capturing scheme

The printed program (`Model/CCode.lean`, `Model/SimulationText.lean`), with the texts of the kernels of the scheme (`Model/ShockText.lean`), run on arrays identified by their names.
-/
namespace OpenSBLI.Sim
open Recon CCode Reg

variable {D n : ℕ} {T : Text D} {U : Arr → Prop} {lit : ℝ → Sym D} {S : Sympy D} {prg : List (Alg.Node (Call D))} {pts : Ranges.Kernel D → List (P D)}
  {C : Shock D n} {K : Fin D → Input D n} {inp : Alg.Input (Call D)}

/-! ## One call -/

/-- C86: the printed function of the reconstruction kernel compiles, wherever the kernel is in the program. Called at a point with arrays that hold a regular state, it stores the interface fluxes of the scheme in the work arrays at this
point and changes no other entry of any array. For every scheme, averaging procedure and number of components up to ten, with the adaptive TENO scheme too. -/
theorem C86_reconstruction {sol : Fin n → String} (hF : T.Fits prg U sol) (hM : Maths T.lib) {K : Input D n} (hK : K.Writable S T U lit) {k : FnKer D} (hk : .fn k ∈ written prg) {eqs : List (Eqn D)}
    (he : K.text S T lit = some eqs) (hf : T.fns k = some eqs) (hS : S.Sound (T.meaning (T.const prg) 0)) (hO : K.Ok (T.meaning (T.const prg) 0)) (hN : K.Named) (stage : ℤ) (a : Arrays D) (m : Mem D) (x : P D)
    (ha : ∀ s, U (.data s) → a (T.names (.data s)) = m (.data s)) (hx : K.RegularAt (T.meaning (T.const prg) 0) m x) :
    ∃ a', T.callAt prg (.fn k) stage a x = some a' ∧
      (∀ i, a' (T.names (.work (K.C.reconWork K.d i))) x = Llf.interfaceFlux (K.schemeAt (T.meaning (T.const prg) 0) m x) (K.C.line (T.meaning (T.const prg) 0) m K.d x) 0 i) ∧
      ∀ b y, (y ≠ x ∨ ∀ i, b ≠ T.names (.work (K.C.reconWork K.d i))) → a' b y = a b y := by
  obtain ⟨v, a', h1, h2, h3, h4⟩ := recon_call hF.lib hF.powers hM hF.registered hF.allProper hF.injective hK hk he hf stage a m x ha
  rw [C81_kernel K S _ hS hO hN m x hx, Option.some.injEq] at h1
  subst h1
  exact ⟨a', h2, h3, h4⟩

/-- C86: a constant defined as `gama - 1` has this value in the program, whatever the input file. -/
theorem C86_gamma {sol : Fin n → String} (hF : T.Fits prg U sol) (h : ⟨"gamma_m1", some (.add (.const "gama") (.num (-1)))⟩ ∈ T.start.constants) : T.const prg "gamma_m1" = T.const prg "gama" - 1 := by
  have := C85_constants hF _ h ⟨T.const prg, fun _ => 0, fun _ => 0⟩ rfl (fun k hk => by cases hk; exact ⟨trivial, trivial⟩) ⟨fun _ _ => 0, fun _ => 0⟩
  simp only [Sym.val] at this
  rw [this]
  push_cast
  ring

/-! ## The program -/

/-- What is asked of the meaning of a problem: SymPy keeps values, constants are those of the scheme and of the averaging procedure, variables have different names. -/
structure Captured (C : Shock D n) (K : Fin D → Input D n) (S : Sympy D) (I : Interp D) : Prop where
  sound : S.Sound I
  ok : ∀ d ∈ C.dirs, (K d).Ok I
  named : ∀ d ∈ C.dirs, (K d).Named

/-- No singular state is met: whenever a reconstruction kernel is called, the state is regular at the points of its range. -/
def NeverSingular (T : Text D) (C : Shock D n) (K : Fin D → Input D n) (pts : Ranges.Kernel D → List (P D)) (prg : List (Alg.Node (Call D))) (B : Sol D n → Sol D n) (a : Arrays D) : Prop :=
  ∀ before d e after, d ∈ C.dirs → Alg.runProgram prg = before ++ .call (.fn (C.reconKernel d)) e :: after → ∀ x, (C.reconKernel d).range.visits x →
    (K d).RegularAt (T.meaning (T.const prg) 0) (Alg.effect (exec (T.meaning (T.const prg) 0) pts C.sol B) before fun A => a (T.names A)) x

/-- C86: the printed program compiles, and after any part of it the arrays hold what the program of C78 computes. Partial: for states without singular powers; see C85 for the kernels of the boundary conditions. -/
theorem C86_text_run_partial {t : Temporal} (hT : T.Captures C K S lit t inp U) (hP : ShockProgram C t (T.meaning (T.const prg) 0) pts inp prg) (hc : Captured C K S (T.meaning (T.const prg) 0)) (B : Sol D n → Sol D n)
    (a : Arrays D) (hreg : NeverSingular T C K pts prg B a) (events rest : List (Alg.Event (Call D))) (hev : Alg.runProgram prg = events ++ rest) :
    ∃ a', T.run prg pts C.sol B events a = some a' ∧ ∀ A, U A → a' (T.names A) = Alg.effect (exec (T.meaning (T.const prg) 0) pts C.sol B) events (fun A => a (T.names A)) A := by
  classical
  obtain ⟨hF, hN⟩ := shock_fits hT hP
  have hC : C.Core := hP.valid.toCore
  refine run_agree hF pts B events (fun v hv => by rw [hev]; exact List.mem_append_left _ hv) _ (fun pre k e suf he hs => ?_) a fun _ _ => rfl
  have hw : .fn k ∈ written prg := written_of_call _ e (by rw [hev, he]; simp)
  rcases hN k hw hs with ⟨eqs, h1, h2⟩ | ⟨d, hd, rfl⟩ | rfl
  · exact says_body hF pts k hw eqs h1 h2 _
  · obtain ⟨eqs, h1, h2⟩ := hT.recon d hd
    obtain ⟨k1, k2, k3⟩ := hT.kernels d hd
    have := hreg pre d e (suf ++ rest) hd (by rw [hev, he]; simp)
    have hbody := fun (h1 : (K d).C.Core) h2 h3 h4 => recon_body (K := K d) (eqs := eqs) (m := Alg.effect (exec (T.meaning (T.const prg) 0) pts C.sol B) pre fun A => a (T.names A)) hP.loops hF.lib hF.powers hT.maths hF.registered
      hF.allProper hF.injective (hT.writable d hd) h1 h2 h3 h4
    rw [k1, k2] at hbody
    exact hbody hC hd hw h1 h2 hc.sound (hc.ok d hd) (hc.named d hd) k3 this
  · exact residual_body hP.loops hF.lib hF.registered hF.allProper hF.injective hC hT.printable hT.suits.works (fun i => (hT.suits.rhs i).1) (fun i => (hT.suits.arrays i).1) hw hT.residual _

/-- C86: the printed program of the three stage scheme. It compiles, and its solution arrays have, at the end and in the files with a number, the Runge-Kutta iterates of the differences of the numerical fluxes. -/
theorem C86_rk_partial (hT : T.Captures C K S lit .rk inp U) (hP : ShockProgram C .rk (T.meaning (T.const prg) 0) pts inp prg) (hc : Captured C K S (T.meaning (T.const prg) 0)) (hst : inp.stages = 3)
    (hnew : T.table "rknew" = [2/3, 5/12, 3/5]) (hold : T.table "rkold" = [1/4, 3/20, 3/5]) (B : Sol D n → Sol D n) (a : Arrays D) (hreg : NeverSingular T C K pts prg B a) (full : Sol D n → String → P D → ℝ)
    (hfull : ∀ q, ConsistentOn C.toSetup C.required (T.meaning (T.const prg) 0) (fun s => T.startState C.toSetup prg pts B inp a (.data s)) q (full q)) :
    let step := rkStep C.np (fun q i x => shockRhs C (T.meaning (T.const prg) 0) (full q) i x) B (T.const prg "dt") [(2/3, 1/4), (5/12, 3/20), (3/5, 3/5)]
    let s0 := stateOf C.toSetup (T.startState C.toSetup prg pts B inp a)
    (∃ a', T.run prg pts C.sol B (Alg.runProgram prg) a = some a' ∧ ∀ i, a' (T.names (.data (C.sol i))) = (step^[inp.niter.toNat] s0).q i) ∧
    ∀ before after o k e, Alg.runProgram prg = before ++ .write o (some k) e :: after → ∃ j : ℕ, (j : ℤ) = k ∧ 1 ≤ j ∧ j ≤ inp.niter.toNat ∧
      ∃ a', T.run prg pts C.sol B before a = some a' ∧ ∀ i, a' (T.names (.data (C.sol i))) = (step^[j] s0).q i := by
  obtain ⟨h1, h2⟩ := C78_program_rk_partial hP hst hnew hold B (fun A => a (T.names A)) full hfull
  refine ⟨?_, fun before after o k e he => ?_⟩
  · obtain ⟨a', r1, r2⟩ := C86_text_run_partial hT hP hc B a hreg _ [] (List.append_nil _).symm
    exact ⟨a', r1, fun i => (r2 _ (hT.suits.arrays i).2.2).trans (h1 i)⟩
  · obtain ⟨j, j1, j2, j3, j4⟩ := h2 before after o k e he
    obtain ⟨a', r1, r2⟩ := C86_text_run_partial hT hP hc B a hreg before _ he
    exact ⟨j, j1, j2, j3, a', r1, fun i => (r2 _ (hT.suits.arrays i).2.2).trans (j4 i)⟩

/-- C86: so has the printed program of a low storage scheme with any number of stages. -/
theorem C86_ls_partial (hT : T.Captures C K S lit .lowStorage inp U) (hP : ShockProgram C .lowStorage (T.meaning (T.const prg) 0) pts inp prg) (hc : Captured C K S (T.meaning (T.const prg) 0)) (A L : List ℝ)
    (hAL : A.length = L.length) (hst : inp.stages = A.length) (hA : T.table "rkA" = A) (hL : T.table "rkB" = L) (B : Sol D n → Sol D n) (a : Arrays D) (hreg : NeverSingular T C K pts prg B a)
    (full : Sol D n → String → P D → ℝ)
    (hfull : ∀ q, ConsistentOn C.toSetup C.required (T.meaning (T.const prg) 0) (fun s => T.startState C.toSetup prg pts B inp a (.data s)) q (full q)) :
    let step := lsStep C.np (fun q i x => shockRhs C (T.meaning (T.const prg) 0) (full q) i x) B (T.const prg "dt") (A.zip L)
    let s0 := stateOf C.toSetup (T.startState C.toSetup prg pts B inp a)
    (∃ a', T.run prg pts C.sol B (Alg.runProgram prg) a = some a' ∧ ∀ i, a' (T.names (.data (C.sol i))) = (step^[inp.niter.toNat] s0).q i) ∧
    ∀ before after o k e, Alg.runProgram prg = before ++ .write o (some k) e :: after → ∃ j : ℕ, (j : ℤ) = k ∧ 1 ≤ j ∧ j ≤ inp.niter.toNat ∧
      ∃ a', T.run prg pts C.sol B before a = some a' ∧ ∀ i, a' (T.names (.data (C.sol i))) = (step^[j] s0).q i := by
  obtain ⟨h1, h2⟩ := C78_program_ls_partial hP A L hAL hst hA hL B (fun A => a (T.names A)) full hfull
  refine ⟨?_, fun before after o k e he => ?_⟩
  · obtain ⟨a', r1, r2⟩ := C86_text_run_partial hT hP hc B a hreg _ [] (List.append_nil _).symm
    exact ⟨a', r1, fun i => (r2 _ (hT.suits.arrays i).2.2).trans (h1 i)⟩
  · obtain ⟨j, j1, j2, j3, j4⟩ := h2 before after o k e he
    obtain ⟨a', r1, r2⟩ := C86_text_run_partial hT hP hc B a hreg before _ he
    exact ⟨j, j1, j2, j3, a', r1, fun i => (r2 _ (hT.suits.arrays i).2.2).trans (j4 i)⟩

theorem shock_text_conserves {t : Temporal} (hT : T.Captures C K S lit t inp U) (hP : ShockProgram C t (T.meaning (T.const prg) 0) pts inp prg) (hc : Captured C K S (T.meaning (T.const prg) 0)) (B : Sol D n → Sol D n)
    (a : Arrays D) (hreg : NeverSingular T C K pts prg B a) (i : Fin n) (h : Conserves C.toSetup (T.meaning (T.const prg) 0) pts B inp prg (fun A => a (T.names A)) i) : TextConserves T C.toSetup pts B inp prg a i := by
  refine ⟨?_, fun before after o k e he => ?_⟩
  · obtain ⟨a', r1, r2⟩ := C86_text_run_partial hT hP hc B a hreg _ [] (List.append_nil _).symm
    exact ⟨a', r1, by rw [r2 _ (hT.suits.arrays i).2.2]; exact h.1⟩
  · obtain ⟨a', r1, r2⟩ := C86_text_run_partial hT hP hc B a hreg before _ he
    exact ⟨a', r1, by rw [r2 _ (hT.suits.arrays i).2.2]; exact h.2 before after o k e he⟩

variable [NeZero D]

/-- C86: on a periodic box the printed program of the three stage scheme conserves the sum over the grid of every component whose equation has flux derivatives with constant coefficients. -/
theorem C86_conservation_rk_partial (hT : T.Captures C K S lit .rk inp U) (hP : ShockProgram C .rk (T.meaning (T.const prg) 0) pts inp prg) (hc : Captured C K S (T.meaning (T.const prg) 0)) (hm : ∀ d, ¬ T.hasClosure d)
    (hcl : C.Closed) (h0 : (0 : Fin D) ∈ C.dirs) (hn : ∀ d, C.reach ≤ C.np d) (hst : inp.stages = 3) (hnew : T.table "rknew" = [2/3, 5/12, 3/5]) (hold : T.table "rkold" = [1/4, 3/20, 3/5])
    (a : Arrays D) (hreg : NeverSingular T C K pts prg C.exchange a) (i : Fin n) (hco : ∀ d ∈ C.dirs, (C.coef d i).coef = true) (hi : (C.rhs i).fluxes = true) : TextConserves T C.toSetup pts C.exchange inp prg a i :=
  shock_text_conserves hT hP hc _ a hreg i (C78_conservation_rk hP (central_meaning hT.suits.order hm _ _) hcl h0 hn hst hnew hold _ i hco hi)

/-- C86: so does that of a low storage scheme. -/
theorem C86_conservation_ls_partial (hT : T.Captures C K S lit .lowStorage inp U) (hP : ShockProgram C .lowStorage (T.meaning (T.const prg) 0) pts inp prg) (hc : Captured C K S (T.meaning (T.const prg) 0))
    (hm : ∀ d, ¬ T.hasClosure d) (hcl : C.Closed) (h0 : (0 : Fin D) ∈ C.dirs) (hn : ∀ d, C.reach ≤ C.np d) (A L : List ℝ) (hAL : A.length = L.length) (hst : inp.stages = A.length) (hA : T.table "rkA" = A)
    (hL : T.table "rkB" = L) (hA0 : A.head? = some 0) (a : Arrays D) (hreg : NeverSingular T C K pts prg C.exchange a) (i : Fin n) (hco : ∀ d ∈ C.dirs, (C.coef d i).coef = true) (hi : (C.rhs i).fluxes = true) :
    TextConserves T C.toSetup pts C.exchange inp prg a i :=
  shock_text_conserves hT hP hc _ a hreg i (C78_conservation_ls hP (central_meaning hT.suits.order hm _ _) hcl h0 hn A L hAL hst hA hL hA0 _ i hco hi)

end OpenSBLI.Sim
