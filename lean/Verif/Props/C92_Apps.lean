import Verif.Props.C92_Notation
import Verif.Props.C88_Wave
import Verif.Props.C91_Tube

/-!
# C92: equations of the applications in index notation, and their programs
-/
namespace OpenSBLI.Note
open OpenSBLI.Ein OpenSBLI.Sim

/-- Abbreviations for writing equations as the parser reads them. -/
def sym (b : String) : Expr := .term b []
def neg (e : Expr) : Expr := .mul (sym "-1") e

/-- The numbers, and the constants of the applications. -/
def reading (constants : List String) : Reading where
  coordinate := "x"
  number s := if s = "-1" then some (-1) else if s = "1/2" then some (1/2) else if s = "2/3" then some (2/3) else if s = "2" then some 2 else none
  constants := constants

/-- `Eq(Der(phi,t), -c_j*Der(phi,x_j))`, apps/wave/wave.py. -/
def waveEquation : Expr × Expr := (.fn "Der" (sym "phi") (sym "t"), neg (.mul (.term "c" ["j"]) (.fn "Der" (sym "phi") (.term "x" ["j"]))))

/-- The equation of apps/wave becomes the equation of the simulation of C88. -/
theorem wave_reads (N : ℤ) : Reads (reading ["c"]) id [waveEquation] [] (wave N) where
  coordinate := by decide
  dimensions := by decide
  equations := by with_unfolding_all rfl
  relations := by with_unfolding_all rfl

/-- C92: the program of apps/wave, from its equation in index notation. Nothing is assumed about the program. -/
theorem C92_wave (inputs : String → ℝ) (N niter : ℕ) (pts : Ranges.Kernel 1 → List (P 1)) (hp : Enumerates pts) (B : Sol 1 1 → Sol 1 1) (a : Arrays 1) :
    ∃ prg, Alg.generate (waveInput N niter) = .ok prg ∧ ∃ F : Sol 1 1 → Sol 1 1,
      (∀ q, ∃ m : Mem 1, m (.data "phi") = q 0 ∧ RightSides (reading ["c"]) ((waveText inputs).meaning ((waveText inputs).const prg) 0) m [waveEquation] ![ "phi" ] (F q)) ∧
      ∃ a', (waveText inputs).run prg pts ![ "phi" ] B (Alg.runProgram prg) a = some a' ∧
        a' "phi_B0" = ((rkStep ![(N : ℤ)] F B ((waveText inputs).const prg "dt") [(2/3, 1/4), (5/12, 3/20), (3/5, 3/5)])^[niter] (stateOf (wave N) ((waveText inputs).startState (wave N) prg pts B (waveInput N niter) a))).q 0 := by
  obtain ⟨prg, hP⟩ := wave_program hp inputs N niter
  obtain ⟨full, F, h1, ⟨a', r1, r2⟩, -⟩ := C92_rk_partial (wave_reads N) (wave_suits inputs N niter) hP rfl rfl rfl B a
  exact ⟨prg, hP.generated, F, fun q => ⟨memOf (full q), (h1 q).1 0, (h1 q).2.2.2⟩, a', r1, r2 0⟩

/-- `Eq(Der(rho,t), -Conservative(rhou_j,x_j))`, `Eq(Der(rhou_i,t), -Conservative(rhou_i*u_j + KD(_i,_j)*p,x_j))`, `Eq(Der(rhoE,t), -Conservative((rhoE+p)*u_j,x_j))`: the Euler equations of the applications. -/
def euler : List (Expr × Expr) :=
  [(.fn "Der" (sym "rho") (sym "t"), neg (.fn "Conservative" (.term "rhou" ["j"]) (.term "x" ["j"]))),
   (.fn "Der" (.term "rhou" ["i"]) (sym "t"), neg (.fn "Conservative" (.add (.mul (.term "rhou" ["i"]) (.term "u" ["j"])) (.mul (.fn "KD" (.term "" ["i"]) (.term "" ["j"])) (sym "p"))) (.term "x" ["j"]))),
   (.fn "Der" (sym "rhoE") (sym "t"), neg (.fn "Conservative" (.mul (.add (sym "rhoE") (sym "p")) (.term "u" ["j"])) (.term "x" ["j"])))]

/-- `Eq(p, (gama-1)*(rhoE - 1/2*rhou_j*u_j))` and `Eq(u_i, rhou_i/rho)`. -/
def eulerRelations : List (Expr × Expr) :=
  [(sym "p", .mul (.add (sym "gama") (sym "-1")) (.add (sym "rhoE") (neg (.mul (sym "1/2") (.mul (.term "rhou" ["j"]) (.term "u" ["j"])))))),
   (.term "u" ["i"], .mul (.term "rhou" ["i"]) (.fn "Pow" (sym "rho") (sym "-1")))]

/-- The Euler equations in one dimension become the equations of the simulation of a gas between two walls of C91. -/
theorem gas_reads (N : ℤ) : Reads (reading ["gama"]) id euler eulerRelations (Bc.Tube.gas N) where
  coordinate := by decide
  dimensions := by decide
  equations := by with_unfolding_all rfl
  relations := by with_unfolding_all rfl

/-- C92: the complete printed program of a gas between isothermal walls, with its kernels for the walls, from its equations and relations in index notation. Nothing is assumed about the program. -/
theorem C92_tube (inputs : String → ℝ) (N niter : ℕ) (pts : Ranges.Kernel 1 → List (P 1)) (hp : Enumerates pts) (a : Arrays 1) :
    ∃ prg, Alg.generate (Bc.Tube.input N niter) = .ok prg ∧
      let T := Bc.Tube.gasText N inputs
      let I := T.meaning (T.const prg) 0
      let B := Bc.conditions Bc.Tube.vs (Bc.Tube.items N inputs)
      let s0 := stateOf (Bc.Tube.gas N) (T.startState (Bc.Tube.gas N) prg pts B (Bc.Tube.input N niter) a)
      ∃ (F : Sol 1 3 → Sol 1 3) (a' : Arrays 1),
      (∀ q, ∃ m : Mem 1, m (.data "rho") = q 0 ∧ m (.data "rhou0") = q 1 ∧ m (.data "rhoE") = q 2 ∧
        Satisfied (reading ["gama"]) I m (fun s => s = "p" ∨ s = "u0") eulerRelations ∧ RightSides (reading ["gama"]) I m euler ![ "rho", "rhou0", "rhoE" ] (F q)) ∧
      T.runText prg pts (Alg.runProgram prg) a = some a' ∧
      let end_ := ((rkStep ![(N : ℤ)] F B (I.const "dt") [(2/3, 1/4), (5/12, 3/20), (3/5, 3/5)])^[niter] s0).q
      a' "rho_B0" = end_ 0 ∧ a' "rhou0_B0" = end_ 1 ∧ a' "rhoE_B0" = end_ 2 := by
  obtain ⟨prg, hP⟩ := Bc.Tube.gas_program hp inputs N niter
  have hS := Bc.Tube.gas_suits N niter inputs
  have hR := Bc.Tube.gas_renders N inputs (Bc.Tube.gas_inputs inputs N niter hP)
  obtain ⟨full, F, h1, ⟨a', r1, r2⟩, -⟩ := C92_rk_partial (gas_reads N) hS hP rfl rfl rfl (Bc.conditions Bc.Tube.vs _) a
  refine ⟨prg, hP.generated, F, a', fun q => ⟨memOf (full q), (h1 q).1 0, (h1 q).1 1, (h1 q).1 2, fun eq heq => ?_, (h1 q).2.2.2⟩, (Bc.C91_program (fits hS hP).1 hp hR _ (fun _ h => h) a).trans r1, r2 0, r2 1, r2 2⟩
  obtain ⟨b, idx, e1, y, hy, hc⟩ := (h1 q).2.2.1 eq heq
  refine ⟨b, idx, e1, y, hy, fun env henv hs => hc env henv ((Bc.Tube.gas_required N _).1 ?_)⟩
  rcases hs with e | e <;> rw [e] <;> simp [Bc.Tube.gas]

/-- The Euler equations in three dimensions: five equations; the second one is that of the first component of momentum, with the pressure in the first direction only. -/
example : (equations (D := 3) (reading ["gama"]) id advanced euler).map (List.map Prod.fst) = some ["rho", "rhou0", "rhou1", "rhou2", "rhoE"] ∧
    ((equations (D := 3) (reading ["gama"]) id advanced euler).bind (·[1]?)) = some ("rhou0",
      let u (i : String) : Ex 3 := .arr (.data ("u" ++ i))
      .add (.add (.mul (.num (-1)) (.cd 0 1 (.add (.mul (.arr (.data "rhou0")) (u "0")) (.arr (.data "p"))))) (.mul (.num (-1)) (.cd 1 1 (.mul (.arr (.data "rhou0")) (u "1")))))
        (.mul (.num (-1)) (.cd 2 1 (.mul (.arr (.data "rhou0")) (u "2"))))) :=
  ⟨by with_unfolding_all rfl, by with_unfolding_all rfl⟩

/-- `Eq(Der(u_i,t), nu*Der(u_i,x_j,x_j) + Der(u_j,x_i,x_j))` in two dimensions: second derivatives for equal directions, nested first ones for different directions. -/
example : equations (D := 2) (reading ["nu"]) id advanced [(.fn "Der" (.term "u" ["i"]) (sym "t"), .add (.mul (sym "nu") (.fn3 "Der" (.term "u" ["i"]) (.term "x" ["j"]) (.term "x" ["j"]))) (.fn3 "Der" (.term "u" ["j"]) (.term "x" ["i"]) (.term "x" ["j"])))] =
    some [("u0", .add (.mul (.const "nu") (.add (.cd 0 2 (.arr (.data "u0"))) (.cd 1 2 (.arr (.data "u0"))))) (.add (.cd 0 2 (.arr (.data "u0"))) (.cd 1 1 (.cd 0 1 (.arr (.data "u1")))))),
      ("u1", .add (.mul (.const "nu") (.add (.cd 0 2 (.arr (.data "u1"))) (.cd 1 2 (.arr (.data "u1"))))) (.add (.cd 1 1 (.cd 0 1 (.arr (.data "u0")))) (.cd 1 2 (.arr (.data "u1")))))] := by
  with_unfolding_all rfl

end OpenSBLI.Note
