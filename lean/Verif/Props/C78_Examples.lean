import Verif.Props.C78_Conservation
import Verif.Props.C06_C08_Eno
import Mathlib.Analysis.SpecialFunctions.Pow.Real
import Mathlib.Tactic.FinCases
import Verif.Props.C78_Average

/-!
# C78: the one-dimensional Euler equations with a viscous term, and what happens without one of the hypotheses
-/
namespace OpenSBLI.Sim

/-! ## The Euler equations -/

namespace Euler1

def rho : Ex 1 := .arr (.data "rho")
def rhou0 : Ex 1 := .arr (.data "rhou0")
def rhoE : Ex 1 := .arr (.data "rhoE")
def u0 : Ex 1 := .arr (.data "u0")
def p : Ex 1 := .arr (.data "p")
def a : Ex 1 := .arr (.data "a")
def inv (e : Ex 1) : Ex 1 := .pow e (.num (-1))
def square (e : Ex 1) : Ex 1 := .pow e (.num 2)
def neg (e : Ex 1) : Ex 1 := .mul (.num (-1)) e
def half (e : Ex 1) : Ex 1 := .mul e (inv (.num 2))
def gm1 : Ex 1 := .add (.const "gama") (.num (-1))
/-- `H`, euler_eigensystem.py 61. -/
def H : Ex 1 := .add (.mul (square a) (inv gm1)) (half (square u0))
def den : Ex 1 := .add (.mul (.num 2) H) (neg (square u0))

end Euler1

open Euler1

/-- Sod's problem with a viscous term in the momentum equation and a diffusion of pressure in the energy equation: WENO-Z of order 5 with Roe averages, central differences of order 4, the eigensystem of euler_eigensystem.py 59-76. -/
noncomputable def euler : Shock 1 3 where
  np := ![20]
  order := 4
  sol := !["rho", "rhou0", "rhoE"]
  rhs := ![.num 0, .mul (inv (.const "Re")) (.cd 0 2 u0), .mul (inv (.const "Re")) (.cd 0 2 p)]
  rel := [("a", .pow (.mul (.mul (.const "gama") p) (inv rho)) (inv (.num 2))), ("p", .mul gm1 (.add rhoE (neg (half (.mul rho (square u0)))))), ("u0", .mul rhou0 (inv rho))]
  w0 := 0
  known := ["rho", "rhou0", "rhoE"]
  groups := []
  vcds := [.cd 0 2 p, .cd 0 2 u0]
  keys := ["rhou0", "u0", "p", "rhoE", "a", "rho"]
  scheme := .weno .Z 3 (1/20) fun side => Weno.optimal side 3
  dirs := [0]
  coef := fun _ _ => .num (-1)
  flux := fun _ => ![rhou0, .add (.mul rhou0 u0) p, .mul (.add p rhoE) u0]
  ev := fun _ => ![.add u0 (neg a), u0, .add u0 a]
  rev := fun _ => ![![.num 1, .num 1, .num 1], ![.add u0 (neg a), u0, .add u0 a], ![.add H (neg (.mul u0 a)), half (square u0), .add H (.mul u0 a)]]
  lev := fun _ => ![![.mul (.mul u0 (.add (.add (.mul (.num 2) H) (.mul a u0)) (neg (square u0)))) (inv (.mul (.mul (.num 2) a) den)), .mul (.add (.add (neg H) (neg (.mul a u0))) (half (square u0))) (inv (.mul a den)), inv den],
    ![.mul (.mul (.num 2) (.add H (neg (square u0)))) (inv den), .mul (.mul (.num 2) u0) (inv den), .mul (.num 2) (inv (.add (neg (.mul (.num 2) H)) (square u0)))],
    ![.mul (.mul u0 (.add (.add (neg (.mul (.num 2) H)) (.mul a u0)) (square u0))) (inv (.mul (.mul (.num 2) a) den)), .mul (.add (.add H (neg (.mul a u0))) (neg (half (square u0)))) (inv (.mul a den)), inv den]]
  avg := roeAvg 1 (7/5)
  avgReads := roeReads 1
  spacing := fun _ => "Delta0block0"

theorem euler_relation (s : String) (e : Ex 1) (h : euler.relation s = some e) : (s = "a" ∧ e = .pow (.mul (.mul (.const "gama") p) (inv rho)) (inv (.num 2))) ∨
    (s = "p" ∧ e = .mul gm1 (.add rhoE (neg (half (.mul rho (square u0)))))) ∨ (s = "u0" ∧ e = .mul rhou0 (inv rho)) := by
  by_cases h1 : s = "a"
  · subst h1; left; exact ⟨rfl, by simpa [Setup.relation, euler] using h.symm⟩
  by_cases h2 : s = "p"
  · subst h2; right; left; exact ⟨rfl, by simpa [Setup.relation, euler] using h.symm⟩
  by_cases h3 : s = "u0"
  · subst h3; right; right; exact ⟨rfl, by simpa [Setup.relation, euler] using h.symm⟩
  simp [Setup.relation, euler, Ne.symm h1, Ne.symm h2, Ne.symm h3] at h

/-- The eigenvectors are those of C13. -/
theorem euler_vectors (I : Interp 1) (hp : ∀ x y : ℝ, I.pow x y = x ^ y) (m : Mem 1) (x : P 1) (i j : Fin 3) :
    (euler.lev 0 i j).eval I m x = Euler.lev1 (I.const "gama") (m (.data "a") x) (m (.data "u0") x) i j ∧
    (euler.rev 0 i j).eval I m x = Euler.rev1 (I.const "gama") (m (.data "a") x) (m (.data "u0") x) i j := by
  have h2 : ∀ y : ℝ, y ^ (((2 : ℚ)) : ℝ) = y ^ 2 := fun y => by norm_num
  have h1 : ∀ y : ℝ, y ^ (((-1 : ℚ)) : ℝ) = y⁻¹ := fun y => by rw [Rat.cast_neg, Rat.cast_one, Real.rpow_neg_one]
  fin_cases i <;> fin_cases j <;> refine ⟨?_, ?_⟩ <;>
    simp [euler, Euler.lev1, Euler.rev1, Euler.H1, H, den, neg, half, square, inv, gm1, u0, a, Ex.eval, hp, h1, h2, -Rat.cast_neg, -Rat.cast_ofNat] <;> ring

theorem euler_symbols (s : String) : s ∈ euler.symbols 0 ↔ s = "rhou0" ∨ s = "u0" ∨ s = "p" ∨ s = "rhoE" ∨ s = "a" := by
  simp [Shock.symbols, euler, List.finRange_succ, Ex.datas, Ex.arrs, H, den, neg, half, square, inv, gm1, rhou0, u0, p, rhoE, a]
  tauto

theorem euler_required (s : String) : s ∈ euler.keys ↔ euler.required s := by
  have hd : ∀ d ∈ euler.dirs, d = 0 := fun d _ => Subsingleton.elim _ _
  have h1 : (∃ d ∈ euler.dirs, s ∈ euler.symbols d) ↔ s ∈ euler.symbols 0 := ⟨fun ⟨d, h, hs⟩ => hd d h ▸ hs, fun h => ⟨0, by simp [euler], h⟩⟩
  unfold Shock.required
  rw [h1, euler_symbols]
  simp [euler, Setup.required, Setup.flat, Fin.exists_fin_succ, Ex.convective, Ex.viscous, Ex.classified, Ex.hasRe, Ex.sum, Ex.zeroFn, Ex.datas, Ex.arrs, inv, u0, p]
  tauto

theorem euler_core : euler.Core where
  relations := {
    solInj := by decide
    relSol := by decide
    relNodup := by decide
    relPlain := fun s e h => by
      rcases euler_relation s e h with ⟨rfl, rfl⟩ | ⟨rfl, rfl⟩ | ⟨rfl, rfl⟩ <;> refine ⟨rfl, ?_, rfl⟩ <;> simp [Ex.plain, Ex.arrs, rho, rhou0, rhoE, u0, p, inv, square, half, neg, gm1]
    known := by decide
    keysNodup := by decide
    keysMem := euler_required }
  dirs := by simp [euler]
  dirsNodup := by simp [euler]
  scheme := ⟨by norm_num, fun _ => by norm_num, by norm_num, fun side => Weno.optimal_satisfies side 3⟩
  groups := rfl
  conv := by decide
  vcdsNodup := by decide
  vcdsMem := fun c => by
    simp [euler, Fin.exists_fin_succ, Ex.viscous, Ex.classified, Ex.hasRe, Ex.sum, Ex.zeroFn, Ex.cds, inv, u0, p]
    tauto
  visc := fun c hc => by
    simp only [euler, List.mem_cons, List.not_mem_nil, or_false] at hc
    rcases hc with rfl | rfl <;> exact .inl rfl
  rhsPlain := fun i => by
    fin_cases i <;> refine ⟨?_, rfl⟩ <;> simp [euler, Ex.plain, Ex.arrs, u0, p, inv]
  rhsSteady := by decide
  restShape := by decide
  coef := fun d _ i => ⟨by simp [euler, Ex.plain, Ex.arrs], rfl, rfl⟩
  flux := fun d _ i => by fin_cases i <;> refine ⟨?_, rfl⟩ <;> simp [euler, Ex.plain, Ex.arrs, rhou0, rhoE, u0, p]
  ev := fun d _ i => by fin_cases i <;> refine ⟨?_, rfl⟩ <;> simp [euler, Ex.plain, Ex.arrs, u0, a, neg]
  lev := fun d _ i j => by fin_cases i <;> fin_cases j <;> refine ⟨?_, rfl⟩ <;> simp [euler, Ex.plain, Ex.arrs, u0, a, neg, H, den, square, inv, half, gm1]
  rev := fun d _ i j => by fin_cases i <;> fin_cases j <;> refine ⟨?_, rfl⟩ <;> simp [euler, Ex.plain, Ex.arrs, u0, a, neg, H, square, inv, half, gm1]
  avgLocal := C78_roe_average_reads 1 (7/5)
  avgRead := fun d _ i j t ht u hu => by
    have ht' : t ∈ euler.symbols d := flux_symbol (i := i) (.inr (.inr ⟨j, List.mem_append.1 ht⟩))
    obtain rfl : d = 0 := Subsingleton.elim _ _
    rw [euler_symbols]
    simp only [euler, roeReads, List.mem_cons, List.mem_map, List.mem_finRange, true_and] at hu
    rcases hu with rfl | rfl | rfl | rfl | ⟨k, rfl⟩
    · exact .inl ((euler_symbols _).1 ht')
    · exact .inr ⟨0, rfl⟩
    · simp
    · simp
    · left; right; left
      fin_cases k; decide
  halos := fun s hs e h t ht hr x hx => by
    have hk : 0 ≤ schemeK euler.scheme := by simp [euler, schemeK]
    have hw : ∀ t, t = "rhou0" ∨ t = "u0" ∨ t = "p" ∨ t = "rhoE" ∨ t = "a" → ∀ d, d ∈ euler.wenoDirs t := fun t ht d => by
      obtain rfl : d = 0 := Subsingleton.elim _ _
      exact List.mem_filter.2 ⟨by simp [euler], by simpa using (euler_symbols t).2 ht⟩
    have hc : ∀ t, t = "u0" ∨ t = "p" → ∀ d, d ∈ euler.crDirs t := fun t ht d => by
      obtain rfl : d = 0 := Subsingleton.elim _ _
      rcases ht with rfl | rfl <;> decide
    have htt : t = "u0" ∨ t = "p" := by
      rcases euler_relation s e h with ⟨rfl, rfl⟩ | ⟨rfl, rfl⟩ | ⟨rfl, rfl⟩ <;> simp [Ex.datas, Ex.arrs, rho, rhou0, rhoE, u0, p, inv, square, half, neg, gm1] at ht <;> rcases ht with rfl | rfl | rfl | rfl <;> first | decide | (revert hr; decide)
    exact relRange_mono euler hk s t (fun d _ => hw t (by rcases htt with rfl | rfl <;> simp) d) (fun d _ => hc t htt d) x hx

theorem euler_valid : euler.Valid := ⟨euler_core, fun _ => by decide⟩

theorem euler_closed : euler.Closed := by
  rintro s (⟨d, _, h⟩ | ⟨d, _, i, h⟩ | ⟨i, h⟩ | ⟨t, e, he, h⟩)
  · obtain rfl : d = 0 := Subsingleton.elim _ _
    rcases (euler_symbols s).1 h with rfl | rfl | rfl | rfl | rfl <;> decide
  · simp [euler, Ex.datas, Ex.arrs] at h
  · revert s; fin_cases i <;> decide
  · rcases euler_relation t e he with ⟨rfl, rfl⟩ | ⟨rfl, rfl⟩ | ⟨rfl, rfl⟩ <;> revert s <;> decide

theorem euler_spatial : ∃ cs, euler.spatial = .ok cs := by
  have h : euler.relOrder = .ok ["u0", "p", "a"] := by decide +kernel
  unfold Shock.spatial
  rw [if_neg euler_core.dirs, h]
  exact ⟨_, rfl⟩

/-- Central differences and fluxes with spacing 1/20. -/
noncomputable def eulerInterp : Interp 1 where
  const := fun c => if c = "dt" then 1/1000 else if c = "gama" then 7/5 else if c = "Re" then 100 else 1/20
  table := fun t => if t = "rknew" then [2/3, 5/12, 3/5] else [1/4, 3/20, 3/5]
  stage := 0
  cd := fun d k f x => Central.discretise 4 k (1/20 : ℝ) (fun y => f (Function.update x d y)) (x d)
  pow := fun a b => a ^ b
  fn := fun _ a => a

/-- 250 steps, a file every 50 steps. -/
noncomputable def eulerInput : Alg.Input (Call 1) where
  temporalSchemes := 1
  items := [.simulation ((euler.startKernels .rk).map .comp) [] ((euler.advanceKernels .rk).map .comp) [.bc] euler_spatial.choose]
  stages := 3
  niter := 250
  monitorFrequency := none
  ios := [Alg.IO.new 0 true none 50]

theorem euler_program {pts : Ranges.Kernel 1 → List (P 1)} (hp : Enumerates pts) : ∃ prg, ShockProgram euler .rk eulerInterp pts eulerInput prg := by
  have hg : ∃ prg, Alg.generate eulerInput = .ok prg := by
    simp [Alg.generate, eulerInput, Alg.Acc.add, Alg.sortByOrder]
    exact ⟨_, rfl⟩
  obtain ⟨prg, hg⟩ := hg
  refine ⟨prg, euler_valid, hp, central_local (delta := fun _ => 1/20) fun d k f x => rfl, _, euler_spatial.choose_spec, ⟨[], [], rfl, by simp, by simp⟩, ?_, hg⟩
  intro o places k h
  simp [eulerInput] at h

theorem euler_reach : ∀ d, euler.reach ≤ euler.np d := by decide

/-- Mass, momentum and energy are conserved, in the five files and at the end; uniform flow stays; and the values in the halos at the beginning do not matter. -/
example (pts : Ranges.Kernel 1 → List (P 1)) (hp : Enumerates pts) (m : Mem 1) : ∃ prg, Alg.generate eulerInput = .ok prg ∧
    ∀ i, Conserves euler.toSetup eulerInterp pts euler.exchange eulerInput prg m i := by
  obtain ⟨prg, hP⟩ := euler_program hp
  obtain ⟨_, _, hA⟩ := hP.items
  refine ⟨prg, hA.generated, fun i => C78_conservation_rk hP (delta := fun _ => 1/20) (fun d k f x => rfl) euler_closed (by simp [euler]) euler_reach rfl (by simp [eulerInterp]) (by simp [eulerInterp]) m i ?_ ?_⟩
  · intro d _; rfl
  · revert i; decide

example (pts : Ranges.Kernel 1 → List (P 1)) (hp : Enumerates pts) (m m' : Mem 1)
    (hm : ∀ i x, Grid euler.np x → atStart eulerInterp pts euler.sol euler.exchange eulerInput m (.data (euler.sol i)) x = atStart eulerInterp pts euler.sol euler.exchange eulerInput m' (.data (euler.sol i)) x) :
    ∃ prg, Alg.generate eulerInput = .ok prg ∧ ∀ i x, Grid euler.np x →
      Alg.effect (exec eulerInterp pts euler.sol euler.exchange) (Alg.runProgram prg) m (.data (euler.sol i)) x = Alg.effect (exec eulerInterp pts euler.sol euler.exchange) (Alg.runProgram prg) m' (.data (euler.sol i)) x := by
  obtain ⟨prg, hP⟩ := euler_program hp
  obtain ⟨_, _, hA⟩ := hP.items
  exact ⟨prg, hA.generated, fun i x hx => C78_halo_independent hP (delta := fun _ => 1/20) (fun d k f x => rfl) euler_closed (by decide) (by simp [euler]) euler_reach rfl (by simp [eulerInterp]) (by simp [eulerInterp]) m m' hm i x hx⟩

example (pts : Ranges.Kernel 1 → List (P 1)) (hp : Enumerates pts) (m : Mem 1) (c : Fin 3 → ℝ) 
    (hc : ∀ i x, Grid euler.np x → atStart eulerInterp pts euler.sol euler.exchange eulerInput m (.data (euler.sol i)) x = c i) : ∃ prg, Alg.generate eulerInput = .ok prg ∧ ∀ i x, Grid euler.np x → Alg.effect (exec eulerInterp pts euler.sol euler.exchange) (Alg.runProgram prg) m (.data (euler.sol i)) x = c i := by
  obtain ⟨prg, hP⟩ := euler_program hp
  obtain ⟨_, _, hA⟩ := hP.items
  refine ⟨prg, hA.generated, (C78_uniform_flow hP (delta := fun _ => 1/20) (fun d k f x => rfl) euler_closed (by simp [euler]) euler_reach rfl (by simp [eulerInterp]) (by simp [eulerInterp]) m (by decide) c hc).1⟩

/-- Without derivatives for the shock capturing scheme its discretisation ends with an exception. -/
theorem C78_no_derivatives {D n : ℕ} (C : Shock D n) (h : C.dirs = []) : C.spatial = .error .unbound := by
  unfold Shock.spatial
  rw [if_pos h]

example : ({ euler with dirs := [] } : Shock 1 3).spatial = .error .unbound := C78_no_derivatives _ rfl

/-! ## Terms with the Reynolds number but no derivative -/

/-- `q_t = - q_x + Re^-1 q + Re^-1 q_xx`, the first derivative by the shock capturing scheme. -/
noncomputable def damped : Shock 1 1 where
  np := ![20]
  order := 2
  sol := !["q"]
  rhs := ![.add (.mul (inv (.const "Re")) (.arr (.data "q"))) (.mul (inv (.const "Re")) (.cd 0 2 (.arr (.data "q"))))]
  rel := []
  w0 := 0
  known := ["q"]
  groups := []
  vcds := [.cd 0 2 (.arr (.data "q"))]
  keys := ["q"]
  scheme := .weno .Z 3 (1/20) fun side => Weno.optimal side 3
  dirs := [0]
  coef := fun _ _ => .num (-1)
  flux := fun _ _ => .arr (.data "q")
  ev := fun _ _ => .num 1
  rev := fun _ _ _ => .num 1
  lev := fun _ _ _ => .num 1
  avg := simpleAvg
  avgReads := fun t => [t]
  spacing := fun _ => "Delta0block0"

theorem damped_core : damped.Core where
  relations := {
    solInj := by decide
    relSol := by decide
    relNodup := by decide
    relPlain := fun s e h => by simp [damped, Setup.relation] at h
    known := by decide
    keysNodup := by decide
    keysMem := fun s => by
      simp [damped, Shock.required, Shock.symbols, Setup.required, Setup.flat, Ex.convective, Ex.viscous, Ex.classified, Ex.terms, Ex.hasRe, Ex.sum, Ex.zeroFn, Ex.datas, Ex.arrs, inv]
      tauto }
  dirs := by simp [damped]
  dirsNodup := by simp [damped]
  scheme := ⟨by norm_num, fun _ => by norm_num, by norm_num, fun side => Weno.optimal_satisfies side 3⟩
  groups := rfl
  conv := by decide
  vcdsNodup := by decide
  vcdsMem := fun c => by
    simp [damped, Ex.viscous, Ex.classified, Ex.terms, Ex.hasRe, Ex.sum, Ex.zeroFn, Ex.cds, inv]
  visc := fun c hc => by
    simp only [damped, List.mem_cons, List.not_mem_nil, or_false] at hc
    subst hc; exact .inl rfl
  rhsPlain := fun i => by fin_cases i; refine ⟨?_, rfl⟩; simp [damped, Ex.plain, Ex.arrs, inv]
  rhsSteady := by decide
  restShape := by decide
  coef := fun d _ i => ⟨by simp [damped, Ex.plain, Ex.arrs], rfl, rfl⟩
  flux := fun d _ i => ⟨by simp [damped, Ex.plain, Ex.arrs], rfl⟩
  ev := fun d _ i => ⟨by simp [damped, Ex.plain, Ex.arrs], rfl⟩
  lev := fun d _ i j => ⟨by simp [damped, Ex.plain, Ex.arrs], rfl⟩
  rev := fun d _ i j => ⟨by simp [damped, Ex.plain, Ex.arrs], rfl⟩
  avgLocal := C78_simple_average_reads
  avgRead := fun d _ i j t ht => by simp [damped, Ex.datas, Ex.arrs] at ht
  halos := fun s hs e h => by simp [damped, Setup.relation] at h

/-- C78 needs its hypothesis on terms with the Reynolds number: a problem the code accepts, the solution is 1 everywhere, the right hand side is `Re^-1`, but the residual is twice that: both schemes add the term. -/
theorem C78_counted_twice (I : Interp 1) (hI : IsCentral damped.toSetup I fun _ => 1/20) (pts : Ranges.Kernel 1 → List (P 1)) (hp : Enumerates pts) (B : Sol 1 1 → Sol 1 1) (step stage : ℕ)
    (m : Mem 1) (hq : ∀ x, m (.data "q") x = 1) (x : P 1) (hx : Grid damped.np x) :
    damped.Core ∧ ∃ cs, damped.spatial = .ok cs ∧ ConsistentOn damped.toSetup damped.required I (fun s => m (.data s)) (fun i => m (.data (damped.sol i))) (fun s => m (.data s)) ∧
      shockRhs damped I (fun s => m (.data s)) 0 x = I.pow (I.const "Re") (-1) ∧
      Alg.effect (exec I pts damped.sol B) (Alg.calls cs (Alg.inStage step stage)) m (.res 0) x = 2 * I.pow (I.const "Re") (-1) := by
  have hord : damped.relOrder = .ok [] := by decide +kernel
  have hspat : ∃ cs, damped.spatial = .ok cs := by
    unfold Shock.spatial
    rw [if_neg damped_core.dirs, hord]
    exact ⟨_, rfl⟩
  obtain ⟨cs, hcs⟩ := hspat
  have hcons : ∀ q : Sol 1 1, ConsistentOn damped.toSetup damped.required I (fun s => m (.data s)) q (fun s => if s = "q" then q 0 else m (.data s)) := by
    intro q
    refine ⟨fun i => ?_, fun s e _ h => ?_, fun s _ h => ?_⟩
    · fin_cases i; simp [damped]
    · simp [damped] at h
    · rw [if_neg (show s ≠ "q" from h 0)]
  have hsame : (fun s => if s = "q" then (fun i => m (.data (damped.sol i)) : Sol 1 1) 0 else m (.data s)) = fun s => m (.data s) := by
    funext s
    by_cases hs : s = "q"
    · subst hs; simp [damped]
    · rw [if_neg hs]
  have hflux : numericalFlux damped I (fun s => m (.data s)) 0 x = numericalFlux damped I (fun s => m (.data s)) 0 (Function.update x 0 (x 0 - 1)) := by
    refine numericalFlux_two damped_core (by simp [damped]) fun p _ _ s hs => ?_
    have : s = "q" := by
      rcases hs with h | ⟨i, rfl⟩
      · simpa [Shock.symbols, damped, Ex.datas, Ex.arrs] using h
      · fin_cases i; rfl
    subst this
    rw [hq, hq]
  have hcd : I.cd 0 2 (m (.data "q")) x = 0 := by
    rw [central_eval hI]
    simp only [hq, mul_one]
    rw [Central.C18_annihilates_constants _ _ (by norm_num), zero_mul]
  have hc := hcons fun i => m (.data (damped.sol i))
  rw [hsame] at hc
  have hr : (damped.rhs 0).eval I (memOf fun s => m (.data s)) x = I.pow (I.const "Re") (-1) := by
    simp [damped, Ex.eval, memOf, inv, hq, hcd]
  have hz : (damped.rhs 0).zeroDer.eval I (memOf fun s => m (.data s)) x = I.pow (I.const "Re") (-1) := by
    simp [damped, Ex.zeroDer, Ex.eval, memOf, inv, hq]
  have hv : (damped.rhs 0).viscous.eval I (memOf fun s => m (.data s)) x = I.pow (I.const "Re") (-1) := by
    simp [damped, Ex.viscous, Ex.classified, Ex.terms, Ex.hasRe, Ex.sum, Ex.zeroFn, Ex.eval, memOf, inv, hq, hcd]
  have hdirs : damped.dirs = [0] := rfl
  refine ⟨damped_core, cs, hcs, hc, ?_, ?_⟩
  · unfold shockRhs
    rw [hr, hdirs, List.map_singleton, hflux]
    simp
  · have hE := shock_evaluates_core damped_core hp (central_local hI) (B := B) (init := fun s => m (.data s)) (full := fun q s => if s = "q" then q 0 else m (.data s)) hcons cs hcs
    have h2 := (hE m (stateOf damped.toSetup m) step stage ⟨fun _ => rfl, fun _ => rfl, fun _ _ _ => rfl⟩).2 0 x hx
    refine h2.trans ?_
    have hq' : (stateOf damped.toSetup m).q = fun i => m (.data (damped.sol i)) := rfl
    have hs2 : (fun s => if s = "q" then (stateOf damped.toSetup m).q 0 else m (.data s)) = fun s => m (.data s) := by rw [hq', hsame]
    beta_reduce
    rw [hs2, hz, hv, if_neg (by simp [damped]), hdirs, List.map_singleton, hflux]
    simp
    ring

end OpenSBLI.Sim
