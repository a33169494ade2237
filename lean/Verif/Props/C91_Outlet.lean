import Verif.Props.C91_More
import Verif.Props.C91_Tube

/-!
# C91: a gas between an adiabatic wall and an outlet

The gas of `C91_Tube.lean` with other conditions: an adiabatic wall at the left end, an outlet with a prescribed pressure at the right end. The constant `Twall` of that program is the pressure here.
-/
namespace OpenSBLI.Bc
open OpenSBLI.CCode OpenSBLI.Sim OpenSBLI.Reg Expr

namespace Outlet
open Tube (gas gasText spelling block input arrays vs)

/-- The gas with any printed conditions. -/
noncomputable def withBcs (N : ℤ) (inputs : String → ℝ) (bcs : List (BcCall 1)) : Text 1 := { gasText N inputs with bcs := bcs }

variable (N : ℤ) (inputs : String → ℝ) (bcs : List (BcCall 1))

theorem suits (niter : ℤ) (h : ∀ r eqs, .kernel r eqs ∈ bcs → (withBcs N inputs bcs).Proper eqs) : (withBcs N inputs bcs).Suits (gas N) .rk (input N niter) arrays where
  bcs := h
  lib := (Tube.gas_suits N niter inputs).lib
  powers := (Tube.gas_suits N niter inputs).powers
  registered := (Tube.gas_suits N niter inputs).registered
  injective := (Tube.gas_suits N niter inputs).injective
  order := rfl
  works i := trivial
  arrays := (Tube.gas_suits N niter inputs).arrays
  rhs i := by
    have hq : ∃ p, .request p ((withBcs N inputs bcs).inverse 0 1) ∈ (withBcs N inputs bcs).ops := ⟨.inv, by simp [withBcs, gasText, Tube.ops, Text.inverse]⟩
    have hcl : (withBcs N inputs bcs).closable 0 1 := fun h => absurd h (Tube.gas_open N inputs 0)
    fin_cases i <;> simp [gas, Ex.Printable, arrays, Recon.arraysOf, Ex.arrs, Ex.isInt, Ex.recipInt, Tube.rhou0, Tube.rhoE, Tube.u0, Tube.p, hq, hcl]
  rel s e h := by
    have hs : (withBcs N inputs bcs).start.names = ["block0np0", "dt", "gama", "Minf", "Twall", "Delta0block0", "inv_0"] := Tube.ops_names
    simp only [gas, List.mem_cons, List.not_mem_nil, or_false, Prod.mk.injEq] at h
    rcases h with ⟨rfl, rfl⟩ | ⟨rfl, rfl⟩ <;>
      simp [Ex.Printable, arrays, Recon.arraysOf, Ex.arrs, hs, Ex.isInt, Ex.recipInt, Ex.isConst, Ex.closed, Tube.rho, Tube.rhou0, Tube.rhoE, Tube.u0]
  step := (Tube.gas_suits N niter inputs).step
  tables := (Tube.gas_suits N niter inputs).tables
  others o places ks h := by simp [input, Setup.item] at h

theorem program {pts : Ranges.Kernel 1 → List (P 1)} (hp : Enumerates pts) (niter : ℤ) :
    ∃ prg, Program (gas N) .rk ((withBcs N inputs bcs).meaning ((withBcs N inputs bcs).const prg) 0) pts (input N niter) prg := by
  have hg : ∃ prg, Alg.generate (input N niter) = .ok prg := by
    simp [Alg.generate, input, Setup.item, Alg.Acc.add, Alg.sortByOrder]
    exact ⟨_, rfl⟩
  obtain ⟨prg, hg⟩ := hg
  refine ⟨prg, Tube.gas_valid N, hp, central_local (central_meaning rfl (fun d => Tube.gas_open N inputs d) _ _), ⟨[], [], _, (Tube.gas_spatial N).choose_spec, rfl, by simp, by simp⟩, ?_, hg⟩
  intro o places k h
  simp [input, Setup.item] at h

variable {N inputs bcs}

theorem constant {prg : List (Alg.Node (Call 1))} {pts : Ranges.Kernel 1 → List (P 1)} {niter : ℤ} (hS : (withBcs N inputs bcs).Suits (gas N) .rk (input N niter) arrays)
    (hP : Program (gas N) .rk ((withBcs N inputs bcs).meaning ((withBcs N inputs bcs).const prg) 0) pts (input N niter) prg) (s : String) (hs : s ∈ ["gama", "Minf", "Twall"]) : (withBcs N inputs bcs).const prg s = inputs s := by
  have hst : ⟨s, none⟩ ∈ (withBcs N inputs bcs).start.constants := by
    change (⟨s, none⟩ : Const (Sym 1)) ∈ (Rc.empty.performs Tube.ops).constants
    rw [Tube.ops_constants]
    simp only [List.mem_cons, List.not_mem_nil, or_false] at hs
    rcases hs with rfl | rfl | rfl <;> simp
  exact C85_constants (fits hS hP).1 ⟨s, none⟩ hst ⟨(withBcs N inputs bcs).const prg, fun _ => 0, 0⟩ rfl (by simp) ⟨fun _ _ => 0, fun _ => 0⟩

theorem good {prg : List (Alg.Node (Call 1))} (hc : ∀ c ∈ ["gama", "Minf", "Twall"], (withBcs N inputs bcs).const prg c = inputs c) (q : ℚ) : (spelling inputs).Good (withBcs N inputs bcs) prg q := by
  rcases Tube.spelling_lit inputs q with ⟨c, hc', h, h'⟩ | h
  · exact .inr ⟨c, Tube.inputs_subset N inputs hc', h, by rw [hc c hc', h']⟩
  · obtain ⟨q', h1, h2⟩ := Recon.rational_lit (D := 1) q
    exact .inl ⟨q', h1, by rw [h]; exact h2⟩

theorem good_input {prg : List (Alg.Node (Call 1))} (hc : ∀ c ∈ ["gama", "Minf", "Twall"], (withBcs N inputs bcs).const prg c = inputs c) (c : String) (hc' : c ∈ ["gama", "Minf", "Twall"]) :
    (spelling inputs).Good (withBcs N inputs bcs) prg (inputs c) := by
  rcases Tube.spelling_lit inputs (inputs c) with ⟨c', hc'', h, h'⟩ | h
  · exact .inr ⟨c', Tube.inputs_subset N inputs hc'', h, by rw [hc c' hc'', h']⟩
  · obtain ⟨c', hc'', h2⟩ := Tube.spelling_input inputs c hc'
    rw [h2] at h
    simp only [Recon.rational] at h
    split at h <;> cases h

/-- The wall. -/
noncomputable def wall (inputs : String → ℝ) : List (Assign 1) := adiabaticWall 1 (inputs "gama") (inputs "Minf") .left 2

/-- The outlet. -/
noncomputable def outlet (inputs : String → ℝ) : List (Assign 1) := (pressureOutlet 1 (inputs "gama") (inputs "Twall") .right 2).getD []

theorem outlet_eq (inputs : String → ℝ) : pressureOutlet 1 (inputs "gama") (inputs "Twall") .right 2 = some (outlet inputs) := by simp [outlet, pressureOutlet]

/-- The printed conditions. -/
noncomputable def conditions (N : ℤ) (inputs : String → ℝ) : List (BcCall 1) :=
  [planeCall (block N) 0 false (text (spelling inputs) (wall inputs)), planeCall (block N) 0 true (text (spelling inputs) (outlet inputs))]

/-- The text of the program. -/
noncomputable def outletText (N : ℤ) (inputs : String → ℝ) : Text 1 := withBcs N inputs (conditions N inputs)

/-- What the conditions are. -/
noncomputable def items (N : ℤ) (inputs : String → ℝ) : List (Item 1) :=
  [.lines (Ranges.bcPlaneKernel (block N) 0 false) 0 0 (wall inputs), .lines (Ranges.bcPlaneKernel (block N) 0 true) 0 (N - 1) (outlet inputs)]

variable {W : ℝ → Prop}

theorem wall_plain (hW : ∀ q : ℚ, W q) (hi : ∀ c ∈ ["gama", "Minf", "Twall"], W (inputs c)) : PlainProgram (spelling inputs) vs (fun _ => False) W (wall inputs) :=
  C91_adiabatic ⟨0, rfl⟩ ⟨2, rfl⟩ (fun j => ⟨1, by rw [Subsingleton.elim j 0]; rfl⟩) (hi _ (by simp)) (hi _ (by simp)) (by simpa using hW 0) (by simpa using hW 1) (by simpa using hW 3) (by simpa using hW (1 / 2)) (by simpa using hW (6 / 11))
    (by simpa using hW (1 / 3)) (by simpa using hW (3 / 2)) .left 2

theorem outlet_plain (hW : ∀ q : ℚ, W q) (hi : ∀ c ∈ ["gama", "Minf", "Twall"], W (inputs c)) : PlainProgram (spelling inputs) vs (· = .localE) W (outlet inputs) :=
  C91_pressure_outlet ⟨0, rfl⟩ ⟨2, rfl⟩ (fun j => ⟨1, by rw [Subsingleton.elim j 0]; rfl⟩) (hi _ (by simp)) (hi _ (by simp)) (by simpa using hW 0) (by simpa using hW 1) (by simpa using hW (1 / 2))
    (.inl (by
      obtain ⟨c, -, h⟩ := Tube.spelling_input inputs "Twall" (by simp)
      rw [h]; rfl)) (outlet_eq inputs)

theorem conditions_proper (N : ℤ) (inputs : String → ℝ) : ∀ r eqs, .kernel r eqs ∈ conditions N inputs → (outletText N inputs).Proper eqs := by
  intro r eqs h
  simp only [conditions, planeCall, List.mem_cons, List.not_mem_nil, or_false, BcCall.kernel.injEq] at h
  rcases h with ⟨-, rfl⟩ | ⟨-, rfl⟩
  · exact C91_plain_proper (wall_plain (fun q => Tube.spelled N inputs q) fun c hc => Tube.spelled_input N inputs c hc) fun l hl => hl.elim
  · exact C91_plain_proper (outlet_plain (fun q => Tube.spelled N inputs q) fun c hc => Tube.spelled_input N inputs c hc) fun l hl => by
      subst hl
      refine ⟨?_, ?_⟩
      · change ¬ Generated (Loc.name .localE)
        exact not_generated_head (by decide)
      · change Loc.name .localE ∉ (gasText N inputs).start.names
        rw [Tube.gas_start]
        decide

theorem renders {prg : List (Alg.Node (Call 1))} (N : ℤ) (inputs : String → ℝ) (hc : ∀ c ∈ ["gama", "Minf", "Twall"], (outletText N inputs).const prg c = inputs c) :
    List.Forall₂ (Renders (outletText N inputs) prg (gas N).sol vs) (outletText N inputs).bcs (items N inputs) := by
  refine .cons ?_ (.cons ?_ .nil)
  · exact C91_plain (N := spelling inputs) Recon.mathLib_conforms Recon.mathLib_maths (Tube.spelling_inj inputs) (fun i => by fin_cases i <;> rfl) (wall_plain (good hc) (good_input hc)) (fun l _ hl => hl.elim) _ (Tube.range N false)
  · exact C91_plain (N := spelling inputs) Recon.mathLib_conforms Recon.mathLib_maths (Tube.spelling_inj inputs) (fun i => by fin_cases i <;> rfl) (outlet_plain (good hc) (good_input hc)) (fun l l' hl hl' _ => hl.trans hl'.symm) _
      (Tube.range N true)

/-- The outlet leaves the points near the wall. -/
theorem outlet_keeps (hN : 5 ≤ N) (i : Fin 3) (k : ℕ) (hk : k ≤ 3) : (Item.lines (Ranges.bcPlaneKernel (block N) 0 true) 0 (N - 1) (outlet inputs)).Keeps vs i (shift (fun _ => 0) 0 (Side.left.toF * k)) := by
  intro _ a ha e
  simp only [outlet, pressureOutlet, if_true, Option.getD_some, List.mem_append, List.mem_flatMap, List.mem_cons, List.mem_map, List.mem_range'_1, List.not_mem_nil, or_false] at ha
  rcases ha with rfl | ⟨j, hj, ha⟩
  · cases e
  · have h0 : 0 ≤ j := by rcases hj with rfl | ⟨j', -, rfl⟩ <;> omega
    simp only [createBoundaryEquations, List.flatMap_cons, List.flatMap_nil, List.append_nil, List.mem_map] at ha
    obtain ⟨lr, -, rfl⟩ := ha
    have := (Cell.data.inj e).2
    simp [Sim.shift, Side.toF] at this
    omega

end Outlet

/-- C91: the complete printed program of a gas between an adiabatic wall and an outlet with a prescribed pressure compiles; after any positive number of steps the momentum at the wall is zero and, where the density at the wall is not zero, so is
the one-sided difference of the temperature there; the last point and the halo behind it have the prescribed pressure. Nothing is assumed about the program. -/
theorem C91_wall_and_outlet (inputs : String → ℝ) (N niter : ℕ) (hN : 5 ≤ N) (hn : 1 ≤ niter) (hγ : inputs "gama" ≠ 0) (hγ1 : inputs "gama" ≠ 1) (hM : inputs "Minf" ≠ 0) (pts : Ranges.Kernel 1 → List (P 1)) (hp : Enumerates pts) (a : Arrays 1) :
    ∃ prg a', Alg.generate (Tube.input N niter) = .ok prg ∧ (Outlet.outletText N inputs).runText prg pts (Alg.runProgram prg) a = some a' ∧
      a' "rhou0_B0" (fun _ => 0) = 0 ∧
      (a' "rho_B0" (fun _ => 0) ≠ 0 →
        oneSided.eval (fun k => Spec.temperatureOf (inputs "gama") (inputs "Minf") (a' "rho_B0" fun _ => k) (fun _ : Fin 1 => a' "rhou0_B0" fun _ => k) (a' "rhoE_B0" fun _ => k)) 0 = 0) ∧
      ∀ k : ℕ, k ≤ 2 → Spec.pressureOf (inputs "gama") (a' "rho_B0" fun _ => N - 1 + k) (fun _ : Fin 1 => a' "rhou0_B0" fun _ => N - 1 + k) (a' "rhoE_B0" fun _ => N - 1 + k) = inputs "Twall" := by
  obtain ⟨prg, hP⟩ := Outlet.program N inputs (Outlet.conditions N inputs) hp niter
  have hS := Outlet.suits N inputs _ niter (Outlet.conditions_proper N inputs)
  have hR := Outlet.renders N inputs (Outlet.constant hS hP)
  have hN' : (5 : ℤ) ≤ N := by exact_mod_cast hN
  have hn' : (1 : ℤ) ≤ (Tube.input N niter).niter := by simpa [Tube.input] using hn
  have l := (C91_adiabatic_no_slip_partial hS hP rfl rfl rfl Tube.vs_inj hR (pre := []) rfl (Tube.range N false) a hn' hγ hγ1 hM (iρ := 0) (iE := 2) (im := fun _ => 1) rfl rfl (fun j => by rw [Subsingleton.elim j 0]; rfl)).1
  have r := (C91_outlet_pressure_partial hS hP rfl rfl rfl Tube.vs_inj hR (Outlet.outlet_eq inputs) (pre := [_]) (post := []) rfl (Tube.range N true) a hn' hγ1 (iρ := 0) (iE := 2) (im := fun _ => 1) rfl rfl
    (fun j => by rw [Subsingleton.elim j 0]; rfl)).1
  obtain ⟨a', e, l⟩ := l
  obtain ⟨_, e', r⟩ := r
  rw [e] at e'
  cases e'
  have hs : ∀ (b k : ℤ), Sim.shift (fun _ : Fin 1 => b) 0 k = fun _ => b + k := fun b k => by
    funext d
    rw [Subsingleton.elim d 0]
    simp [Sim.shift]
  obtain ⟨m, t⟩ := l _ (Tube.visits N false) (fun c hc i k hk => by rw [List.mem_singleton.1 hc]; exact Outlet.outlet_keeps hN' i k hk)
  refine ⟨prg, a', hP.generated, e, m 0, fun hne => ?_, fun k hk => ?_⟩
  · specialize t hne
    simp only [Bool.false_eq_true, if_false, hs, Side.toF, one_mul, zero_add] at t
    exact t
  · have := r _ (Tube.visits N true) k hk (by simp)
    simp only [if_true, hs] at this
    exact this

end OpenSBLI.Bc
