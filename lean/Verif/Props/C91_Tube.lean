import Verif.Props.C91_Isothermal
import Verif.Props.C86_Examples

/-!
# C91: a gas between isothermal walls

The one-dimensional Euler equations with differences of fourth order, isothermal walls at both ends: a program meeting the hypotheses of the theorems about walls.
-/
namespace OpenSBLI.Bc
open OpenSBLI.CCode OpenSBLI.Sim OpenSBLI.Reg Spec

namespace Tube

def rho : Ex 1 := .arr (.data "rho")
def rhou0 : Ex 1 := .arr (.data "rhou0")
def rhoE : Ex 1 := .arr (.data "rhoE")
def u0 : Ex 1 := .arr (.data "u0")
def p : Ex 1 := .arr (.data "p")

/-- The equations. -/
def gas (N : ℤ) : Setup 1 3 where
  np := ![N]
  order := 4
  sol := ![ "rho", "rhou0", "rhoE" ]
  rhs := ![.mul (.num (-1)) (.cd 0 1 rhou0), .mul (.num (-1)) (.cd 0 1 (.add (.mul rhou0 u0) p)), .mul (.num (-1)) (.cd 0 1 (.mul (.add rhoE p) u0))]
  rel := [("p", .mul (.add (.const "gama") (.num (-1))) (.add rhoE (.mul (.num (-1/2)) (.mul rhou0 u0)))), ("u0", .mul rhou0 (.pow rho (.num (-1))))]
  w0 := 0
  known := ["rho", "rhou0", "rhoE"]
  groups := [(0, [.cd 0 1 rhou0, .cd 0 1 (.add (.mul rhou0 u0) p), .cd 0 1 (.mul (.add rhoE p) u0)])]
  vcds := []
  keys := ["p", "rhoE", "rhou0", "u0"]

theorem gas_required (N : ℤ) (s : String) : s ∈ (gas N).keys ↔ (gas N).required s := by
  simp [gas, Setup.required, Setup.flat, Ex.convective, Ex.viscous, Ex.classified, Ex.hasRe, Ex.sum, Ex.zeroFn, Ex.datas, Ex.arrs, rhou0, rhoE, u0, p, Fin.exists_fin_succ]
  tauto

theorem gas_relation (N : ℤ) (s : String) (e : Ex 1) (h : (gas N).relation s = some e) :
    (s = "p" ∧ e = .mul (.add (.const "gama") (.num (-1))) (.add rhoE (.mul (.num (-1/2)) (.mul rhou0 u0)))) ∨ (s = "u0" ∧ e = .mul rhou0 (.pow rho (.num (-1)))) := by
  by_cases h1 : s = "p"
  · subst h1
    left
    exact ⟨rfl, by simpa [Setup.relation, gas] using h.symm⟩
  by_cases h2 : s = "u0"
  · subst h2
    right
    exact ⟨rfl, by simpa [Setup.relation, gas] using h.symm⟩
  simp [Setup.relation, gas, Ne.symm h1, Ne.symm h2] at h

theorem gas_valid (N : ℤ) : (gas N).Valid where
  listed := {
    groupDirs := by simp [gas]
    groupDir := by simp [gas, Ex.dir]
    groupNonempty := by simp [gas]
    flatNodup := by
      change [Ex.cd 0 1 rhou0, .cd 0 1 (.add (.mul rhou0 u0) p), .cd 0 1 (.mul (.add rhoE p) u0)].Nodup
      decide
    flatMem := fun c => by
      simp [gas, Setup.flat, Ex.convective, Ex.classified, Ex.hasRe, Ex.sum, Ex.zeroFn, Ex.cds, rhou0, rhoE, u0, p, Fin.exists_fin_succ]
    vcdsNodup := by simp [gas]
    vcdsMem := fun c => by simp [gas, Ex.viscous, Ex.classified, Ex.hasRe, Ex.sum, Ex.zeroFn, Ex.cds, rhou0, rhoE, u0, p, Fin.exists_fin_succ]
    keysNodup := by
      change ["p", "rhoE", "rhou0", "u0"].Nodup
      decide
    keysMem := gas_required N }
  solInj := by
    change Function.Injective (![ "rho", "rhou0", "rhoE" ] : Fin 3 → String)
    decide
  relSol := fun i => by fin_cases i <;> rfl
  relNodup := by simp [gas]
  relPlain := fun s e h => by
    rcases gas_relation N s e h with ⟨rfl, rfl⟩ | ⟨rfl, rfl⟩ <;> refine ⟨rfl, ?_, rfl⟩ <;> simp [Ex.plain, Ex.arrs, rhou0, rho, rhoE, u0]
  rhsPlain := fun i => by
    fin_cases i <;> refine ⟨?_, rfl, rfl⟩ <;> simp [gas, Ex.plain, Ex.arrs, rhou0, rhoE, u0, p]
  rhsSteady := fun i => by fin_cases i <;> rfl
  groups := by simp [gas]
  convFlat := by
    change ∀ c ∈ [Ex.cd (0 : Fin 1) 1 rhou0, .cd 0 1 (.add (.mul rhou0 u0) p), .cd 0 1 (.mul (.add rhoE p) u0)], _
    decide
  visc := fun c hc => by simp [gas] at hc
  viscDer := .inr fun i t ht => by
    fin_cases i <;> simp [gas, Ex.classified, rhou0, rhoE, u0, p] at ht <;> subst ht <;> rfl
  known := fun s hs => by
    simp only [gas, List.mem_cons, List.not_mem_nil, or_false] at hs
    rcases hs with rfl | rfl | rfl <;> rfl
  halos := fun s hs e h t ht hr d hd => by
    rcases gas_relation N s e h with ⟨rfl, rfl⟩ | ⟨rfl, rfl⟩
    · simp only [Ex.datas, Ex.arrs, rhou0, rhoE, u0, List.filterMap_cons, List.filterMap_nil, List.nil_append, List.append_nil, List.cons_append, List.mem_cons, List.not_mem_nil, or_false] at ht
      rcases ht with rfl | rfl | rfl
      · exact absurd hr (by simp [Setup.relation, gas])
      · exact absurd hr (by simp [Setup.relation, gas])
      · have e0 : (gas N).crDirs "u0" = (gas 0).crDirs "u0" := rfl
        rw [e0]
        revert d
        change ∀ d ∈ (gas 0).crDirs "p", d ∈ (gas 0).crDirs "u0"
        decide
    · simp only [Ex.datas, Ex.arrs, rhou0, rho, List.filterMap_cons, List.filterMap_nil, List.nil_append, List.append_nil, List.cons_append, List.mem_cons, List.not_mem_nil, or_false] at ht
      rcases ht with rfl | rfl <;> exact absurd hr (by simp [Setup.relation, gas])

theorem gas_spatial (N : ℤ) : ∃ ks, (gas N).spatial = .ok ks := by
  have h : SortDict.sortDictionary ((((gas N).keys.filter fun s => ((gas N).relation s).isNone) ++ (gas N).known).dedup) ((gas N).keys.filterMap fun s => ((gas N).relation s).map fun e => (s, e.datas)) =
      .ok ["u0", "p"] := by
    change SortDict.sortDictionary (["rhoE", "rhou0", "rho", "rhou0", "rhoE"].dedup) [("p", ["rhoE", "rhou0", "u0"]), ("u0", ["rhou0", "rho"])] = .ok ["u0", "p"]
    decide +kernel
  unfold Setup.spatial Setup.relKernels Setup.relOrder
  rw [h]
  exact ⟨_, rfl⟩

/-- `niter` steps. -/
noncomputable def input (N niter : ℤ) : Alg.Input (Call 1) where
  temporalSchemes := 1
  items := [(gas N).item .rk (gas_spatial N).choose]
  stages := 3
  niter := niter
  monitorFrequency := none
  ios := []

/-- The constants of the program. -/
def ops : List (Rc.Op (Sym 1)) :=
  [.add ⟨"block0np0", none⟩, .add ⟨"dt", none⟩, .add ⟨"gama", none⟩, .add ⟨"Minf", none⟩, .add ⟨"Twall", none⟩, .add ⟨"Delta0block0", none⟩, .request .inv (.pow (.const "Delta0block0") (.num (-1)))]

theorem ops_registered : Registered ops := by
  refine ⟨fun c hc => ?_, fun p k hk => ?_, fun pre op post e k hk n hn => ?_⟩
  · simp only [ops, List.mem_cons, List.not_mem_nil, or_false, Rc.Op.add.injEq, reduceCtorEq] at hc
    rcases hc with rfl | rfl | rfl | rfl | rfl | rfl
    · exact not_generated_head (by decide)
    · exact not_generated_head (by decide)
    · exact not_generated_head (by decide)
    · exact not_generated_head (by decide)
    · exact not_generated_head (by decide)
    · exact not_generated_head (by decide)
  · simp only [ops, List.mem_cons, List.not_mem_nil, or_false, Rc.Op.request.injEq, reduceCtorEq, false_or] at hk
    rw [hk.2]
    exact ⟨trivial, trivial⟩
  · match pre, e with
    | [], e => cases e; cases hk
    | [_], e => cases e; cases hk
    | [_, _], e => cases e; cases hk
    | [_, _, _], e => cases e; cases hk
    | [_, _, _, _], e => cases e; cases hk
    | [_, _, _, _, _], e => cases e; cases hk
    | [_, _, _, _, _, _], e => cases e; subst hk; revert n; decide +kernel
    | _ :: _ :: _ :: _ :: _ :: _ :: _ :: l, e => simp [ops] at e

theorem ops_names : (Rc.empty.performs ops).names = ["block0np0", "dt", "gama", "Minf", "Twall", "Delta0block0", "inv_0"] := by decide +kernel

theorem ops_constants : (Rc.empty.performs ops).constants = [⟨"block0np0", none⟩, ⟨"dt", none⟩, ⟨"gama", none⟩, ⟨"Minf", none⟩, ⟨"Twall", none⟩, ⟨"Delta0block0", none⟩,
    ⟨"inv_0", some (.pow (.const "Delta0block0") (.num (-1)))⟩] := by with_unfolding_all rfl

open Classical in
/-- The way the walls are written: the constants by their names, other numbers by their digits. -/
noncomputable def spelling (inputs : String → ℝ) : Spelling 1 where
  dir := 0
  array
    | .rho => "rho_B0"
    | .mom _ => "rhou0_B0"
    | .rhoE => "rhoE_B0"
    | .aux k => "x" ++ toString k ++ "_B0"
  var := Loc.name
  lit r := if r = inputs "gama" then .const "gama" else if r = inputs "Minf" then .const "Minf" else if r = inputs "Twall" then .const "Twall" else Recon.rational r

theorem spelling_inj (inputs : String → ℝ) : Function.Injective (spelling inputs).array := by
  have h : ∀ (k : ℕ) (s : String), s.toList.head? ≠ some 'x' → "x" ++ toString k ++ "_B0" ≠ s := fun k s hs e => hs (by rw [← e]; simp)
  rintro (_ | i | _ | k) (_ | j | _ | l) e <;> simp only [spelling] at e
  all_goals first | rfl | exact absurd e (by decide) | exact absurd e (h _ _ (by decide)) | exact absurd e.symm (h _ _ (by decide)) | skip
  · rw [Subsingleton.elim i j]
  · rw [String.append_left_inj, String.append_right_inj] at e
    rw [Mon.toString_injective e]

theorem spelling_lit (inputs : String → ℝ) (r : ℝ) : (∃ c ∈ ["gama", "Minf", "Twall"], (spelling inputs).lit r = .const c ∧ inputs c = r) ∨ (spelling inputs).lit r = Recon.rational r := by
  simp only [spelling]
  split_ifs with h1 h2 h3
  · exact .inl ⟨"gama", by simp, rfl, h1.symm⟩
  · exact .inl ⟨"Minf", by simp, rfl, h2.symm⟩
  · exact .inl ⟨"Twall", by simp, rfl, h3.symm⟩
  · exact .inr rfl

theorem spelling_input (inputs : String → ℝ) (c : String) (hc : c ∈ ["gama", "Minf", "Twall"]) : ∃ c' ∈ ["gama", "Minf", "Twall"], (spelling inputs).lit (inputs c) = .const c' := by
  rcases spelling_lit inputs (inputs c) with ⟨c', hc', h, -⟩ | h
  · exact ⟨c', hc', h⟩
  · simp only [List.mem_cons, List.not_mem_nil, or_false] at hc
    simp only [spelling] at h ⊢
    by_cases h1 : inputs c = inputs "gama"
    · exact ⟨"gama", by simp, by rw [if_pos h1]⟩
    by_cases h2 : inputs c = inputs "Minf"
    · exact ⟨"Minf", by simp, by rw [if_neg h1, if_pos h2]⟩
    by_cases h3 : inputs c = inputs "Twall"
    · exact ⟨"Twall", by simp, by rw [if_neg h1, if_neg h2, if_pos h3]⟩
    rcases hc with rfl | rfl | rfl
    · exact absurd rfl h1
    · exact absurd rfl h2
    · exact absurd rfl h3

/-- The wall. -/
noncomputable def wall (inputs : String → ℝ) (s : Side) : List (Assign 1) :=
  isothermalWall 1 (inputs "gama") (inputs "Minf") (inputs "Twall") [wallEnergy 1 (inputs "gama") (inputs "Minf") (inputs "Twall")] s 2

def block (N : ℤ) : Ranges.Block 1 := ⟨![N], fun _ => (∅, ∅)⟩

/-- The printed conditions: walls at both ends. -/
noncomputable def walls (N : ℤ) (inputs : String → ℝ) : List (BcCall 1) :=
  [planeCall (block N) 0 false (text (spelling inputs) (wall inputs .left)), planeCall (block N) 0 true (text (spelling inputs) (wall inputs .right))]

/-- What they are. -/
noncomputable def items (N : ℤ) (inputs : String → ℝ) : List (Item 1) :=
  [.lines (Ranges.bcPlaneKernel (block N) 0 false) 0 0 (wall inputs .left), .lines (Ranges.bcPlaneKernel (block N) 0 true) 0 (N - 1) (wall inputs .right)]

/-- The text of the program. -/
noncomputable def gasText (N : ℤ) (inputs : String → ℝ) : Text 1 where
  names := Recon.nameOf fun i => if i = 0 then "rho" else if i = 1 then "rhou0" else "rhoE"
  delta := ![ "Delta0block0" ]
  order := 4
  lib := Recon.mathLib
  ops := ops
  inputs := inputs
  table t := if t = "rknew" then [2/3, 5/12, 3/5] else [1/4, 3/20, 3/5]
  mods := fun _ => ⟨none, none⟩
  points := ![ "block0np0" ]
  carpenter := fun _ _ => 0
  bcs := walls N inputs

def arrays : Sim.Arr → Prop := Recon.arraysOf ["rho", "rhou0", "rhoE", "u0", "p"] 3

theorem gas_start (N : ℤ) (inputs : String → ℝ) : (gasText N inputs).start.names = ["block0np0", "dt", "gama", "Minf", "Twall", "Delta0block0", "inv_0"] := ops_names

theorem gas_open (N : ℤ) (inputs : String → ℝ) (d : Fin 1) : ¬ (gasText N inputs).hasClosure d := by simp [Text.hasClosure, gasText]

theorem inputs_subset (N : ℤ) (inputs : String → ℝ) {c : String} (hc : c ∈ ["gama", "Minf", "Twall"]) : c ∈ (gasText N inputs).start.names := by
  rw [gas_start]
  revert c; decide

theorem spelled (N : ℤ) (inputs : String → ℝ) (q : ℚ) : (spelling inputs).Spelled (gasText N inputs) q := by
  rcases spelling_lit inputs q with ⟨c, hc, h, -⟩ | h
  · exact .inr ⟨c, inputs_subset N inputs hc, h⟩
  · obtain ⟨q', h1, h2⟩ := Recon.rational_lit (D := 1) q
    exact .inl ⟨q', h1, by rw [h]; exact h2⟩

theorem spelled_input (N : ℤ) (inputs : String → ℝ) (c : String) (hc : c ∈ ["gama", "Minf", "Twall"]) : (spelling inputs).Spelled (gasText N inputs) (inputs c) := by
  obtain ⟨c', hc', h⟩ := spelling_input inputs c hc
  exact .inr ⟨c', inputs_subset N inputs hc', h⟩

theorem wallEnergy_numbers {P : ℝ → Prop} {γ M Tw : ℝ} (hγ : P γ) (hM : P M) (hT : P Tw) (h1 : P 1) : (wallEnergy 1 γ M Tw).rhs.Numbers P :=
  ⟨⟨trivial, hT⟩, ⟨⟨hM, hM⟩, hγ⟩, hγ, h1⟩

theorem wallEnergy_noIntegers (N : Spelling 1) (γ M Tw : ℝ) : (wallEnergy 1 γ M Tw).rhs.NoIntegers N :=
  ⟨⟨trivial, trivial⟩, ⟨⟨⟨trivial, trivial⟩, trivial⟩, trivial, trivial⟩, fun h => by simp [Expr.sym, Sym.isInt, Expr.dat, Spelling.cell] at h⟩

theorem wallEnergy_locals (γ M Tw : ℝ) : locals [wallEnergy 1 γ M Tw] = [] := by
  simp [locals, wallEnergy, cells_div, cells_mul, cells_sub, cells_num, cells_dat]

theorem wall_names {l : Loc} (h : WallLoc 1 2 l) : l.name ∉ ["block0np0", "dt", "gama", "Minf", "Twall", "Delta0block0", "inv_0"] := by
  intro hl
  have hT : ∀ i : ℕ, "T" ++ toString i ≠ "Twall" := fun i e => by
    obtain ⟨c, hc, hd⟩ := Recon.digit_head i
    have := congrArg (fun s : String => s.toList.tail.head?) e
    simp only [String.toList_append] at this
    have h2 : ("T".toList ++ (toString i).toList).tail.head? = some c := by simpa using hc
    rw [h2] at this
    have : c = 'w' := by simpa using this
    rw [this] at hd
    cases hd
  have hh : ∀ (a b s : String) (c : Char), a.toList.head? = some c → s.toList.head? ≠ some c → a ++ b ≠ s := fun a b s c ha hs e => hs (by rw [← e]; exact toList_head ha)
  simp only [List.mem_cons, List.not_mem_nil, or_false] at hl
  cases h with
  | x0 => exact absurd hl (by decide)
  | pwall => exact absurd hl (by decide)
  | tAbove => exact absurd hl (by decide)
  | u _ =>
    simp only [Loc.name, String.append_assoc] at hl
    rcases hl with h | h | h | h | h | h | h <;> exact hh _ _ _ 'u' rfl (by decide) h
  | t =>
    simp only [Loc.name] at hl
    rcases hl with h | h | h | h | h | h | h
    on_goal 5 => exact hT _ h
    all_goals exact hh _ _ _ 'T' rfl (by decide) h
  | rhoHalo =>
    simp only [Loc.name] at hl
    rcases hl with h | h | h | h | h | h | h <;> exact hh _ _ _ 'r' rfl (by decide) h

theorem walls_proper (N : ℤ) (inputs : String → ℝ) : ∀ r eqs, .kernel r eqs ∈ walls N inputs → (gasText N inputs).Proper eqs := by
  have key : ∀ s, (gasText N inputs).Proper (text (spelling inputs) (wall inputs s)) := fun s =>
    C91_isothermal_proper_partial rfl s 2 (spelled_input N inputs _ (by simp)) (spelled_input N inputs _ (by simp)) (spelled_input N inputs _ (by simp)) (by simpa using spelled N inputs (1 / 2))
      (fun i _ => by simpa using spelled N inputs i)
      (fun a ha => by
        rw [List.mem_singleton.1 ha]
        exact ⟨wallEnergy_numbers (spelled_input N inputs _ (by simp)) (spelled_input N inputs _ (by simp)) (spelled_input N inputs _ (by simp)) (by simpa using spelled N inputs 1), wallEnergy_noIntegers _ _ _ _⟩)
      (fun l hl => by rw [wallEnergy_locals] at hl; cases hl) fun l h => by rw [gas_start]; exact wall_names h
  intro r eqs h
  simp only [walls, planeCall, List.mem_cons, List.not_mem_nil, or_false, BcCall.kernel.injEq] at h
  rcases h with ⟨-, rfl⟩ | ⟨-, rfl⟩ <;> exact key _

theorem gas_suits (N niter : ℤ) (inputs : String → ℝ) : (gasText N inputs).Suits (gas N) .rk (input N niter) arrays where
  bcs := walls_proper N inputs
  lib := Recon.mathLib_conforms
  powers := realLib_powers
  registered := ops_registered
  injective := Recon.nameOf_injective _ _ _ (by decide) (fun i => by split_ifs <;> decide) (by decide) (by decide)
  order := rfl
  works i := trivial
  arrays i := ⟨trivial, i.2, by fin_cases i <;> simp [gas, arrays, Recon.arraysOf]⟩
  rhs i := by
    have hq : ∃ p, .request p ((gasText N inputs).inverse 0 1) ∈ (gasText N inputs).ops := ⟨.inv, by simp [gasText, ops, Text.inverse]⟩
    have hcl : (gasText N inputs).closable 0 1 := fun h => absurd h (gas_open N inputs 0)
    fin_cases i <;> simp [gas, Ex.Printable, arrays, Recon.arraysOf, Ex.arrs, Ex.isInt, Ex.recipInt, rhou0, rhoE, u0, p, hq, hcl]
  rel s e h := by
    simp only [gas, List.mem_cons, List.not_mem_nil, or_false, Prod.mk.injEq] at h
    rcases h with ⟨rfl, rfl⟩ | ⟨rfl, rfl⟩ <;>
      simp [Ex.Printable, arrays, Recon.arraysOf, Ex.arrs, gas_start, Ex.isInt, Ex.recipInt, Ex.isConst, Ex.closed, rho, rhou0, rhoE, u0]
  step := by rw [gas_start]; decide
  tables c hc := by
    refine ⟨?_, ?_⟩
    · simp only [coefficients, List.mem_cons, List.not_mem_nil, or_false] at hc
      rcases hc with rfl | rfl <;> exact not_generated (by decide)
    · rw [gas_start]
      revert c; decide
  others o places ks h := by simp [input, Setup.item] at h

theorem gas_program {pts : Ranges.Kernel 1 → List (P 1)} (hp : Enumerates pts) (inputs : String → ℝ) (N niter : ℤ) :
    ∃ prg, Program (gas N) .rk ((gasText N inputs).meaning ((gasText N inputs).const prg) 0) pts (input N niter) prg := by
  have hg : ∃ prg, Alg.generate (input N niter) = .ok prg := by
    simp [Alg.generate, input, Setup.item, Alg.Acc.add, Alg.sortByOrder]
    exact ⟨_, rfl⟩
  obtain ⟨prg, hg⟩ := hg
  refine ⟨prg, gas_valid N, hp, central_local (central_meaning rfl (gas_open N inputs) _ _), ⟨[], [], _, (gas_spatial N).choose_spec, rfl, by simp, by simp⟩, ?_, hg⟩
  intro o places k h
  simp [input, Setup.item] at h

theorem gas_inputs {prg : List (Alg.Node (Call 1))} {pts : Ranges.Kernel 1 → List (P 1)} (inputs : String → ℝ) (N niter : ℤ)
    (hP : Program (gas N) .rk ((gasText N inputs).meaning ((gasText N inputs).const prg) 0) pts (input N niter) prg) (s : String) (hs : s ∈ ["gama", "Minf", "Twall"]) : (gasText N inputs).const prg s = inputs s := by
  have hst : ⟨s, none⟩ ∈ (gasText N inputs).start.constants := by
    change (⟨s, none⟩ : Const (Sym 1)) ∈ (Rc.empty.performs ops).constants
    rw [ops_constants]
    simp only [List.mem_cons, List.not_mem_nil, or_false] at hs
    rcases hs with rfl | rfl | rfl <;> simp
  exact C85_constants (fits (gas_suits N niter inputs) hP).1 ⟨s, none⟩ hst ⟨(gasText N inputs).const prg, fun _ => 0, 0⟩ rfl (by simp) ⟨fun _ _ => 0, fun _ => 0⟩

/-- The components of the solution. -/
def vs : Fin 3 → Var 1 := ![.rho, .mom 0, .rhoE]

theorem vs_inj : Function.Injective vs := by
  intro i j h
  fin_cases i <;> fin_cases j <;> first | rfl | cases h

theorem range (N : ℤ) (side : Bool) : (Ranges.bcPlaneKernel (block N) 0 side).totalRange 0 = if side then (N - 1, N - 1 + 1) else (0, 0 + 1) := by
  cases side <;> simp [Ranges.bcPlaneKernel, Ranges.Kernel.totalRange, block, Ranges.Block.ranges, Ranges.minHalo, Ranges.maxHalo]

theorem gas_renders {prg : List (Alg.Node (Call 1))} (N : ℤ) (inputs : String → ℝ) (hc : ∀ c ∈ ["gama", "Minf", "Twall"], (gasText N inputs).const prg c = inputs c) :
    List.Forall₂ (Renders (gasText N inputs) prg (gas N).sol vs) (gasText N inputs).bcs (items N inputs) := by
  have gq : ∀ q : ℚ, (spelling inputs).Good (gasText N inputs) prg q := fun q => by
    rcases spelling_lit inputs q with ⟨c, hc', h, h'⟩ | h
    · exact .inr ⟨c, inputs_subset N inputs hc', h, by rw [hc c hc', h']⟩
    · obtain ⟨q', h1, h2⟩ := Recon.rational_lit (D := 1) q
      exact .inl ⟨q', h1, by rw [h]; exact h2⟩
  have gi : ∀ c ∈ ["gama", "Minf", "Twall"], (spelling inputs).Good (gasText N inputs) prg (inputs c) := fun c hc' => by
    rcases spelling_lit inputs (inputs c) with ⟨c', hc'', h, h'⟩ | h
    · exact .inr ⟨c', inputs_subset N inputs hc'', h, by rw [hc c' hc'', h']⟩
    · obtain ⟨c', hc'', h2⟩ := spelling_input inputs c hc'
      rw [h2] at h
      simp only [Recon.rational] at h
      split at h <;> cases h
  have key : ∀ (s : Side) (side : Bool) (q : ℤ), (Ranges.bcPlaneKernel (block N) 0 side).totalRange 0 = (q, q + 1) →
      Renders (gasText N inputs) prg (gas N).sol vs (planeCall (block N) 0 side (text (spelling inputs) (wall inputs s))) (.lines (Ranges.bcPlaneKernel (block N) 0 side) 0 q (wall inputs s)) := fun s side q hq =>
    C91_isothermal_partial (N := spelling inputs) Recon.mathLib_conforms Recon.mathLib_maths rfl (spelling_inj inputs) (fun i => by fin_cases i <;> rfl) (by decide) ⟨0, rfl⟩ ⟨2, rfl⟩ (fun j => ⟨1, by rw [Subsingleton.elim j 0]; rfl⟩) s 2
      (gi _ (by simp)) (gi _ (by simp)) (gi _ (by simp)) (by simpa using gq (1 / 2)) (fun i _ => by simpa using gq i)
      (fun a ha => by
        rw [List.mem_singleton.1 ha]
        refine ⟨wallEnergy_numbers (gi _ (by simp)) (gi _ (by simp)) (gi _ (by simp)) (by simpa using gq 1), fun v k e => ⟨2, by cases e; rfl⟩, fun _ c hc' => ?_⟩
        simp only [wallEnergy, cells_div, cells_mul, cells_sub, cells_num, cells_dat, List.append_nil, List.mem_singleton] at hc'
        subst hc'
        exact ⟨0, rfl⟩)
      (fun l hl => by rw [wallEnergy_locals] at hl; cases hl) _ hq
  exact .cons (key .left false 0 (range N false)) (.cons (key .right true (N - 1) (range N true)) .nil)

/-- The wall at the right end leaves the point at the left end. -/
theorem right_keeps (N : ℤ) (inputs : String → ℝ) (hN : 2 ≤ N) (i : Fin 3) : ∀ c ∈ [Item.lines (Ranges.bcPlaneKernel (block N) 0 true) 0 (N - 1) (wall inputs .right)], c.Keeps vs i fun _ => 0 := by
  intro c hc
  rw [List.mem_singleton.1 hc]
  intro _ a ha e
  have hk : ∀ k : ℤ, 0 ≤ k → k ≠ 0 - (N - 1) := fun k hk => by omega
  revert e
  revert a ha
  refine isothermal_forall ?_ ?_ ?_ ?_ ?_ ?_ ?_ ?_ ?_ ?_ ?_
  · exact fun e => by (cases e)
  · exact fun j e => hk 0 le_rfl (Cell.data.inj e).2
  · exact fun a ha e => by
      rw [List.mem_singleton.1 ha] at e
      exact hk 0 le_rfl (Cell.data.inj e).2
  · exact fun e => by (cases e)
  · exact fun i t _ _ e => by (cases e)
  · exact fun e => by (cases e)
  · exact fun i _ _ e => by (cases e)
  · exact fun i _ _ e => by (cases e)
  · exact fun i _ _ e => hk _ (by simp [Side.fromF]) (Cell.data.inj e).2
  · exact fun i j _ _ e => hk _ (by simp [Side.fromF]) (Cell.data.inj e).2
  · exact fun i _ _ e => hk _ (by simp [Side.fromF]) (Cell.data.inj e).2

theorem visits (N : ℤ) (side : Bool) : (Ranges.bcPlaneKernel (block N) 0 side).visits fun _ => if side then N - 1 else 0 := fun d => by
  rw [Subsingleton.elim d 0, range]
  cases side <;> simp

end Tube

/-- C91: the complete printed program of a gas between isothermal walls, with its kernels for the walls, compiles; after any positive number of steps the momentum at both walls is zero and, where the density is not zero, the temperature is
that of the walls. Nothing is assumed about the program. -/
theorem C91_tube (inputs : String → ℝ) (N niter : ℕ) (hN : 2 ≤ N) (hn : 1 ≤ niter) (hγ : inputs "gama" ≠ 0) (hγ1 : inputs "gama" ≠ 1) (hM : inputs "Minf" ≠ 0) (pts : Ranges.Kernel 1 → List (P 1)) (hp : Enumerates pts) (a : Arrays 1) :
    ∃ prg a', Alg.generate (Tube.input N niter) = .ok prg ∧ (Tube.gasText N inputs).runText prg pts (Alg.runProgram prg) a = some a' ∧
      ∀ x : P 1, (x = fun _ => 0) ∨ (x = fun _ => (N : ℤ) - 1) → a' "rhou0_B0" x = 0 ∧
        (a' "rho_B0" x ≠ 0 → Spec.temperatureOf (inputs "gama") (inputs "Minf") (a' "rho_B0" x) (fun _ : Fin 1 => a' "rhou0_B0" x) (a' "rhoE_B0" x) = inputs "Twall") := by
  obtain ⟨prg, hP⟩ := Tube.gas_program hp inputs N niter
  have hS := Tube.gas_suits N niter inputs
  have hR := Tube.gas_renders N inputs (Tube.gas_inputs inputs N niter hP)
  have hN' : (2 : ℤ) ≤ N := by exact_mod_cast hN
  have hn' : (1 : ℤ) ≤ (Tube.input N niter).niter := by simpa [Tube.input] using hn
  have hu : ∀ a ∈ [wallEnergy 1 (inputs "gama") (inputs "Minf") (inputs "Twall")], ∀ j, a.target ≠ .data (.mom j) 0 := fun a ha j => by
    rw [List.mem_singleton.1 ha]
    simp [wallEnergy]
  have l1 := (C91_no_slip_partial hS hP rfl rfl rfl Tube.vs_inj hR (pre := []) rfl (Tube.range N false) a hn' hu).1
  have l2 := (C91_wall_temperature_partial hS hP rfl rfl rfl Tube.vs_inj hR (pre := []) rfl (Tube.range N false) a hn' hγ hγ1 hM (iρ := 0) (iE := 2) (im := fun _ => 1) rfl rfl (fun j => by rw [Subsingleton.elim j 0]; rfl)).1
  have r1 := (C91_no_slip_partial hS hP rfl rfl rfl Tube.vs_inj hR (pre := [_]) (post := []) rfl (Tube.range N true) a hn' hu).1
  have r2 := (C91_wall_temperature_partial hS hP rfl rfl rfl Tube.vs_inj hR (pre := [_]) (post := []) rfl (Tube.range N true) a hn' hγ hγ1 hM (iρ := 0) (iE := 2) (im := fun _ => 1) rfl rfl (fun j => by rw [Subsingleton.elim j 0]; rfl)).1
  obtain ⟨a', e, l1⟩ := l1
  obtain ⟨_, e', l2⟩ := l2
  rw [e] at e'
  cases e'
  obtain ⟨_, e', r1⟩ := r1
  rw [e] at e'
  cases e'
  obtain ⟨_, e', r2⟩ := r2
  rw [e] at e'
  cases e'
  refine ⟨prg, a', hP.generated, e, fun x hx => ?_⟩
  rcases hx with rfl | rfl
  · exact ⟨l1 _ (Tube.visits N false) 1 0 rfl (Tube.right_keeps N inputs hN' 1), l2 _ (Tube.visits N false) fun c hc i => Tube.right_keeps N inputs hN' i c hc⟩
  · exact ⟨r1 _ (Tube.visits N true) 1 0 rfl (by simp), r2 _ (Tube.visits N true) (by simp)⟩

end OpenSBLI.Bc
