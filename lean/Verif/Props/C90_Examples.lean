import Verif.Props.C90_Simulation
import Verif.Props.C88_Wave

/-!
# C90: a maximum principle for a printed program

Diffusion, `phi_t = kappa phi_xx`, with differences of second order on a periodic interval.
-/
namespace OpenSBLI.Sim
open Spec OpenSBLI.Reg OpenSBLI.CCode

/-- Logistic growth stays between 0 and 1 with both schemes. -/
example (s : RK.State ℝ) (hs : s.new ∈ Set.Icc (0 : ℝ) 1) (k : ℕ) : (RK.run (fun v : ℝ => v * (1 - v)) id (1 / 2 : ℝ) k s).new ∈ Set.Icc (0 : ℝ) 1 :=
  RK.C90_default (F := fun v : ℝ => v * (1 - v)) (convex_Icc 0 1) one_pos (fun v hv => by constructor <;> simp only [one_smul] <;> nlinarith [hv.1, hv.2]) (by norm_num) (by norm_num) s hs k

example (s : RK.LSState ℝ) (hs : s.u ∈ Set.Icc (0 : ℝ) 1) (k : ℕ) : (RK.lsRun RK.sspA RK.sspB (fun v : ℝ => v * (1 - v)) id (3 / 10) k s).u ∈ Set.Icc (0 : ℝ) 1 :=
  RK.C90_ssp (convex_Icc 0 1) one_pos (fun v hv => by constructor <;> simp only [one_smul] <;> nlinarith [hv.1, hv.2]) (by norm_num) (by norm_num) s hs k

/-- Diffusion with `N` points. -/
def heat (N : ℤ) : Setup 1 1 where
  np := ![N]
  order := 2
  sol := ![ "phi" ]
  rhs := ![.mul (.const "kappa") (.cd 0 2 phi)]
  rel := []
  w0 := 0
  known := ["phi"]
  groups := [(0, [.cd 0 2 phi])]
  vcds := []
  keys := ["phi"]

theorem heat_valid (N : ℤ) : (heat N).Valid where
  listed := {
    groupDirs := by simp [heat]
    groupDir := by simp [heat, Ex.dir]
    groupNonempty := by simp [heat]
    flatNodup := by simp [heat, Setup.flat]
    flatMem := fun c => by simp [heat, Setup.flat, Ex.convective, Ex.classified, Ex.hasRe, Ex.sum, Ex.zeroFn, Ex.cds, phi]
    vcdsNodup := by simp [heat]
    vcdsMem := fun c => by simp [heat, Ex.viscous, Ex.classified, Ex.hasRe, Ex.sum, Ex.zeroFn, Ex.cds, phi]
    keysNodup := by simp [heat]
    keysMem := fun s => by simp [heat, Setup.required, Setup.flat, Ex.convective, Ex.viscous, Ex.classified, Ex.hasRe, Ex.sum, Ex.zeroFn, Ex.datas, Ex.arrs, phi, eq_comm] }
  solInj := fun i j _ => Subsingleton.elim i j
  relSol := fun i => rfl
  relNodup := by simp [heat]
  relPlain := fun s e h => by simp [Setup.relation, heat] at h
  rhsPlain := fun i => by
    rw [Subsingleton.elim i 0]
    exact ⟨by simp [heat, Ex.plain, Ex.arrs, phi], rfl, rfl⟩
  rhsSteady := fun i => by rw [Subsingleton.elim i 0]; rfl
  groups := by simp [heat]
  convFlat := by simp [heat, Setup.flat, Ex.arg, Ex.cds, phi]
  visc := fun c hc => by simp [heat] at hc
  viscDer := .inr fun i t ht => by
    rw [Subsingleton.elim i 0] at ht
    simp [heat, Ex.classified, phi] at ht
    subst ht
    rfl
  known := fun s _ => rfl
  halos := fun s _ e h => by simp [Setup.relation, heat] at h

theorem heat_spatial (N : ℤ) : ∃ ks, (heat N).spatial = .ok ks := by
  have h : SortDict.sortDictionary ((((heat N).keys.filter fun s => ((heat N).relation s).isNone) ++ (heat N).known).dedup) ((heat N).keys.filterMap fun s => ((heat N).relation s).map fun e => (s, e.datas)) =
      .ok [] := by
    change SortDict.sortDictionary (["phi", "phi"].dedup) [] = .ok []
    decide +kernel
  unfold Setup.spatial Setup.relKernels Setup.relOrder
  rw [h]
  exact ⟨_, rfl⟩

/-- `niter` steps. -/
noncomputable def heatInput (N niter : ℤ) : Alg.Input (Call 1) where
  temporalSchemes := 1
  items := [(heat N).item .rk (heat_spatial N).choose]
  stages := 3
  niter := niter
  monitorFrequency := none
  ios := []

/-- The constants of the program. -/
def heatOps : List (Rc.Op (Sym 1)) :=
  [.add ⟨"block0np0", none⟩, .add ⟨"dt", none⟩, .add ⟨"kappa", none⟩, .add ⟨"Delta0block0", none⟩, .request .inv (.pow (.const "Delta0block0") (.num (-2)))]

theorem heatOps_registered : Registered heatOps := by
  refine ⟨fun c hc => ?_, fun p k hk => ?_, fun pre op post e k hk n hn => ?_⟩
  · simp only [heatOps, List.mem_cons, List.not_mem_nil, or_false, Rc.Op.add.injEq, reduceCtorEq] at hc
    rcases hc with rfl | rfl | rfl | rfl
    · exact not_generated_head (by decide)
    · exact not_generated_head (by decide)
    · exact not_generated_head (by decide)
    · exact not_generated_head (by decide)
  · simp only [heatOps, List.mem_cons, List.not_mem_nil, or_false, Rc.Op.request.injEq, reduceCtorEq, false_or] at hk
    rw [hk.2]
    exact ⟨trivial, trivial⟩
  · match pre, e with
    | [], e => cases e; cases hk
    | [_], e => cases e; cases hk
    | [_, _], e => cases e; cases hk
    | [_, _, _], e => cases e; cases hk
    | [_, _, _, _], e => cases e; subst hk; revert n; decide +kernel
    | _ :: _ :: _ :: _ :: _ :: l, e => simp [heatOps] at e

/-- The text of the program, with some printed boundary conditions. -/
noncomputable def heatWith (bcs : List (BcCall 1)) (inputs : String → ℝ) : Text 1 where
  names := (waveText inputs).names
  delta := ![ "Delta0block0" ]
  order := 2
  lib := sineLib
  ops := heatOps
  inputs := inputs
  table t := if t = "rknew" then [2/3, 5/12, 3/5] else [1/4, 3/20, 3/5]
  mods := fun _ => ⟨none, none⟩
  points := ![ "block0np0" ]
  carpenter := fun _ _ => 0
  fns := fun _ => none
  bcs := bcs

/-- The text of the program without them. -/
noncomputable abbrev heatText (inputs : String → ℝ) : Text 1 := heatWith [] inputs

variable {bcs : List (BcCall 1)}

theorem heat_open (inputs : String → ℝ) (d : Fin 1) : ¬ (heatWith bcs inputs).hasClosure d := by simp [Text.hasClosure, heatWith]

theorem heat_suits (inputs : String → ℝ) (hb : ∀ r eqs, .kernel r eqs ∈ bcs → (heatWith bcs inputs).Proper eqs) (N niter : ℤ) : (heatWith bcs inputs).Suits (heat N) .rk (heatInput N niter) waveArrays where
  bcs := hb
  lib := sineLib_conforms
  powers := realLib_powers
  registered := heatOps_registered
  injective := wave_names inputs
  order := rfl
  works i := trivial
  arrays i := by rw [Subsingleton.elim i 0]; simp [waveArrays, heat]
  rhs i := by
    rw [Subsingleton.elim i 0]
    have hc : "kappa" ∈ (Rc.empty.performs heatOps).names := by decide +kernel
    refine ⟨fun a ha => ?_, hc, ⟨trivial, rfl, ⟨.inv, by simp [heatWith, heatOps, Text.inverse]⟩, fun h => absurd h (heat_open inputs 0)⟩, by simp [Ex.isInt]⟩
    have : a ∈ [Arr.data "phi"] := ha
    rw [List.mem_singleton.1 this]
    simp [waveArrays]
  rel s e h := by simp [heat] at h
  step := by
    change "dt" ∈ (Rc.empty.performs heatOps).names
    decide +kernel
  tables c hc := by
    refine ⟨?_, ?_⟩
    · simp only [coefficients, List.mem_cons, List.not_mem_nil, or_false] at hc
      rcases hc with rfl | rfl <;> exact not_generated (by decide)
    · change c ∉ (Rc.empty.performs heatOps).names
      revert c; decide +kernel
  others o places ks h := by simp [heatInput, Setup.item] at h

theorem heat_program {pts : Ranges.Kernel 1 → List (P 1)} (hp : Enumerates pts) (inputs : String → ℝ) (N niter : ℤ) :
    ∃ prg, Program (heat N) .rk ((heatWith bcs inputs).meaning ((heatWith bcs inputs).const prg) 0) pts (heatInput N niter) prg := by
  have hg : ∃ prg, Alg.generate (heatInput N niter) = .ok prg := by
    simp [Alg.generate, heatInput, Setup.item, Alg.Acc.add, Alg.sortByOrder]
    exact ⟨_, rfl⟩
  obtain ⟨prg, hg⟩ := hg
  refine ⟨prg, heat_valid N, hp, central_local (central_meaning rfl (heat_open inputs) _ _), ⟨[], [], _, (heat_spatial N).choose_spec, rfl, by simp, by simp⟩, ?_, hg⟩
  intro o places k h
  simp [heatInput, Setup.item] at h

theorem heat_inputs {prg : List (Alg.Node (Call 1))} {pts : Ranges.Kernel 1 → List (P 1)} (inputs : String → ℝ) (hb : ∀ r eqs, .kernel r eqs ∈ bcs → (heatWith bcs inputs).Proper eqs) (N niter : ℤ)
    (hP : Program (heat N) .rk ((heatWith bcs inputs).meaning ((heatWith bcs inputs).const prg) 0) pts (heatInput N niter) prg) (s : String) (hs : s ∈ ["dt", "kappa", "Delta0block0"]) : (heatWith bcs inputs).const prg s = inputs s := by
  have hst : ⟨s, none⟩ ∈ (heatWith bcs inputs).start.constants := by
    change (⟨s, none⟩ : Const (Sym 1)) ∈ (Rc.empty.performs heatOps).constants
    have h : (Rc.empty.performs heatOps).constants = (Rc.empty.performs heatOps).constants.take 4 ++ (Rc.empty.performs heatOps).constants.drop 4 := (List.take_append_drop 4 _).symm
    have h2 : (Rc.empty.performs heatOps).constants.take 4 = [⟨"block0np0", none⟩, ⟨"dt", none⟩, ⟨"kappa", none⟩, ⟨"Delta0block0", none⟩] := by with_unfolding_all rfl
    rw [h, h2]
    simp only [List.mem_cons, List.not_mem_nil, or_false] at hs
    rcases hs with rfl | rfl | rfl <;> simp
  exact C85_constants (fits (heat_suits inputs hb N niter) hP).1 ⟨s, none⟩ hst ⟨(heatWith bcs inputs).const prg, fun _ => 0, 0⟩ rfl (by simp) ⟨fun _ _ => 0, fun _ => 0⟩

/-- The second differences. -/
theorem weights2 (δ : ℝ) (f : ℤ → ℝ) (x : ℤ) : Central.discretise 2 2 δ f x = (f (x + 1) - 2 * f x + f (x - 1)) / δ ^ 2 := by
  have hpts : Central.points 2 = {-1, 0, 1} := by decide
  have h0 := Central.weights_exact (K := ℝ) 2 2 1 (by simp)
  have h1 := Central.weights_exact (K := ℝ) 2 2 Polynomial.X (by simp)
  have h2 := Central.weights_exact (K := ℝ) 2 2 (Polynomial.X ^ 2) (by simp)
  rw [hpts] at h0 h1 h2
  simp [Finset.sum_insert] at h0 h1 h2
  rw [Central.discretise, hpts]
  simp [Finset.sum_insert]
  have e1 : Central.weight ℝ 2 2 1 = 1 := by linarith
  have e2 : Central.weight ℝ 2 2 (-1) = 1 := by linarith
  have e3 : Central.weight ℝ 2 2 0 = -2 := by linarith
  rw [e1, e2, e3, ← sub_eq_add_neg]
  ring

/-- The maximum principle for boundary conditions which put values within the bounds into the halos. -/
theorem heat_principle (inputs : String → ℝ) (hb : ∀ r eqs, .kernel r eqs ∈ bcs → (heatWith bcs inputs).Proper eqs) (N niter : ℕ) (hκ : 0 < inputs "kappa") (hδ : inputs "Delta0block0" ≠ 0) (hdt : 0 ≤ inputs "dt")
    (hlim : inputs "dt" ≤ 3 / 10 * (inputs "Delta0block0" ^ 2 / inputs "kappa")) (pts : Ranges.Kernel 1 → List (P 1)) {prg : List (Alg.Node (Call 1))}
    (hP : Program (heat N) .rk ((heatWith bcs inputs).meaning ((heatWith bcs inputs).const prg) 0) pts (heatInput N niter) prg) (a : Arrays 1) (lo hi : ℝ) {B : Sol 1 1 → Sol 1 1} (hB : FillsHalos ![(N : ℤ)] 1 B)
    (hin : ∀ q : Sol 1 1, (∀ x, Grid ![(N : ℤ)] x → lo ≤ q 0 x ∧ q 0 x ≤ hi) → ∀ x, Allocated ![(N : ℤ)] 1 x → lo ≤ B q 0 x ∧ B q 0 x ≤ hi)
    (h0 : ∀ x, Grid ![(N : ℤ)] x → lo ≤ a "phi_B0" x ∧ a "phi_B0" x ≤ hi) :
    ∃ a', (heatWith bcs inputs).run prg pts ![ "phi" ] B (Alg.runProgram prg) a = some a' ∧ ∀ x, Grid ![(N : ℤ)] x → lo ≤ a' "phi_B0" x ∧ a' "phi_B0" x ≤ hi := by
  have hc := heat_inputs inputs hb N niter hP
  have cdt := hc "dt" (by simp)
  have cκ := hc "kappa" (by simp)
  have cδ := hc "Delta0block0" (by simp)
  have hh : (heat N).h = 1 := by simp [Setup.h, heat]
  set T := heatWith bcs inputs with hT
  set init : String → P 1 → ℝ := fun s => T.startState (heat N) prg pts B (heatInput N niter) a (.data s) with hinit
  let full : Sol 1 1 → String → P 1 → ℝ := fun q s => if s = "phi" then q 0 else init s
  have hstart : T.startState (heat N) prg pts B (heatInput N niter) a = fun A => a (T.names A) := by
    simp [Text.startState, atStart, heatInput, Alg.others, Setup.item, Alg.sortByOrder, Alg.placedAt, Alg.calls, Alg.effect]
  let K : Set (GridSol (heat N).np 1) := {v | ∀ x, lo ≤ v 0 x ∧ v 0 x ≤ hi}
  have hK : Convex ℝ K := by
    intro u hu v hv p q hp hq hpq x
    have := convex_Icc lo hi (hu x) (hv x) hp hq hpq
    exact this
  have hB' : FillsHalos (heat N).np (heat N).h B := by rw [hh]; exact hB
  have key := C90_text_partial (heat_suits inputs hb N niter) hP rfl (by simp [heatWith]) (by simp [heatWith]) hB' a full
    (fun q => ⟨fun i => by rw [Subsingleton.elim i 0]; simp [full, heat], fun s e _ h => by simp [heat] at h, fun s _ h2 => by
      have : s ≠ "phi" := h2 0
      simp only [full, if_neg this]
      rfl⟩)
    hK (τ := inputs "Delta0block0" ^ 2 / (2 * inputs "kappa")) (by positivity)
    (by
      intro v hv x
      set q : Sol 1 1 := complete (heat N).np B (stateOf (heat N) (T.startState (heat N) prg pts B (heatInput N niter) a)).q v with hq
      have hin : ∀ y : P 1, Allocated ![(N : ℤ)] 1 y → lo ≤ q 0 y ∧ q 0 y ≤ hi := by
        refine hin _ fun y hy => ?_
        have hy' : Grid (heat N).np y := hy
        rw [dif_pos hy']
        exact hv _
      have hgx : ∀ j : ℤ, -1 ≤ j → j ≤ 1 → Allocated ![(N : ℤ)] 1 (Function.update x.1 0 (x.1 0 + j)) := by
        intro j j1 j2 d
        rw [Subsingleton.elim d 0]
        have := x.2 0
        simp only [heat] at this
        simp only [Function.update_self]
        omega
      have e : (v + (inputs "Delta0block0" ^ 2 / (2 * inputs "kappa")) • onGridValues (heat N).np (fun q i x => ((heat N).rhs i).eval (T.meaning (T.const prg) 0) (memOf (full q)) x) B
          (stateOf (heat N) (T.startState (heat N) prg pts B (heatInput N niter) a)).q v) 0 x =
          (q 0 (Function.update x.1 0 (x.1 0 + 1)) + q 0 (Function.update x.1 0 (x.1 0 + -1))) / 2 := by
        have e1 : v 0 x = q 0 (Function.update x.1 0 (x.1 0)) := by
          rw [Function.update_eq_self, hq]
          unfold complete
          rw [hB'.keeps _ 0 x.1 x.2, dif_pos x.2]
        have e2 : (T.meaning (T.const prg) 0).cd 0 2 (q 0) x.1 = (q 0 (Function.update x.1 0 (x.1 0 + 1)) - 2 * q 0 (Function.update x.1 0 (x.1 0)) + q 0 (Function.update x.1 0 (x.1 0 - 1))) / inputs "Delta0block0" ^ 2 := by
          rw [central_meaning (S := heat N) rfl (heat_open inputs) _ _ 0 2 (q 0) x.1]
          exact (weights2 _ _ _).trans (congrArg (fun δ : ℝ => _ / δ ^ 2) cδ)
        change v 0 x + _ * (T.const prg "kappa" * (T.meaning (T.const prg) 0).cd 0 2 (full q "phi") x.1) = _
        rw [show full q "phi" = q 0 from rfl, cκ, e1, e2]
        field_simp
        ring_nf
      rw [e]
      have b1 := hin _ (hgx 1 (by norm_num) le_rfl)
      have b2 := hin _ (hgx (-1) le_rfl (by norm_num))
      constructor <;> linarith [b1.1, b1.2, b2.1, b2.2])
    (by rw [cdt]; exact hdt) (by rw [cdt]; refine hlim.trans (le_of_eq ?_); field_simp; norm_num)
    (by
      intro x
      rw [hstart]
      exact h0 x.1 x.2)
  obtain ⟨⟨a', r1, r2⟩, -⟩ := key
  exact ⟨a', r1, fun x hx => r2 ⟨x, hx⟩⟩

/-- C90: the printed program of diffusion obeys the maximum principle: with a time step of at most 0.3 times the square of the spacing over the diffusivity, all values on the grid stay between the bounds of the initial values, for any number of points and steps.
Nothing is assumed about the program. -/
theorem C90_heat (inputs : String → ℝ) (N niter : ℕ) (hN : 1 ≤ N) (hκ : 0 < inputs "kappa") (hδ : inputs "Delta0block0" ≠ 0) (hdt : 0 ≤ inputs "dt")
    (hlim : inputs "dt" ≤ 3 / 10 * (inputs "Delta0block0" ^ 2 / inputs "kappa")) (pts : Ranges.Kernel 1 → List (P 1)) (hp : Enumerates pts) (a : Arrays 1) (lo hi : ℝ)
    (h0 : ∀ x, Grid ![(N : ℤ)] x → lo ≤ a "phi_B0" x ∧ a "phi_B0" x ≤ hi) :
    ∃ prg a', Alg.generate (heatInput N niter) = .ok prg ∧ (heatText inputs).run prg pts ![ "phi" ] (exchange ![(N : ℤ)] 1) (Alg.runProgram prg) a = some a' ∧
      ∀ x, Grid ![(N : ℤ)] x → lo ≤ a' "phi_B0" x ∧ a' "phi_B0" x ≤ hi := by
  have hb : ∀ r eqs, .kernel r eqs ∈ ([] : List (BcCall 1)) → (heatText inputs).Proper eqs := fun _ _ h => (List.not_mem_nil h).elim
  obtain ⟨prg, hP⟩ := heat_program (bcs := []) hp inputs N niter
  have hn : ∀ d, (1 : ℤ) ≤ ![(N : ℤ)] d := fun d => by
    rw [Subsingleton.elim d 0]
    simpa using hN
  obtain ⟨a', r1, r2⟩ := heat_principle inputs hb N niter hκ hδ hdt hlim pts hP a lo hi (exchange_fills (by decide) hn) (fun q hq y hy => by
    rw [exchange_image (by decide) hn _ 0 _ hy]
    refine hq _ fun d => ?_
    have := hn d
    exact ⟨Int.emod_nonneg _ (by omega), Int.emod_lt_of_pos _ (by omega)⟩) h0
  exact ⟨prg, a', hP.generated, r1, r2⟩

/-- The hypotheses can be met: 100 points on the unit interval. -/
example : (1 / 50000 : ℝ) ≤ 3 / 10 * ((1 / 100) ^ 2 / 1) := by norm_num

end OpenSBLI.Sim
