import Verif.Props.C89_TimeOrder
import Verif.Props.C85_Examples

/-!
# C89: problems meeting the hypotheses
-/
namespace OpenSBLI.Sim
open Spec TimeOrder OpenSBLI.Reg OpenSBLI.CCode

/-- A nonlinear equation with a known solution: `y' = y²`, `y = 1/(1-t)`, up to time 1/2. -/
example (s : ℝ → RK.State ℝ) (hs : ∀ dt, (s dt).new = 1) : ThirdOrder (fun dt k => (RK.run (fun v : ℝ => v ^ 2) id dt k (s dt)).new) (fun t => (1 - t)⁻¹) (1 / 2) := by
  refine C89_default (Ω := Set.univ) ⟨isOpen_univ, (contDiff_id.pow 2).contDiffOn⟩ ⟨1 / 4, by norm_num, fun t ht => ⟨trivial, ?_⟩⟩ s (fun dt => by simp [hs])
  have h : (1 : ℝ) - t ≠ 0 := by have := ht.2; intro h; linarith
  have := ((hasDerivAt_id t).const_sub 1).inv h
  have e : (fun t : ℝ => (1 - t)⁻¹) = (fun x : ℝ => 1 - id x)⁻¹ := rfl
  rw [e]
  refine this.congr_deriv ?_
  simp [inv_pow]

/-! ## The printed program of a nonlinear flow -/

/-- `flow` with any number of steps. -/
noncomputable def flowRun (niter : ℤ) : Alg.Input (Call 2) := { flowInput with niter := niter }

theorem flowRun_program {pts : Ranges.Kernel 2 → List (P 2)} (hp : Enumerates pts) (inputs : String → ℝ) (niter : ℤ) :
    ∃ prg, Program flow .rk ((flowText inputs).meaning ((flowText inputs).const prg) 0) pts (flowRun niter) prg := by
  have hg : ∃ prg, Alg.generate (flowRun niter) = .ok prg := by
    simp [Alg.generate, flowRun, flowInput, Setup.item, Alg.Acc.add, Alg.sortByOrder]
    exact ⟨_, rfl⟩
  obtain ⟨prg, hg⟩ := hg
  refine ⟨prg, flow_valid, hp, central_local (central_meaning rfl (flow_open inputs) _ _), ⟨[], [], _, flow_spatial.choose_spec, rfl, by simp, by simp⟩, ?_, hg⟩
  intro o places k h
  simp [flowRun, flowInput, Setup.item] at h

theorem flowRun_suits (inputs : String → ℝ) (niter : ℤ) : (flowText inputs).Suits flow .rk (flowRun niter) flowArrays :=
  { flowText_suits inputs with others := fun o places ks h => by simp [flowRun, flowInput, Setup.item] at h }

/-- The datasets of `flow`, given density and momentum: `u = rhou/rho` and `p = gm1 rhou u`. -/
noncomputable def flowFull (gm1 : ℝ) (init : String → P 2 → ℝ) (q : Sol 2 2) (s : String) (x : P 2) : ℝ :=
  if s = "rho" then q 0 x else if s = "rhou" then q 1 x else if s = "u" then q 1 x * (q 0 x)⁻¹ else if s = "p" then gm1 * (q 1 x * (q 1 x * (q 0 x)⁻¹)) else init s x

theorem realPow_neg_one (x : ℝ) : realPow x ((-1 : ℚ) : ℝ) = x⁻¹ := by
  have := realPow_int x (-1)
  push_cast at this ⊢
  rw [this, zpow_neg_one]

theorem flowFull_consistent (inputs const : String → ℝ) (init : String → P 2 → ℝ) (q : Sol 2 2) : Consistent flow ((flowText inputs).meaning const 0) init q (flowFull (const "gm1") init q) := by
  refine ⟨fun i => ?_, fun s e _ h x => ?_, fun s h1 h2 => ?_⟩
  · funext x
    fin_cases i <;> simp [flow, flowFull]
  · simp only [flow, List.mem_cons, Prod.mk.injEq, List.not_mem_nil, or_false] at h
    rcases h with ⟨rfl, rfl⟩ | ⟨rfl, rfl⟩
    · simp [flowFull, Ex.eval, memOf, rhou, u, Text.meaning]
    · have : (flowText inputs).lib.pow = realPow := rfl
      simp only [flowFull, Ex.eval, memOf, rhou, Text.meaning, this, realPow_neg_one]
      simp
  · have hu : s ≠ "u" := fun h => by subst h; exact h1 _ (by simp [flow]; rfl)
    have hp : s ≠ "p" := fun h => by subst h; exact h1 _ (by simp [flow]; rfl)
    have h3 : s ≠ "rho" := h2 0
    have h4 : s ≠ "rhou" := h2 1
    funext x
    simp [flowFull, *]

/-- The discretised equations for the values of density and momentum on the grid, with the given constants. -/
noncomputable def flowEquations (const : String → ℝ) (init : String → P 2 → ℝ) (q0 : Sol 2 2) : GridSol flow.np 2 → GridSol flow.np 2 :=
  onGridValues flow.np (fun q i x => (flow.rhs i).eval ((flowText const).meaning const 0) (memOf (flowFull (const "gm1") init q)) x) (exchange flow.np flow.h) q0

/-- The values with non-vanishing density. -/
def flowDense : Set (GridSol flow.np 2) := {v | ∀ x, v 0 x ≠ 0}

theorem flowDense_isOpen : IsOpen flowDense := by
  have : flowDense = ⋂ x, {v | v 0 x ≠ 0} := by ext v; simp [flowDense]
  rw [this]
  exact isOpen_iInter_of_finite fun x => isOpen_ne_fun ((continuous_apply x).comp (continuous_apply 0)) continuous_const

theorem flow_smooth (const : String → ℝ) (init : String → P 2 → ℝ) (q0 : Sol 2 2) : SmoothOn (flowEquations const init q0) flowDense := by
  have hn : ∀ d, flow.h ≤ flow.np d := by decide
  have hh : 0 ≤ flow.h := by decide
  refine C89_smooth (δ := fun d => const ((flowText const).delta d)) flow_valid flow_spatial.choose_spec (central_meaning rfl (flow_open const) _ _) hn (flowFull_consistent const const init) q0 flowDense_isOpen ?_
  rintro e (⟨i, rfl⟩ | ⟨s, h⟩)
  · fin_cases i
    · exact ⟨⟨trivial, trivial⟩, trivial, trivial, trivial⟩
    · refine ⟨⟨trivial, ⟨trivial, trivial⟩, trivial⟩, fun x => ?_, trivial⟩
      change ContDiffOn ℝ 3 (fun _ : GridSol flow.np 2 => realPow (const "Re") ((-1 : ℚ) : ℝ)) flowDense
      exact contDiffOn_const
  · simp only [flow, List.mem_cons, Prod.mk.injEq, List.not_mem_nil, or_false] at h
    rcases h with ⟨rfl, rfl⟩ | ⟨rfl, rfl⟩
    · exact ⟨trivial, trivial, trivial⟩
    · refine ⟨trivial, fun x => ?_⟩
      change ContDiffOn ℝ 3 (fun v : GridSol flow.np 2 => realPow (complete flow.np (exchange flow.np flow.h) q0 v 0 x) ((-1 : ℚ) : ℝ)) flowDense
      simp only [realPow_neg_one]
      by_cases hx : Allocated flow.np flow.h x
      · refine (exchange_smooth hh hn q0 flowDense 0 x).inv fun v hv => ?_
        have hg : Grid flow.np fun d => x d % flow.np d := fun d => by
          have : (0 : ℤ) < flow.np d := by revert d; decide
          exact ⟨Int.emod_nonneg _ this.ne', Int.emod_lt_of_pos _ this⟩
        unfold complete
        rw [exchange_image hh hn _ 0 _ hx, dif_pos hg]
        exact hv _
      · have hg : ¬ Grid flow.np x := fun h => hx fun d => by have := h d; have := hn d; omega
        have : ∀ v : GridSol flow.np 2, complete flow.np (exchange flow.np flow.h) q0 v 0 x = q0 0 x := fun v => by
          unfold complete
          rw [(exchange_fills hh hn).outside _ _ _ hx, dif_neg hg]
        simp only [this]
        exact contDiffOn_const

theorem flow_inputs {prg : List (Alg.Node (Call 2))} {pts : Ranges.Kernel 2 → List (P 2)} (inputs : String → ℝ) (niter : ℤ)
    (hP : Program flow .rk ((flowText inputs).meaning ((flowText inputs).const prg) 0) pts (flowRun niter) prg) (s : String) (hs : s ∈ ["dt", "gm1", "Re", "Delta0block0", "Delta1block0"]) : (flowText inputs).const prg s = inputs s := by
  have hst : ⟨s, none⟩ ∈ (flowText inputs).start.constants := by
    change (⟨s, none⟩ : Const (Sym 2)) ∈ (Rc.empty.performs flowOps).constants
    have h : (Rc.empty.performs flowOps).constants = (Rc.empty.performs flowOps).constants.take 7 ++ (Rc.empty.performs flowOps).constants.drop 7 := (List.take_append_drop 7 _).symm
    have h2 : (Rc.empty.performs flowOps).constants.take 7 = [⟨"block0np0", none⟩, ⟨"block0np1", none⟩, ⟨"dt", none⟩, ⟨"gm1", none⟩, ⟨"Re", none⟩, ⟨"Delta0block0", none⟩, ⟨"Delta1block0", none⟩] := by with_unfolding_all rfl
    rw [h, h2]
    simp only [List.mem_cons, List.not_mem_nil, or_false] at hs
    rcases hs with rfl | rfl | rfl | rfl | rfl <;> simp
  exact C85_constants (fits (flowRun_suits inputs niter) hP).1 ⟨s, none⟩ hst ⟨(flowText inputs).const prg, fun _ => 0, 0⟩ rfl (by simp) ⟨fun _ _ => 0, fun _ => 0⟩

/-- C89: the printed program of a nonlinear flow. From any initial values with non-vanishing density the discretised equations have a solution for some time, and up to that time the program, run with any time step that is small enough, computes it with an error of at most
`C dt³`. Nothing is assumed about the program. -/
theorem C89_flow (inputs : String → ℝ) (pts : Ranges.Kernel 2 → List (P 2)) (hp : Enumerates pts) (a : Arrays 2) (hρ : ∀ x, Grid flow.np x → a "rho_B0" x ≠ 0) :
    ∃ (y : ℝ → GridSol flow.np 2) (time : ℝ), 0 < time ∧ SolvesODE (flowEquations inputs (fun s => a (s ++ "_B0")) ![a "rho_B0", a "rhou_B0"]) flowDense y time ∧
      (∀ x, y 0 0 x = a "rho_B0" x ∧ y 0 1 x = a "rhou_B0" x) ∧
      ∃ C h₀ : ℝ, 0 < h₀ ∧ ∀ (dt : ℝ) (niter : ℕ), 0 ≤ dt → dt ≤ h₀ → niter * dt ≤ time →
        ∃ prg a', Alg.generate (flowRun niter) = .ok prg ∧ (flowText (Function.update inputs "dt" dt)).run prg pts flow.sol (exchange flow.np flow.h) (Alg.runProgram prg) a = some a' ∧
          ∀ x : {x // Grid flow.np x}, |a' "rho_B0" x - y (niter * dt) 0 x| ≤ C * dt ^ 3 ∧ |a' "rhou_B0" x - y (niter * dt) 1 x| ≤ C * dt ^ 3 := by
  set q0 : Sol 2 2 := ![a "rho_B0", a "rhou_B0"] with hq0
  set init : String → P 2 → ℝ := fun s => a (s ++ "_B0") with hinit
  have hsm := flow_smooth inputs init q0
  obtain ⟨y, hy0, time, ht, hy⟩ := C89_solutions_exist hsm (v := restrict flow.np q0) fun x => hρ x.1 x.2
  obtain ⟨C, h₀, hpos, hC⟩ := C89_text_partial hsm hy
  refine ⟨y, time, ht, hy, fun x => ⟨by rw [hy0]; rfl, by rw [hy0]; rfl⟩, C, h₀, hpos, ?_⟩
  intro dt niter d0 d1 htime
  set T := flowText (Function.update inputs "dt" dt) with hT
  obtain ⟨prg, hP⟩ := flowRun_program hp (Function.update inputs "dt" dt) niter
  have hc := flow_inputs _ niter hP
  have cdt : T.const prg "dt" = dt := (hc "dt" (by simp)).trans (by simp)
  have cg : T.const prg "gm1" = inputs "gm1" := (hc "gm1" (by simp)).trans (by simp)
  have cR : T.const prg "Re" = inputs "Re" := (hc "Re" (by simp)).trans (by simp)
  have c0 : T.const prg "Delta0block0" = inputs "Delta0block0" := (hc "Delta0block0" (by simp)).trans (by simp)
  have c1 : T.const prg "Delta1block0" = inputs "Delta1block0" := (hc "Delta1block0" (by simp)).trans (by simp)
  have hstart : T.startState flow prg pts (exchange flow.np flow.h) (flowRun niter) a = fun A => a (T.names A) := by
    simp [Text.startState, atStart, flowRun, flowInput, Alg.others, Setup.item, Alg.sortByOrder, Alg.placedAt, Alg.calls, Alg.effect]
  have hq : (stateOf flow (T.startState flow prg pts (exchange flow.np flow.h) (flowRun niter) a)).q = q0 := by
    rw [hstart]
    funext i
    fin_cases i <;> rfl
  have key := hC T flowArrays pts (flowRun niter) prg (exchange flow.np flow.h) a (flowFull (inputs "gm1") init) (flowRun_suits _ niter) hP rfl (by simp [hT, flowClosed]) (by simp [hT, flowClosed])
    (exchange_fills (by decide) (by decide))
    (fun q => by
      rw [hstart, ← cg]
      exact flowFull_consistent _ _ _ q)
    (by
      rw [hq]
      funext v i x
      simp only [flowEquations, onGridValues, restrict]
      have hcd : ∀ (d : Fin 2) (k : ℕ) (f : P 2 → ℝ), (T.meaning (T.const prg) 0).cd d k f = ((flowText inputs).meaning inputs 0).cd d k f := by
        intro d k f
        funext x
        have hδ : T.const prg (T.delta d) = inputs ((flowText inputs).delta d) := by fin_cases d <;> assumption
        rw [central_meaning (S := flow) rfl (flow_open _) _ _ d k f x, central_meaning (S := flow) rfl (flow_open _) _ _ d k f x]
        exact congrArg (fun δ => Central.discretise flow.order k δ (fun y => f (Function.update x d y)) (x d)) hδ
      have hR : (T.meaning (T.const prg) 0).const "Re" = ((flowText inputs).meaning inputs 0).const "Re" := cR
      fin_cases i
      · change (_ : ℝ) * (T.meaning (T.const prg) 0).cd 0 1 _ _ + _ * (T.meaning (T.const prg) 0).cd 1 1 _ _ = _
        rw [hcd, hcd]
        rfl
      · change (_ : ℝ) * (T.meaning (T.const prg) 0).cd 0 1 _ _ + (T.meaning (T.const prg) 0).pow ((T.meaning (T.const prg) 0).const "Re") _ * (T.meaning (T.const prg) 0).cd 0 1 ((T.meaning (T.const prg) 0).cd 1 1 _) _ = _
        rw [hcd, hcd, hcd, hR]
        rfl)
    (by rw [hq, hy0]) (by rw [cdt]; exact d0) (by rw [cdt]; exact d1) (by rw [cdt]; exact htime)
  obtain ⟨⟨a', r1, r2⟩, -⟩ := key
  rw [cdt] at r2
  exact ⟨prg, a', hP.generated, r1, fun x => ⟨r2 0 x.1 x.2, r2 1 x.1 x.2⟩⟩

end OpenSBLI.Sim
