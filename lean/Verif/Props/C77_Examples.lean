import Verif.Props.C77_Conservation
import Mathlib.Tactic.FinCases

/-!
# C77: a problem meeting the hypotheses, and what happens without one of them
-/
namespace OpenSBLI.Sim

/-! ## A two-dimensional problem with convective and mixed viscous derivatives -/

def rhou : Ex 2 := .arr (.data "rhou")
def u : Ex 2 := .arr (.data "u")
def p : Ex 2 := .arr (.data "p")

/-- `rho_t = - (rhou)_x - (rhou u)_y`, `rhou_t = - (rhou u + p)_x + Re^-1 (u_y)_x`, with `u = rhou/rho` and `p = gm1 rhou u`. -/
def flow : Setup 2 2 where
  np := ![8, 6]
  order := 4
  sol := ![ "rho", "rhou" ]
  rhs := ![.add (.mul (.num (-1)) (.cd 0 1 rhou)) (.mul (.num (-1)) (.cd 1 1 (.mul rhou u))),
    .add (.mul (.num (-1)) (.cd 0 1 (.add (.mul rhou u) p))) (.mul (.pow (.const "Re") (.num (-1))) (.cd 0 1 (.cd 1 1 u)))]
  rel := [("p", .mul (.const "gm1") (.mul rhou u)), ("u", .mul rhou (.pow (.arr (.data "rho")) (.num (-1))))]
  w0 := 0
  known := ["rho", "rhou"]
  groups := [(1, [.cd 1 1 (.mul rhou u)]), (0, [.cd 0 1 (.add (.mul rhou u) p), .cd 0 1 rhou])]
  vcds := [.cd 0 1 (.cd 1 1 u), .cd 1 1 u]
  keys := ["p", "rhou", "u"]

theorem flow_required (s : String) : s ∈ flow.keys ↔ flow.required s := by
  simp [flow, Setup.required, Setup.flat, Ex.convective, Ex.viscous, Ex.classified, Ex.terms, Ex.hasRe, Ex.sum, Ex.zeroFn, Ex.datas, Ex.arrs, rhou, u, p]
  tauto

theorem flow_relation (s : String) (e : Ex 2) (h : flow.relation s = some e) :
    (s = "p" ∧ e = .mul (.const "gm1") (.mul rhou u)) ∨ (s = "u" ∧ e = .mul rhou (.pow (.arr (.data "rho")) (.num (-1)))) := by
  by_cases h1 : s = "p"
  · subst h1
    left
    exact ⟨rfl, by simpa [Setup.relation, flow] using h.symm⟩
  by_cases h2 : s = "u"
  · subst h2
    right
    exact ⟨rfl, by simpa [Setup.relation, flow] using h.symm⟩
  simp [Setup.relation, flow, Ne.symm h1, Ne.symm h2] at h

theorem flow_valid : flow.Valid where
  listed := {
    groupDirs := by decide
    groupDir := by decide
    groupNonempty := by decide
    flatNodup := by decide
    flatMem := fun c => by
      simp [flow, Setup.flat, Ex.convective, Ex.classified, Ex.terms, Ex.hasRe, Ex.sum, Ex.zeroFn, Ex.cds, rhou, u, p]
      tauto
    vcdsNodup := by decide
    vcdsMem := fun c => by
      simp [flow, Ex.viscous, Ex.classified, Ex.terms, Ex.hasRe, Ex.sum, Ex.zeroFn, Ex.cds, rhou, u, p]
      tauto
    keysNodup := by decide
    keysMem := flow_required }
  solInj := by decide
  relSol := by decide
  relNodup := by decide
  relPlain := fun s e h => by
    rcases flow_relation s e h with ⟨rfl, rfl⟩ | ⟨rfl, rfl⟩ <;> refine ⟨rfl, ?_, rfl⟩ <;> simp [Ex.plain, Ex.arrs, rhou, u]
  rhsPlain := fun i => by
    fin_cases i <;> refine ⟨?_, rfl, rfl⟩ <;> simp [flow, Ex.plain, Ex.arrs, rhou, u, p]
  rhsSteady := by decide
  groups := by decide
  convFlat := by decide
  visc := fun c hc => by
    simp only [flow, List.mem_cons, List.not_mem_nil, or_false] at hc
    rcases hc with rfl | rfl
    · exact .inr ⟨.cd 1 1 u, rfl, by decide⟩
    · exact .inl rfl
  viscDer := .inl (by decide)
  known := by decide
  halos := fun s hs e h t ht hr d hd => by
    rcases flow_relation s e h with ⟨rfl, rfl⟩ | ⟨rfl, rfl⟩
    · simp only [Ex.datas, Ex.arrs, rhou, u, List.filterMap_cons, List.filterMap_nil, List.nil_append, List.cons_append, List.mem_cons, List.not_mem_nil, or_false] at ht
      rcases ht with rfl | rfl
      · exact absurd hr (by decide)
      · revert d; decide
    · simp only [Ex.datas, Ex.arrs, rhou, List.filterMap_cons, List.filterMap_nil, List.nil_append, List.append_nil, List.cons_append, List.mem_cons, List.not_mem_nil, or_false] at ht
      rcases ht with rfl | rfl <;> exact absurd hr (by decide)

theorem flow_closed : Closed flow := by
  rintro s (⟨i, h⟩ | ⟨t, e, he, h⟩)
  · revert s; fin_cases i <;> decide
  · rcases flow_relation t e he with ⟨rfl, rfl⟩ | ⟨rfl, rfl⟩ <;> revert s <;> decide

theorem flow_spatial : ∃ ks, flow.spatial = .ok ks := by
  have h : SortDict.sortDictionary (((flow.keys.filter fun s => (flow.relation s).isNone) ++ flow.known).dedup) (flow.keys.filterMap fun s => (flow.relation s).map fun e => (s, e.datas)) =
      .ok ["u", "p"] := by decide +kernel
  unfold Setup.spatial Setup.relKernels Setup.relOrder
  rw [h]
  exact ⟨_, rfl⟩

/-- Central differences with spacings 1/10 and 1/7. -/
noncomputable def flowInterp : Interp 2 where
  const := fun c => if c = "dt" then 1/100 else 3
  table := fun t => if t = "rknew" then [2/3, 5/12, 3/5] else [1/4, 3/20, 3/5]
  stage := 0
  cd := fun d k f x => Central.discretise 4 k (![1/10, 1/7] d : ℝ) (fun y => f (Function.update x d y)) (x d)
  pow := fun a b => if b = -1 then a⁻¹ else 0
  fn := fun _ a => a

/-- 250 steps, a file every 50 steps. -/
noncomputable def flowInput : Alg.Input (Call 2) where
  temporalSchemes := 1
  items := [flow.item .rk flow_spatial.choose]
  stages := 3
  niter := 250
  monitorFrequency := none
  ios := [Alg.IO.new 0 true none 50]

theorem flow_program {pts : Ranges.Kernel 2 → List (P 2)} (hp : Enumerates pts) : ∃ prg, Program flow .rk flowInterp pts flowInput prg := by
  have hg : ∃ prg, Alg.generate flowInput = .ok prg := by
    simp [Alg.generate, flowInput, Setup.item, Alg.Acc.add, Alg.sortByOrder]
    exact ⟨_, rfl⟩
  obtain ⟨prg, hg⟩ := hg
  refine ⟨prg, flow_valid, hp, central_local (delta := ![1/10, 1/7]) fun d k f x => rfl, ⟨[], [], _, flow_spatial.choose_spec, rfl, by simp, by simp⟩, ?_, hg⟩
  intro o places k h
  simp [flowInput, Setup.item] at h

/-- The totals of both components are conserved, in the five files and at the end. -/
example (pts : Ranges.Kernel 2 → List (P 2)) (hp : Enumerates pts) (m : Mem 2) : ∃ prg, Alg.generate flowInput = .ok prg ∧
    ∀ i, Conserves flow flowInterp pts (exchange flow.np flow.h) flowInput prg m i := by
  obtain ⟨prg, hP⟩ := flow_program hp
  refine ⟨prg, hP.generated, fun i => C77_conservation_rk hP (delta := ![1/10, 1/7]) (fun d k f x => rfl) flow_closed (by decide) rfl (by simp [flowInterp]) (by simp [flowInterp]) m i ?_⟩
  revert i; decide

/-! ## Relations using relations -/

/-- `q_t = - p_x + u` with `u = q` and `p = u`: the kernel of `p` covers the halos, that of `u` does not. -/
def stale : Setup 1 1 where
  np := ![4]
  order := 2
  sol := ![ "q" ]
  rhs := ![.add (.mul (.num (-1)) (.cd 0 1 (.arr (.data "p")))) (.arr (.data "u"))]
  rel := [("p", .arr (.data "u")), ("u", .arr (.data "q"))]
  w0 := 0
  known := ["q"]
  groups := [(0, [.cd 0 1 (.arr (.data "p"))])]
  vcds := []
  keys := ["p", "u"]

/-- C77 needs its hypothesis on relations: a problem the code accepts, all values of the solution are 1 and so is its right hand side, but next to the boundary the residual is 0. The relation for `p` is evaluated in the
halos with the values `u` had before. -/
theorem C77_stale_constituent (I : Interp 1) (hI : ∀ f x, I.cd 0 1 f x = f (shift x 0 1) - f (shift x 0 (-1))) (pts : Ranges.Kernel 1 → List (P 1)) (hp : Enumerates pts)
    (m : Mem 1) (hq : ∀ x, m (.data "q") x = 1) (hu : ∀ x, m (.data "u") x = 0) :
    stale.Listed ∧ ∃ ks f, stale.spatial = .ok ks ∧ Consistent stale I (fun s => m (.data s)) (fun i => m (.data (stale.sol i))) f ∧
      (stale.rhs 0).eval I (memOf f) (fun _ => 0) = 1 ∧ (ks.foldl (fun m k => runKer I pts k m) m) (.res 0) (fun _ => 0) = 0 := by
  have hs : SortDict.sortDictionary (((stale.keys.filter fun s => (stale.relation s).isNone) ++ stale.known).dedup) (stale.keys.filterMap fun s => (stale.relation s).map fun e => (s, e.datas)) =
      .ok ["u", "p"] := by decide +kernel
  refine ⟨?_, [⟨rangeOf stale.np stale.h [], [(.data "u", .arr (.data "q"))]⟩, ⟨rangeOf stale.np stale.h [0], [(.data "p", .arr (.data "u"))]⟩,
    ⟨rangeOf stale.np stale.h [], [(.work 0, .cd 0 1 (.arr (.data "p")))]⟩,
    ⟨rangeOf stale.np stale.h [], [(.res 0, .add (.add (.num 0) (.mul (.num (-1)) (.arr (.work 0)))) (.arr (.data "u")))]⟩],
    fun s x => if s = "u" ∨ s = "p" ∨ s = "q" then 1 else m (.data s) x, ?_, ⟨?_, ?_, ?_⟩, ?_, ?_⟩
  · refine ⟨by decide, by decide, by decide, by decide, fun c => ?_, by decide, fun c => ?_, by decide, fun s => ?_⟩
    · simp [stale, Setup.flat, Ex.convective, Ex.classified, Ex.terms, Ex.hasRe, Ex.sum, Ex.zeroFn, Ex.cds]
    · simp [stale, Ex.viscous, Ex.classified, Ex.terms, Ex.hasRe, Ex.sum, Ex.zeroFn, Ex.cds]
    · simp [stale, Setup.required, Setup.flat, Ex.convective, Ex.viscous, Ex.classified, Ex.terms, Ex.hasRe, Ex.sum, Ex.zeroFn, Ex.datas, Ex.arrs]
      tauto
  · unfold Setup.spatial Setup.relKernels Setup.relOrder
    rw [hs]
    rfl
  · intro i
    fin_cases i
    funext x
    simp [stale, hq]
  · intro s e _ h x
    simp only [stale, List.mem_cons, Prod.mk.injEq, List.not_mem_nil, or_false] at h
    rcases h with ⟨rfl, rfl⟩ | ⟨rfl, rfl⟩ <;> simp [Ex.eval, memOf]
  · intro s h1 h2
    have hsu : s ≠ "u" := fun h => by subst h; exact h1 (.arr (.data "q")) (by simp [stale])
    have hsp : s ≠ "p" := fun h => by subst h; exact h1 (.arr (.data "u")) (by simp [stale])
    have hsq : s ≠ "q" := h2 0
    funext x
    simp [hsu, hsp, hsq]
  · simp [stale, Ex.eval, memOf, hI]
  · have hb0 : (rangeOf stale.np stale.h []).visits (fun _ => 0) := by rw [rangeOf_visits]; unfold Box; decide
    have hb1 : (rangeOf stale.np stale.h []).visits (shift (fun _ => 0) 0 1) := by rw [rangeOf_visits]; unfold Box; decide
    have hbm : ¬ (rangeOf stale.np stale.h []).visits (shift (fun _ => 0) 0 (-1)) := by rw [rangeOf_visits]; unfold Box; decide
    have hc1 : (rangeOf stale.np stale.h [0]).visits (shift (fun _ => 0) 0 1) := by rw [rangeOf_visits]; unfold Box; decide
    have hcm : (rangeOf stale.np stale.h [0]).visits (shift (fun _ => 0) 0 (-1)) := by rw [rangeOf_visits]; unfold Box; decide
    simp only [List.foldl_cons, List.foldl_nil]
    obtain ⟨a1, a2, a3⟩ := runKer_single I hp (rangeOf stale.np stale.h []) (.data "u") (.arr (.data "q")) (by decide) m
    set m1 := runKer I pts ⟨rangeOf stale.np stale.h [], [(.data "u", .arr (.data "q"))]⟩ m
    obtain ⟨b1, b2, b3⟩ := runKer_single I hp (rangeOf stale.np stale.h [0]) (.data "p") (.arr (.data "u")) (by decide) m1
    set m2 := runKer I pts ⟨rangeOf stale.np stale.h [0], [(.data "p", .arr (.data "u"))]⟩ m1
    obtain ⟨c1, c2, c3⟩ := runKer_single I hp (rangeOf stale.np stale.h []) (.work 0) (.cd 0 1 (.arr (.data "p"))) (by decide) m2
    set m3 := runKer I pts ⟨rangeOf stale.np stale.h [], [(.work 0, .cd 0 1 (.arr (.data "p")))]⟩ m2
    rw [(runKer_single I hp _ _ _ (by decide) m3).1 _ hb0]
    simp only [Ex.eval]
    rw [c1 _ hb0, c3 _ (by decide), b3 _ (by decide), a1 _ hb0]
    simp only [Ex.eval]
    rw [hI, b1 _ hc1, b1 _ hcm]
    simp only [Ex.eval]
    rw [a1 _ hb1, a2 _ hbm, hu]
    simp only [Ex.eval, hq]
    norm_num

end OpenSBLI.Sim
