import Verif.Props.C79_Weighted
import Verif.Props.C78_Examples

/-!
# C79: examples
-/
namespace OpenSBLI.Sim

/-! ## Central differences -/

private abbrev q : Ex 2 := .arr (.data "q")
private abbrev inv' {D : ℕ} (e : Ex D) : Ex D := .pow e (.num (-1))

/-- `q_t = - q_x - D11 q_eta + Re^-1 q_xx` on a grid stretched in direction 1. -/
def channel : Setup 2 1 where
  np := ![12, 9]
  order := 4
  sol := !["q"]
  rhs := ![.add (.add (.mul (.num (-1)) (.cd 0 1 q)) (.mul (.mul (.num (-1)) (.arr (.data "D11"))) (.cd 1 1 q))) (.mul (inv' (.const "Re")) (.cd 0 2 q))]
  rel := []
  w0 := 0
  known := ["q"]
  groups := [(0, [.cd 0 1 q]), (1, [.cd 1 1 q])]
  vcds := [.cd 0 2 q]
  keys := ["q", "D11"]

theorem channel_valid : channel.Valid where
  listed := {
    groupDirs := by decide
    groupDir := by decide
    groupNonempty := by decide
    flatNodup := by decide
    flatMem := fun c => by
      simp [channel, Setup.flat, Ex.convective, Ex.classified, Ex.terms, Ex.hasRe, Ex.sum, Ex.zeroFn, Ex.cds, q]
    vcdsNodup := by decide
    vcdsMem := fun c => by
      simp [channel, Ex.viscous, Ex.classified, Ex.terms, Ex.hasRe, Ex.sum, Ex.zeroFn, Ex.cds, q]
    keysNodup := by decide
    keysMem := fun s => by
      simp [channel, Setup.required, Setup.flat, Ex.convective, Ex.viscous, Ex.classified, Ex.terms, Ex.hasRe, Ex.sum, Ex.zeroFn, Ex.datas, Ex.arrs, q]
      tauto }
  solInj := by decide
  relSol := by decide
  relNodup := by decide
  relPlain := fun s e h => by simp [channel, Setup.relation] at h
  rhsPlain := fun i => by
    fin_cases i; refine ⟨?_, rfl, rfl⟩; simp [channel, Ex.plain, Ex.arrs, q]
  rhsSteady := by decide
  groups := by decide
  convFlat := by decide
  visc := fun c hc => by
    simp only [channel, List.mem_cons, List.not_mem_nil, or_false] at hc
    subst hc; exact .inl rfl
  viscDer := .inl (by decide)
  known := by decide
  halos := fun s hs e h => by simp [channel, Setup.relation] at h

theorem channel_spatial : ∃ ks, channel.spatial = .ok ks := by
  have h : SortDict.sortDictionary (((channel.keys.filter fun s => (channel.relation s).isNone) ++ channel.known).dedup) (channel.keys.filterMap fun s => (channel.relation s).map fun e => (s, e.datas)) =
      .ok [] := by decide +kernel
  unfold Setup.spatial Setup.relKernels Setup.relOrder
  rw [h]
  exact ⟨_, rfl⟩

/-- Central differences with spacings 1/10 and 1/7. -/
noncomputable def channelInterp : Interp 2 where
  const := fun c => if c = "dt" then 1/100 else 3
  table := fun t => if t = "rknew" then [2/3, 5/12, 3/5] else [1/4, 3/20, 3/5]
  stage := 0
  cd := fun d k f x => Central.discretise 4 k (![1/10, 1/7] d : ℝ) (fun y => f (Function.update x d y)) (x d)
  pow := fun a b => if b = -1 then a⁻¹ else 0
  fn := fun _ a => a

/-- 250 steps, a file every 50 steps. -/
noncomputable def channelInput : Alg.Input (Call 2) where
  temporalSchemes := 1
  items := [channel.item .rk channel_spatial.choose]
  stages := 3
  niter := 250
  monitorFrequency := none
  ios := [Alg.IO.new 0 true none 50]

theorem channel_program {pts : Ranges.Kernel 2 → List (P 2)} (hp : Enumerates pts) : ∃ prg, Program channel .rk channelInterp pts channelInput prg := by
  have hg : ∃ prg, Alg.generate channelInput = .ok prg := by
    simp [Alg.generate, channelInput, Setup.item, Alg.Acc.add, Alg.sortByOrder]
    exact ⟨_, rfl⟩
  obtain ⟨prg, hg⟩ := hg
  refine ⟨prg, channel_valid, hp, central_local (delta := ![1/10, 1/7]) fun d k f x => rfl, ⟨[], [], _, channel_spatial.choose_spec, rfl, by simp, by simp⟩, ?_, hg⟩
  intro o places k h
  simp [channelInput, Setup.item] at h

theorem channel_reads (s : String) (h : ∃ i, s ∈ (channel.rhs i).datas) : s = "q" ∨ s = "D11" := by
  obtain ⟨i, h⟩ := h
  fin_cases i
  simp [channel, Ex.datas, Ex.arrs, q] at h
  tauto

/-- Uniform flow stays, for all values of the metric term. -/
example (pts : Ranges.Kernel 2 → List (P 2)) (hp : Enumerates pts) (m : Mem 2) (c : Fin 1 → ℝ)
    (hc : ∀ i x, Grid channel.np x → atStart channelInterp pts channel.sol (exchange channel.np channel.h) channelInput m (.data (channel.sol i)) x = c i) :
    ∃ prg, Alg.generate channelInput = .ok prg ∧ StaysUniform channel channelInterp pts (exchange channel.np channel.h) prg m c := by
  obtain ⟨prg, hP⟩ := channel_program hp
  refine ⟨prg, hP.generated, C79_free_stream_central_rk hP (delta := ![1/10, 1/7]) (fun d k f x => rfl) ["D11"] ⟨fun s hs hr => ?_, fun t _ e he => ?_⟩ (by decide) rfl (by simp [channelInterp]) (by simp [channelInterp]) m (by decide) c hc⟩
  · rcases channel_reads s hr with rfl | rfl
    · exact .inr ⟨0, rfl⟩
    · simp at hs
  · simp [channel, Setup.relation] at he

/-- The integral, with weights `1 / D11`, is conserved if the metric term is that of a grid stretched in direction 1. -/
example (pts : Ranges.Kernel 2 → List (P 2)) (hp : Enumerates pts) (m : Mem 2) (metric : ℤ → ℝ) (h0 : ∀ j, metric j ≠ 0) (hper : ∀ j, metric (j + 9) = metric j)
    (hm : ∀ x, atStart channelInterp pts channel.sol (exchange channel.np channel.h) channelInput m (.data "D11") x = metric (x 1)) :
    ∃ prg, Alg.generate channelInput = .ok prg ∧ ConservesWeighted (fun x => (metric (x 1))⁻¹) channel channelInterp pts (exchange channel.np channel.h) channelInput prg m 0 := by
  obtain ⟨prg, hP⟩ := channel_program hp
  have hmul : ∀ (k j : ℤ), metric (j + 9 * k) = metric j := fun k => by
    induction k using Int.induction_on with
    | zero => simp
    | succ k ih => intro j; rw [show j + 9 * ((k : ℤ) + 1) = j + 9 * k + 9 by ring, hper, ih]
    | pred k ih => intro j; rw [← hper, show j + 9 * (-(k : ℤ) - 1) + 9 = j + 9 * -k by ring, ih]
  have hmod : ∀ j k : ℤ, j % 9 = k % 9 → metric j = metric k := fun j k h => by
    rw [← Int.emod_add_mul_ediv j 9, ← Int.emod_add_mul_ediv k 9, hmul, hmul, h]
  refine ⟨prg, hP.generated, C79_weighted_conservation_central_rk hP (delta := ![1/10, 1/7]) (fun d k f x => rfl) ["D11"] m ⟨?_, ?_, ?_, ?_⟩ (by decide) rfl (by simp [channelInterp]) (by simp [channelInterp]) _ 0 ?_⟩
  · intro s hs
    rw [List.mem_singleton] at hs
    subst hs
    exact ⟨by decide, by decide⟩
  · intro s hs y z _ _ hyz
    rw [List.mem_singleton] at hs
    subst hs
    rw [hm, hm]
    exact hmod _ _ (hyz 1)
  · intro s hr
    rcases channel_reads s hr with rfl | rfl
    · exact .inr (.inr ⟨0, rfl⟩)
    · exact .inl (by simp)
  · intro t e he
    simp [channel, Setup.relation] at he
  · refine ⟨⟨⟨rfl, by simp [Ex.plain, Ex.arrs], by simp [Ex.datas, Ex.arrs], ?_⟩, ⟨rfl, by simp [Ex.plain, Ex.arrs], by simp [Ex.datas, Ex.arrs], ?_⟩⟩, rfl, by simp [Ex.plain, Ex.arrs], by simp [Ex.datas, Ex.arrs], ?_⟩
    · refine ⟨by norm_num, rfl, fun x y _ _ h => ?_⟩
      simp only [Ex.eval, h 1 (by decide)]
    · refine ⟨by norm_num, rfl, fun x y _ _ h => ?_⟩
      simp only [Ex.eval, memOf, hm]
      field_simp [h0 (x 1), h0 (y 1)]
    · refine ⟨by norm_num, rfl, fun x y _ _ h => ?_⟩
      simp only [Ex.eval, h 1 (by decide)]

/-! ## Shock capturing -/

/-- `q_t = - D00 (q^2/2)_xi` on a stretched grid. -/
noncomputable def stretched : Shock 1 1 where
  np := ![20]
  order := 2
  sol := !["q"]
  rhs := ![.num 0]
  rel := []
  w0 := 0
  known := ["q"]
  groups := []
  vcds := []
  keys := ["q", "D00"]
  scheme := .weno .Z 3 (1/20) fun side => Weno.optimal side 3
  dirs := [0]
  coef := fun _ _ => .mul (.num (-1)) (.arr (.data "D00"))
  flux := fun _ _ => .mul (.mul (.arr (.data "q")) (.arr (.data "q"))) (inv' (.num 2))
  ev := fun _ _ => .arr (.data "q")
  rev := fun _ _ _ => .num 1
  lev := fun _ _ _ => .num 1
  avg := simpleAvg
  avgReads := fun t => [t]
  spacing := fun _ => "Delta0block0"

theorem stretched_symbols (s : String) : s ∈ stretched.symbols 0 ↔ s = "q" := by
  simp [Shock.symbols, stretched, Ex.datas, Ex.arrs]

theorem stretched_valid : stretched.Valid where
  relations := {
    solInj := by decide
    relSol := by decide
    relNodup := by decide
    relPlain := fun s e h => by simp [stretched, Setup.relation] at h
    known := by decide
    keysNodup := by decide
    keysMem := fun s => by
      have hd : ∀ d ∈ stretched.dirs, d = 0 := fun d _ => Subsingleton.elim _ _
      have h1 : (∃ d ∈ stretched.dirs, s ∈ stretched.symbols d) ↔ s = "q" := by
        rw [← stretched_symbols]
        exact ⟨fun ⟨d, h, hs⟩ => hd d h ▸ hs, fun h => ⟨0, by simp [stretched], h⟩⟩
      unfold Shock.required
      rw [h1]
      simp [stretched, Setup.required, Setup.flat, Ex.convective, Ex.viscous, Ex.classified, Ex.sum, Ex.zeroFn, Ex.datas, Ex.arrs]
      try tauto }
  dirs := by simp [stretched]
  dirsNodup := by simp [stretched]
  scheme := ⟨by norm_num, fun _ => by norm_num, by norm_num, fun side => Weno.optimal_satisfies side 3⟩
  groups := rfl
  conv := by decide
  vcdsNodup := by decide
  vcdsMem := fun c => by
    simp [stretched, Ex.viscous, Ex.classified, Ex.sum, Ex.zeroFn, Ex.cds]
  visc := fun c hc => by simp [stretched] at hc
  rhsPlain := fun i => by fin_cases i; refine ⟨?_, rfl⟩; simp [stretched, Ex.plain, Ex.arrs]
  rhsSteady := by decide
  restShape := by decide
  coef := fun d _ i => ⟨by simp [stretched, Ex.plain, Ex.arrs], rfl, rfl⟩
  flux := fun d _ i => ⟨by simp [stretched, Ex.plain, Ex.arrs], rfl⟩
  ev := fun d _ i => ⟨by simp [stretched, Ex.plain, Ex.arrs], rfl⟩
  lev := fun d _ i j => ⟨by simp [stretched, Ex.plain, Ex.arrs], rfl⟩
  rev := fun d _ i j => ⟨by simp [stretched, Ex.plain, Ex.arrs], rfl⟩
  avgLocal := C78_simple_average_reads
  avgRead := fun d _ i j t ht => by simp [stretched, Ex.datas, Ex.arrs] at ht
  halos := fun s hs e h => by simp [stretched, Setup.relation] at h
  viscZero := fun h => absurd rfl h

theorem stretched_spatial : ∃ cs, stretched.spatial = .ok cs := by
  have h : stretched.relOrder = .ok [] := by decide +kernel
  unfold Shock.spatial
  rw [if_neg stretched_valid.dirs, h]
  exact ⟨_, rfl⟩

/-- 250 steps, a file every 50 steps. -/
noncomputable def stretchedInput (I : Interp 1) : Alg.Input (Call 1) where
  temporalSchemes := 1
  items := [.simulation ((stretched.startKernels .rk).map .comp) [] ((stretched.advanceKernels .rk).map .comp) [.bc] stretched_spatial.choose]
  stages := 3
  niter := 250
  monitorFrequency := none
  ios := [Alg.IO.new 0 true none 50]

theorem stretched_program {I : Interp 1} (hI : IsCentral stretched.toSetup I fun _ => 1/20) {pts : Ranges.Kernel 1 → List (P 1)} (hp : Enumerates pts) : ∃ prg, ShockProgram stretched .rk I pts (stretchedInput I) prg := by
  have hg : ∃ prg, Alg.generate (stretchedInput I) = .ok prg := by
    simp [Alg.generate, stretchedInput, Alg.Acc.add, Alg.sortByOrder]
    exact ⟨_, rfl⟩
  obtain ⟨prg, hg⟩ := hg
  refine ⟨prg, stretched_valid, hp, central_local hI, _, stretched_spatial.choose_spec, ⟨[], [], rfl, by simp, by simp⟩, ?_, hg⟩
  intro o places k h
  simp [stretchedInput] at h

theorem stretched_reads (s : String) (h : stretched.reads s) : s = "q" := by
  rcases h with ⟨d, _, h⟩ | ⟨i, h⟩
  · obtain rfl : d = 0 := Subsingleton.elim _ _
    exact (stretched_symbols s).1 h
  · fin_cases i; simp [stretched, Ex.datas, Ex.arrs] at h

/-- The integral, with weights `1 / D00`, is conserved; uniform flow stays, for all values of the metric term. -/
example {I : Interp 1} (hI : IsCentral stretched.toSetup I fun _ => 1/20) (hnew : I.table "rknew" = [2/3, 5/12, 3/5]) (hold : I.table "rkold" = [1/4, 3/20, 3/5])
    (pts : Ranges.Kernel 1 → List (P 1)) (hp : Enumerates pts) (m : Mem 1) (metric : P 1 → ℝ)
    (hm : atStart I pts stretched.sol stretched.exchange (stretchedInput I) m (.data "D00") = metric) (h0 : ∀ x, metric x ≠ 0)
    (hper : ∀ y z, Allocated stretched.np stretched.reach y → Allocated stretched.np stretched.reach z → Same stretched.np y z → metric y = metric z) :
    ∃ prg, Alg.generate (stretchedInput I) = .ok prg ∧ ConservesWeighted (fun x => (metric x)⁻¹) stretched.toSetup I pts stretched.exchange (stretchedInput I) prg m 0 := by
  obtain ⟨prg, hP⟩ := stretched_program hI hp
  obtain ⟨_, _, hA⟩ := hP.items
  refine ⟨prg, hA.generated, C79_weighted_conservation_shock_rk hP hI ["D00"] m ⟨?_, ?_, ?_, ?_⟩ (by simp [stretched]) (by decide) rfl hnew hold _ 0 ⟨?_, ?_, rfl⟩⟩
  · intro s hs
    rw [List.mem_singleton] at hs
    subst hs
    exact ⟨by decide, by decide⟩
  · intro s hs y z hy hz hyz
    rw [List.mem_singleton] at hs
    subst hs
    rw [hm]
    exact hper y z hy hz hyz
  · intro s hr
    rw [stretched_reads s hr]
    exact .inr (.inr ⟨0, rfl⟩)
  · intro t e he
    simp [stretched, Setup.relation] at he
  · intro d _ s hs
    simpa [stretched, Ex.datas, Ex.arrs] using hs
  · intro d _ x y _ _ _
    have hcoef : stretched.coef d 0 = .mul (.num (-1)) (.arr (.data "D00")) := rfl
    simp only [hcoef, Ex.eval, memOf, hm]
    field_simp [h0 x, h0 y]

example {I : Interp 1} (hI : IsCentral stretched.toSetup I fun _ => 1/20) (hnew : I.table "rknew" = [2/3, 5/12, 3/5]) (hold : I.table "rkold" = [1/4, 3/20, 3/5])
    (pts : Ranges.Kernel 1 → List (P 1)) (hp : Enumerates pts) (m : Mem 1) (c : Fin 1 → ℝ)
    (hc : ∀ i x, Grid stretched.np x → atStart I pts stretched.sol stretched.exchange (stretchedInput I) m (.data (stretched.sol i)) x = c i) :
    ∃ prg, Alg.generate (stretchedInput I) = .ok prg ∧ StaysUniform stretched.toSetup I pts stretched.exchange prg m c := by
  obtain ⟨prg, hP⟩ := stretched_program hI hp
  obtain ⟨_, _, hA⟩ := hP.items
  refine ⟨prg, hA.generated, C79_free_stream_shock_rk hP hI ["D00"] ⟨fun s _ hr => ?_, fun t _ e he => ?_⟩ (fun d _ s hs => ?_) (by decide) (by simp [stretched]) (by decide) rfl hnew hold m (by decide) c hc⟩
  · rw [stretched_reads s hr]
    exact .inr ⟨0, rfl⟩
  · simp [stretched, Setup.relation] at he
  · rw [stretched_reads s (.inl ⟨d, by simp [stretched, Subsingleton.elim d 0], hs⟩)]
    decide

end OpenSBLI.Sim
