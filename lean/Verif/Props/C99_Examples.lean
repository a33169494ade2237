import Verif.Props.C99_Accuracy
import Verif.Props.C93_Corner

/-!
# C99: a mapped grid in two dimensions meeting the hypotheses, and one in three dimensions on which the sums are not conserved
-/
namespace OpenSBLI.Sim
open OpenSBLI.Metric (fdValue Describes)
open scoped ContDiff

/-! ## Differences of second order -/

/-- Central differences of second order with spacing one. -/
noncomputable def unitInterp (D : ℕ) : Interp D where
  const := fun _ => 1
  table := fun t => if t = "rknew" then [2/3, 5/12, 3/5] else if t = "rkold" then [1/4, 3/20, 3/5] else if t = "rkA" then [0] else [1]
  stage := 0
  cd := fun d k f x => Central.discretise 2 k (1 : ℝ) (fun y => f (Function.update x d y)) (x d)
  pow := fun _ _ => 0
  fn := fun _ a => a

theorem unit_cd {D : ℕ} (d : Fin D) (f : P D → ℝ) (x : P D) : (unitInterp D).cd d 1 f x = (f (Function.update x d (x d + 1)) - f (Function.update x d (x d - 1))) / 2 := by
  obtain ⟨h1, h0, hm⟩ := second_order_weights
  have hp : Central.points 2 = {-1, 0, 1} := by decide
  simp only [unitInterp, Central.discretise, hp]
  rw [Finset.sum_insert (by decide), Finset.sum_insert (by decide), Finset.sum_singleton, h1, h0, hm]
  simp only [← sub_eq_add_neg]
  ring

/-- A wave with period four: 0, 1, 0, -1. -/
noncomputable def wave4 (j : ℤ) : ℝ := if j % 4 = 1 then 1 else if j % 4 = 3 then -1 else 0

theorem wave4_period (j : ℤ) : wave4 (j + 4) = wave4 j := by simp [wave4]

theorem wave4_bound (j : ℤ) : |wave4 j| ≤ 1 := by
  unfold wave4
  split_ifs <;> simp

/-- Its difference. -/
noncomputable def wave4' (j : ℤ) : ℝ := (wave4 (j + 1) - wave4 (j - 1)) / 2

theorem wave4'_bound (j : ℤ) : |wave4' j| ≤ 1 := by
  have h1 := abs_le.1 (wave4_bound (j + 1))
  have h2 := abs_le.1 (wave4_bound (j - 1))
  unfold wave4'
  rw [abs_le]
  constructor <;> linarith [h1.1, h1.2, h2.1, h2.2]

/-! ## Two dimensions -/

/-- `phi_t = - phi_x` on a mapped grid of four times four points. -/
def advected2 : Setup 2 1 where
  np := ![4, 4]
  order := 2
  sol := ![ "phi" ]
  rhs := ![.mul (.num (-1)) (.add (.mul (.arr (.data "D00")) (.cd 0 1 (.arr (.data "phi")))) (.mul (.arr (.data "D10")) (.cd 1 1 (.arr (.data "phi")))))]
  rel := []
  w0 := 0
  known := ["phi"]
  groups := [(0, [.cd 0 1 (.arr (.data "phi"))]), (1, [.cd 1 1 (.arr (.data "phi"))])]
  vcds := []
  keys := ["D00", "D10", "phi"]

theorem advected2_valid : advected2.Valid where
  listed := {
    groupDirs := by decide
    groupDir := by decide
    groupNonempty := by decide
    flatNodup := by decide
    flatMem := fun c => by
      simp [advected2, Setup.flat, Ex.convective, Ex.classified, Ex.hasRe, Ex.sum, Ex.zeroFn, Ex.cds]
    vcdsNodup := by decide
    vcdsMem := fun c => by
      simp [advected2, Ex.viscous, Ex.classified, Ex.hasRe, Ex.sum, Ex.zeroFn, Ex.cds]
    keysNodup := by decide
    keysMem := fun s => by
      simp [advected2, Setup.required, Setup.flat, Ex.convective, Ex.viscous, Ex.classified, Ex.hasRe, Ex.sum, Ex.zeroFn, Ex.datas, Ex.arrs]
      tauto }
  solInj := by decide
  relSol := by decide
  relNodup := by decide
  relPlain := fun s e h => by simp [Setup.relation, advected2] at h
  rhsPlain := fun i => by
    fin_cases i; refine ⟨?_, rfl, rfl⟩; simp [advected2, Ex.plain, Ex.arrs]
  rhsSteady := by decide
  groups := by decide
  convFlat := by decide
  visc := fun c hc => by simp [advected2] at hc
  viscDer := .inr (by decide)
  known := by decide
  halos := fun s hs e h => by simp [Setup.relation, advected2] at h

theorem advected2_spatial : ∃ ks, advected2.spatial = .ok ks := by
  have h : SortDict.sortDictionary (((advected2.keys.filter fun s => (advected2.relation s).isNone) ++ advected2.known).dedup) (advected2.keys.filterMap fun s => (advected2.relation s).map fun e => (s, e.datas)) =
      .ok [] := by decide +kernel
  unfold Setup.spatial Setup.relKernels Setup.relOrder
  rw [h]
  exact ⟨_, rfl⟩

/-- Both directions are curvilinear. -/
def metrics2 : Metrics 2 where
  cur := fun _ => true
  str := fun _ => false
  symbol := "x"
  ders := [(0, 0), (1, 0), (0, 1), (1, 1)]
  w0 := 0

theorem metrics2_listed : metrics2.Listed where
  nodup := by decide
  mem := fun p => by revert p; decide

/-- 250 steps, a file every 50 steps; the metric terms are the only kernels before the time loop. -/
noncomputable def mapped2Input : Alg.Input (Call 2) where
  temporalSchemes := 1
  items := [metrics2.item advected2.np advected2.h, advected2.item .rk advected2_spatial.choose]
  stages := 3
  niter := 250
  monitorFrequency := none
  ios := [Alg.IO.new 0 true none 50]

theorem mapped2_others : Alg.sortByOrder (Alg.others mapped2Input.items) = [] ++ [(1, [.before], metrics2.kernels advected2.np advected2.h)] := by
  simp [mapped2Input, Alg.others, Metrics.item, Setup.item, Alg.sortByOrder]

theorem mapped2_onMapping : OnMapping advected2 metrics2 (fun _ => .mul (.num (-1)) (.cd 0 1 (.arr (.data "phi")))) mapped2Input where
  dim := by decide
  listed := metrics2_listed
  rhs := by decide +kernel
  last := ⟨[], mapped2_others⟩
  fluxes := fun i j a ha s hs => by
    simp only [Ex.cds, List.nil_append, List.mem_singleton, Ex.cd.injEq] at ha
    obtain ⟨rfl, _, rfl⟩ := ha
    simp only [Ex.datas, Ex.arrs, List.filterMap_cons, List.filterMap_nil, List.mem_singleton] at hs
    exact .inr ⟨0, hs⟩
  relations := fun t e h => by simp [Setup.relation, advected2] at h
  metricRel := by decide +kernel
  metricSol := by decide +kernel
  coords := by decide +kernel

theorem mapped2_program {pts : Ranges.Kernel 2 → List (P 2)} (hp : Enumerates pts) : ∃ prg, Program advected2 .rk (unitInterp 2) pts mapped2Input prg := by
  have hg : ∃ prg, Alg.generate mapped2Input = .ok prg := by
    simp [Alg.generate, mapped2Input, Setup.item, Metrics.item, Alg.Acc.add, Alg.sortByOrder, bind, Except.bind, pure, Except.pure, Alg.Placed.addKernels]
  obtain ⟨prg, hg⟩ := hg
  refine ⟨prg, advected2_valid, hp, central_local (delta := fun _ => 1) fun d k f x => rfl, ⟨[metrics2.item advected2.np advected2.h], [], _, advected2_spatial.choose_spec, rfl, by simp [Metrics.item, Alg.Item.isSimulation], by simp⟩, ?_, hg⟩
  intro o places k h
  simp [mapped2Input, Setup.item, Metrics.item] at h
  simp [h.2.1]

/-- A wavy grid. -/
noncomputable def wavy2 : Fin 2 → P 2 → ℝ := ![fun x => x 0 + wave4 (x 1) / 4, fun x => x 1 + wave4 (x 0) / 4]

theorem wavy2_jacobi (x : P 2) : jacobi (unitInterp 2) wavy2 x = !![1, wave4' (x 1) / 4; wave4' (x 0) / 4, 1] := by
  ext i j
  fin_cases i <;> fin_cases j <;> simp [jacobi, unit_cd, wavy2, wave4'] <;> ring

theorem wavy2_det (x : P 2) : (jacobi (unitInterp 2) wavy2 x).det ≠ 0 := by
  rw [wavy2_jacobi, Matrix.det_fin_two_of]
  have h : |wave4' (x 1) * wave4' (x 0)| ≤ 1 := by
    rw [abs_mul]
    exact mul_le_one₀ (wave4'_bound _) (abs_nonneg _) (wave4'_bound _)
  have := (abs_le.1 h).2
  intro h0
  linarith

theorem wavy2_wraps : Wraps advected2.np wavy2 := by
  intro i d
  fin_cases i <;> fin_cases d
  · exact ⟨4, fun x => by simp [advected2, wavy2, shift]; ring⟩
  · exact ⟨0, fun x => by simp [advected2, wavy2, shift, wave4_period]⟩
  · exact ⟨0, fun x => by simp [advected2, wavy2, shift, wave4_period]⟩
  · exact ⟨4, fun x => by simp [advected2, wavy2, shift]; ring⟩

/-- From all arrays with the coordinates of the wavy grid: what `detJ` and the metric terms are, and that the weighted sum is conserved in the five files and at the end. -/
example (pts : Ranges.Kernel 2 → List (P 2)) (hp : Enumerates pts) (m : Mem 2) (hm : ∀ i : Fin 2, m (.data (coordName "x" i)) = wavy2 i) : ∃ prg, Alg.generate mapped2Input = .ok prg ∧
    ConservesWeighted (fun x => 1 - wave4' (x 1) * wave4' (x 0) / 16) advected2 (unitInterp 2) pts (exchange advected2.np advected2.h) mapped2Input prg m 0 := by
  obtain ⟨prg, hP⟩ := mapped2_program hp
  refine ⟨prg, hP.generated, ?_⟩
  have hX : HoldsCoordinates metrics2 advected2.np advected2.h wavy2 (atStart (unitInterp 2) pts advected2.sol (exchange advected2.np advected2.h) mapped2Input m) := by
    intro i j _ x _
    unfold atStart
    rw [mapped2_others]
    have := (metrics_run (I := unitInterp 2) (np := advected2.np) (h := advected2.h) (by decide) metrics2_listed hp advected2.sol (exchange advected2.np advected2.h) m).2.2
      (coordName "x" i) (mapped2_onMapping.coords i).1 (mapped2_onMapping.coords i).2
    simp only [List.nil_append, Alg.placedAt, List.flatMap_cons, List.flatMap_nil, if_true, List.append_nil]
    exact (congrFun this x).trans (congrFun (hm i) x)
  have hw : (fun x => 1 - wave4' (x 1) * wave4' (x 0) / 16) = fun x => (jacobi (unitInterp 2) wavy2 x).det := by
    funext x
    rw [wavy2_jacobi, Matrix.det_fin_two_of]
    ring
  rw [hw]
  exact C99_two_dimensions hP mapped2_onMapping (delta := fun _ => 1) (fun d k f x => rfl) (by decide) rfl (by simp [unitInterp]) (by simp [unitInterp]) m hX wavy2_wraps
    (fun x _ => ⟨fun i j _ h => by simp [metrics2] at h, fun i h => by simp [metrics2] at h⟩) (fun x _ => wavy2_det x) 0 (by decide)

theorem mapped2_keeps {pts : Ranges.Kernel 2 → List (P 2)} (hp : Enumerates pts) (m : Mem 2) (s : String) (h1 : s ≠ "detJ") (h2 : ∀ k j : Fin 2, s ≠ metricName k j) :
    atStart (unitInterp 2) pts advected2.sol (exchange advected2.np advected2.h) mapped2Input m (.data s) = m (.data s) := by
  unfold atStart
  rw [mapped2_others]
  simp only [List.nil_append, Alg.placedAt, List.flatMap_cons, List.flatMap_nil, if_true, List.append_nil]
  exact (metrics_run (I := unitInterp 2) (np := advected2.np) (h := advected2.h) (by decide) metrics2_listed hp advected2.sol (exchange advected2.np advected2.h) m).2.2 s h1 h2

/-- A uniform field stays uniform, whatever the coordinates. -/
example (pts : Ranges.Kernel 2 → List (P 2)) (hp : Enumerates pts) (m : Mem 2) (hm : ∀ x, m (.data "phi") x = 7) : ∃ prg, Alg.generate mapped2Input = .ok prg ∧
    ∀ x, Grid advected2.np x → Alg.effect (exec (unitInterp 2) pts advected2.sol (exchange advected2.np advected2.h)) (Alg.runProgram prg) m (.data "phi") x = 7 := by
  obtain ⟨prg, hP⟩ := mapped2_program hp
  refine ⟨prg, hP.generated, fun x hx => ?_⟩
  exact (C99_uniform_flow hP mapped2_onMapping (delta := fun _ => 1) (fun d k f x => rfl) (by decide) rfl (by simp [unitInterp]) (by simp [unitInterp]) m (by decide) (fun _ => 7) fun i y _ => by
    fin_cases i
    exact (congrFun (mapped2_keeps hp m "phi" (by decide) (by decide +kernel)) y).trans (hm y)).1 0 x hx

/-- A smooth mapping. -/
noncomputable def bent : (Fin 2 → ℝ) → Fin 2 → ℝ := fun ξ => ![ξ 0 + Real.sin (ξ 1), ξ 1]

theorem bent_smooth : ContDiff ℝ ∞ bent := by
  refine contDiff_pi.2 fun i => ?_
  fin_cases i
  · exact (contDiff_apply ℝ ℝ 0).add (Real.contDiff_sin.comp (contDiff_apply ℝ ℝ 1))
  · exact contDiff_apply ℝ ℝ 1

theorem bent_jacobi (x : P 2) : ∃ s : ℝ, jacobi (unitInterp 2) (fun i x => bent (gridPoint (fun _ => 1) x) i) x = !![1, s; 0, 1] := by
  refine ⟨(unitInterp 2).cd 1 1 (fun x => bent (gridPoint (fun _ => 1) x) 0) x, ?_⟩
  ext i j
  fin_cases i <;> fin_cases j <;> simp [jacobi, unit_cd, bent, gridPoint]

theorem bent_lines (k : Fin 2) (ξ : Fin 2 → ℝ) (i : Fin 2) (z : ℝ) : |iteratedDeriv 3 (fun t => bent (Function.update ξ k t) i) z| ≤ 1 := by
  have h0 : ∀ c : ℝ, iteratedDeriv 3 (fun t => t + c) = fun _ => 0 := fun c => by
    funext z
    simp [iteratedDeriv_succ']
  have hc : ∀ c : ℝ, iteratedDeriv 3 (fun _ : ℝ => c) = fun _ => 0 := fun c => by
    funext z
    simp [iteratedDeriv_succ']
  have hs : ∀ c : ℝ, iteratedDeriv 3 (fun t => c + Real.sin t) = fun z => -Real.cos z := fun c => by
    funext z
    simp [iteratedDeriv_succ', iteratedDeriv_zero]
  have hi : iteratedDeriv 3 (fun t : ℝ => t) = fun _ => 0 := by simpa using h0 0
  fin_cases i <;> fin_cases k <;> simp [bent, h0, hc, hs, hi, Real.abs_cos_le_one]

/-- The hypotheses of `C99_accuracy` for it and for the coordinate `x0` as the field. -/
example (pts : Ranges.Kernel 2 → List (P 2)) (hp : Enumerates pts) (m : Mem 2) (hm : ∀ (i : Fin 2) x, m (.data (coordName "x" i)) x = bent (gridPoint (fun _ => 1) x) i) (hphi : m (.data "phi") = m (.data "x0")) :
    ∃ C : ℝ, ∀ x, Grid advected2.np x → ∀ K, (∀ k, |metricValue metrics2.cur metrics2.str (atStart (unitInterp 2) pts advected2.sol (exchange advected2.np advected2.h) mapped2Input m) k 0 x| ≤ K) →
      |(transformed metrics2.cur metrics2.str 0 (.arr (.data "phi"))).eval (unitInterp 2) (atStart (unitInterp 2) pts advected2.sol (exchange advected2.np advected2.h) mapped2Input m) x - 1| ≤ C * (K * (1 + 2 * 1) * 1) * 1 ^ (2 * 1) := by
  obtain ⟨C, hC⟩ := C99_accuracy (D := 2) (n := 1) 1 le_rfl
  refine ⟨C, fun x hx K hK => ?_⟩
  obtain ⟨s, hs⟩ := bent_jacobi x
  have hd : ∀ p i, fderiv ℝ (fun p : Fin 2 → ℝ => p 0) p (Pi.single i 1) = if i = 0 then 1 else 0 := fun p i => by
    rw [show (fun p : Fin 2 → ℝ => p 0) = ContinuousLinearMap.proj (R := ℝ) (φ := fun _ : Fin 2 => ℝ) 0 from rfl, ContinuousLinearMap.fderiv]
    simp [Pi.single_apply, eq_comm]
  have key := hC mapped2_onMapping hp rfl (I := unitInterp 2) (delta := fun _ => 1) (B := exchange advected2.np advected2.h) (m := m) (fun d k f x => rfl) 1 (fun _ => ⟨one_pos, le_rfl⟩) bent (fun p => p 0) bent_smooth
    (contDiff_apply ℝ ℝ 0) (fun i j _ y _ => by rw [mapped2_keeps hp m _ (mapped2_onMapping.coords i).1 (mapped2_onMapping.coords i).2]; exact hm i y) 1 (fun k ξ z => bent_lines k ξ 0 z) (fun i k ξ z => bent_lines k ξ i z) x hx
    ⟨fun i j _ h => by simp [metrics2] at h, fun i h => by simp [metrics2] at h⟩ (by rw [hs, Matrix.det_fin_two_of]; norm_num) (.arr (.data "phi"))
    (fun k y _ => by
      simp only [Ex.eval]
      rw [mapped2_keeps hp m "phi" (by decide) (by decide +kernel), hphi]
      exact hm 0 y) 0 K 1 hK (fun i => by rw [hd]; split_ifs <;> simp)
  rw [hd] at key
  simpa using key

/-! ## Three dimensions -/

/-- `phi_t = - phi_x` on a mapped grid of three times four times four points. -/
def advected3 : Setup 3 1 where
  np := ![3, 4, 4]
  order := 2
  sol := ![ "phi" ]
  rhs := ![.mul (.num (-1)) (.add (.add (.mul (.arr (.data "D00")) (.cd 0 1 (.arr (.data "phi")))) (.mul (.arr (.data "D10")) (.cd 1 1 (.arr (.data "phi"))))) (.mul (.arr (.data "D20")) (.cd 2 1 (.arr (.data "phi")))))]
  rel := []
  w0 := 0
  known := ["phi"]
  groups := [(0, [.cd 0 1 (.arr (.data "phi"))]), (1, [.cd 1 1 (.arr (.data "phi"))]), (2, [.cd 2 1 (.arr (.data "phi"))])]
  vcds := []
  keys := ["D00", "D10", "D20", "phi"]

theorem advected3_valid : advected3.Valid where
  listed := {
    groupDirs := by decide
    groupDir := by decide
    groupNonempty := by decide
    flatNodup := by decide
    flatMem := fun c => by
      simp [advected3, Setup.flat, Ex.convective, Ex.classified, Ex.hasRe, Ex.sum, Ex.zeroFn, Ex.cds]
    vcdsNodup := by decide
    vcdsMem := fun c => by
      simp [advected3, Ex.viscous, Ex.classified, Ex.hasRe, Ex.sum, Ex.zeroFn, Ex.cds]
    keysNodup := by decide
    keysMem := fun s => by
      simp [advected3, Setup.required, Setup.flat, Ex.convective, Ex.viscous, Ex.classified, Ex.hasRe, Ex.sum, Ex.zeroFn, Ex.datas, Ex.arrs]
      tauto }
  solInj := by decide
  relSol := by decide
  relNodup := by decide
  relPlain := fun s e h => by simp [Setup.relation, advected3] at h
  rhsPlain := fun i => by
    fin_cases i; refine ⟨?_, rfl, rfl⟩; simp [advected3, Ex.plain, Ex.arrs]
  rhsSteady := by decide
  groups := by decide
  convFlat := by decide
  visc := fun c hc => by simp [advected3] at hc
  viscDer := .inr (by decide)
  known := by decide
  halos := fun s hs e h => by simp [Setup.relation, advected3] at h

theorem advected3_spatial : ∃ ks, advected3.spatial = .ok ks := by
  have h : SortDict.sortDictionary (((advected3.keys.filter fun s => (advected3.relation s).isNone) ++ advected3.known).dedup) (advected3.keys.filterMap fun s => (advected3.relation s).map fun e => (s, e.datas)) =
      .ok [] := by decide +kernel
  unfold Setup.spatial Setup.relKernels Setup.relOrder
  rw [h]
  exact ⟨_, rfl⟩

/-- All directions are curvilinear. -/
def metrics3 : Metrics 3 where
  cur := fun _ => true
  str := fun _ => false
  symbol := "x"
  ders := [(0, 0), (1, 0), (2, 0), (0, 1), (1, 1), (2, 1), (0, 2), (1, 2), (2, 2)]
  w0 := 0

theorem metrics3_listed : metrics3.Listed where
  nodup := by decide
  mem := fun p => by revert p; decide

/-- One step of one stage. -/
noncomputable def mapped3Input : Alg.Input (Call 3) where
  temporalSchemes := 1
  items := [metrics3.item advected3.np advected3.h, advected3.item .lowStorage advected3_spatial.choose]
  stages := 1
  niter := 1
  monitorFrequency := none
  ios := []

theorem mapped3_others : Alg.sortByOrder (Alg.others mapped3Input.items) = [] ++ [(1, [.before], metrics3.kernels advected3.np advected3.h)] := by
  simp [mapped3Input, Alg.others, Metrics.item, Setup.item, Alg.sortByOrder]

theorem mapped3_onMapping : OnMapping advected3 metrics3 (fun _ => .mul (.num (-1)) (.cd 0 1 (.arr (.data "phi")))) mapped3Input where
  dim := by decide
  listed := metrics3_listed
  rhs := by decide +kernel
  last := ⟨[], mapped3_others⟩
  fluxes := fun i j a ha s hs => by
    simp only [Ex.cds, List.nil_append, List.mem_singleton, Ex.cd.injEq] at ha
    obtain ⟨rfl, _, rfl⟩ := ha
    simp only [Ex.datas, Ex.arrs, List.filterMap_cons, List.filterMap_nil, List.mem_singleton] at hs
    exact .inr ⟨0, hs⟩
  relations := fun t e h => by simp [Setup.relation, advected3] at h
  metricRel := by decide +kernel
  metricSol := by decide +kernel
  coords := by decide +kernel

theorem mapped3_program {pts : Ranges.Kernel 3 → List (P 3)} (hp : Enumerates pts) : ∃ prg, Program advected3 .lowStorage (unitInterp 3) pts mapped3Input prg := by
  have hg : ∃ prg, Alg.generate mapped3Input = .ok prg := by
    simp [Alg.generate, mapped3Input, Setup.item, Metrics.item, Alg.Acc.add, Alg.sortByOrder, bind, Except.bind, pure, Except.pure, Alg.Placed.addKernels]
  obtain ⟨prg, hg⟩ := hg
  refine ⟨prg, advected3_valid, hp, central_local (delta := fun _ => 1) fun d k f x => rfl, ⟨[metrics3.item advected3.np advected3.h], [], _, advected3_spatial.choose_spec, rfl, by simp [Metrics.item, Alg.Item.isSimulation], by simp⟩, ?_, hg⟩
  intro o places k h
  simp [mapped3Input, Setup.item, Metrics.item] at h
  simp [h.2.1]

/-- A pulse with period three. -/
noncomputable def pulse3 (i : ℤ) : ℝ := if i % 3 = 1 then 1 / 2 else 0

noncomputable def pulse3' (i : ℤ) : ℝ := (pulse3 (i + 1) - pulse3 (i - 1)) / 2

theorem pulse3_period (i : ℤ) : pulse3 (i + 3) = pulse3 i := by simp [pulse3]

/-- A wavy grid. -/
noncomputable def wavy3 : Fin 3 → P 3 → ℝ := ![fun x => x 0, fun x => x 1 + pulse3 (x 0) * wave4 (x 2), fun x => x 2 + pulse3 (x 0) * wave4 (x 1)]

theorem wavy3_jacobi (x : P 3) : jacobi (unitInterp 3) wavy3 x =
    !![1, 0, 0; pulse3' (x 0) * wave4 (x 2), 1, pulse3 (x 0) * wave4' (x 2); pulse3' (x 0) * wave4 (x 1), pulse3 (x 0) * wave4' (x 1), 1] := by
  ext i j
  fin_cases i <;> fin_cases j <;> simp [jacobi, unit_cd, wavy3, wave4', pulse3'] <;> ring

theorem wavy3_det (x : P 3) : (jacobi (unitInterp 3) wavy3 x).det = 1 - pulse3 (x 0) ^ 2 * (wave4' (x 1) * wave4' (x 2)) := by
  rw [wavy3_jacobi, Matrix.det_fin_three]
  simp
  ring

theorem wavy3_positive (x : P 3) : 3 / 4 ≤ (jacobi (unitInterp 3) wavy3 x).det := by
  rw [wavy3_det]
  have h : |wave4' (x 1) * wave4' (x 2)| ≤ 1 := by
    rw [abs_mul]
    exact mul_le_one₀ (wave4'_bound _) (abs_nonneg _) (wave4'_bound _)
  have := (abs_le.1 h).2
  unfold pulse3
  split_ifs <;> nlinarith

theorem wavy3_wraps : Wraps advected3.np wavy3 := by
  intro i d
  fin_cases i <;> fin_cases d
  · exact ⟨3, fun x => by simp [advected3, wavy3, shift]⟩
  · exact ⟨0, fun x => by simp [advected3, wavy3, shift]⟩
  · exact ⟨0, fun x => by simp [advected3, wavy3, shift]⟩
  · exact ⟨0, fun x => by simp [advected3, wavy3, shift, pulse3_period]⟩
  · exact ⟨4, fun x => by simp [advected3, wavy3, shift]; ring⟩
  · exact ⟨0, fun x => by simp [advected3, wavy3, shift, wave4_period]⟩
  · exact ⟨0, fun x => by simp [advected3, wavy3, shift, pulse3_period]⟩
  · exact ⟨0, fun x => by simp [advected3, wavy3, shift, wave4_period]⟩
  · exact ⟨4, fun x => by simp [advected3, wavy3, shift]; ring⟩

/-- The metric identities fail. -/
theorem wavy3_defect : ∑ k, (unitInterp 3).cd k 1 (fun y => (jacobi (unitInterp 3) wavy3 y).adjugate k 0) 0 = -(1 / 8) := by
  have ha : ∀ y, (jacobi (unitInterp 3) wavy3 y).adjugate 0 0 = 1 - pulse3 (y 0) ^ 2 * (wave4' (y 1) * wave4' (y 2)) ∧
      (jacobi (unitInterp 3) wavy3 y).adjugate 1 0 = -(pulse3' (y 0) * wave4 (y 2)) + pulse3 (y 0) * wave4' (y 2) * (pulse3' (y 0) * wave4 (y 1)) ∧
      (jacobi (unitInterp 3) wavy3 y).adjugate 2 0 = pulse3' (y 0) * wave4 (y 2) * (pulse3 (y 0) * wave4' (y 1)) - pulse3' (y 0) * wave4 (y 1) := by
    intro y
    rw [wavy3_jacobi, Matrix.adjugate_fin_three_of]
    refine ⟨?_, ?_, ?_⟩
    all_goals simp
    all_goals ring
  rw [Fin.sum_univ_three]
  simp only [unit_cd, ha]
  simp [wave4', wave4, pulse3', pulse3]
  norm_num

/-- C99: in three dimensions the weighted sums are not conserved on all mapped grids: a periodic box with all cells positively oriented, a program meeting all other hypotheses of `C99_conservation_ls`, and arrays for which one time step
changes the weighted sum. -/
theorem C99_three_dimensions : ∃ (S : Setup 3 1) (M : Metrics 3) (orig : Fin 1 → Ex 3) (I : Interp 3) (delta : Fin 3 → ℝ) (inp : Alg.Input (Call 3)) (X : Fin 3 → P 3 → ℝ),
    OnMapping S M orig inp ∧ IsCentral S I delta ∧ (∀ d, S.h ≤ S.np d) ∧ inp.stages = 1 ∧ I.table "rkA" = [0] ∧ I.table "rkB" = [1] ∧ Wraps S.np X ∧
    (∀ x, Describes M.cur M.str (jacobi I X x)) ∧ (∀ x, 3 / 4 ≤ (jacobi I X x).det) ∧ (orig 0).firstFluxes = true ∧
    ∀ pts, Enumerates pts → ∃ prg m, Program S .lowStorage I pts inp prg ∧ HoldsCoordinates M S.np S.h X (atStart I pts S.sol (exchange S.np S.h) inp m) ∧
      ¬ ConservesWeighted (fun x => (jacobi I X x).det) S I pts (exchange S.np S.h) inp prg m 0 := by
  have hdesc : ∀ x, Describes metrics3.cur metrics3.str (jacobi (unitInterp 3) wavy3 x) := fun x => ⟨fun i j _ h => by simp [metrics3] at h, fun i h => by simp [metrics3] at h⟩
  refine ⟨advected3, metrics3, fun _ => .mul (.num (-1)) (.cd 0 1 (.arr (.data "phi"))), unitInterp 3, fun _ => 1, mapped3Input, wavy3, mapped3_onMapping, fun d k f x => rfl, by decide, rfl, by simp [unitInterp],
    by simp [unitInterp], wavy3_wraps, hdesc, wavy3_positive, by decide, fun pts hp => ?_⟩
  obtain ⟨prg, hP⟩ := mapped3_program hp
  -- the coordinates and a field which is one at one point
  let m : Mem 3 := fun a x => match a with
    | .data s => if s = "phi" then (if x = 0 then 1 else 0) else if s = "x0" then wavy3 0 x else if s = "x1" then wavy3 1 x else if s = "x2" then wavy3 2 x else 0
    | _ => 0
  have hkeep : ∀ s, s ≠ "detJ" → (∀ k j : Fin 3, s ≠ metricName k j) → atStart (unitInterp 3) pts advected3.sol (exchange advected3.np advected3.h) mapped3Input m (.data s) = m (.data s) := by
    intro s h1 h2
    unfold atStart
    rw [mapped3_others]
    simp only [List.nil_append, Alg.placedAt, List.flatMap_cons, List.flatMap_nil, if_true, List.append_nil]
    exact (metrics_run (I := unitInterp 3) (np := advected3.np) (h := advected3.h) (by decide) metrics3_listed hp advected3.sol (exchange advected3.np advected3.h) m).2.2 s h1 h2
  have hX : HoldsCoordinates metrics3 advected3.np advected3.h wavy3 (atStart (unitInterp 3) pts advected3.sol (exchange advected3.np advected3.h) mapped3Input m) := by
    intro i j _ x _
    rw [hkeep _ (mapped3_onMapping.coords i).1 (mapped3_onMapping.coords i).2]
    have hn : ∀ i : Fin 3, coordName metrics3.symbol i = ![ "x0", "x1", "x2" ] i := by decide +kernel
    rw [hn]
    fin_cases i <;> simp [m]
  refine ⟨prg, m, hP, hX, fun hc => ?_⟩
  have hdef := C99_defect hP mapped3_onMapping (delta := fun _ => 1) (fun d k f x => rfl) (by decide) 1 rfl (by simp [unitInterp]) (by simp [unitInterp]) rfl m hX wavy3_wraps (fun x _ => hdesc x)
    (fun x _ => by have := wavy3_positive x; linarith) 0 0 (-1) rfl
  have hstart : ∀ x, atStart (unitInterp 3) pts advected3.sol (exchange advected3.np advected3.h) mapped3Input m (.data (advected3.sol 0)) x = if x = 0 then 1 else 0 := by
    intro x
    rw [show advected3.sol 0 = "phi" from rfl, hkeep "phi" (by decide) (by decide +kernel)]
    simp [m]
  rw [hc.1] at hdef
  have hz : (0 : P 3) ∈ gridPoints advected3.np := by
    rw [mem_gridPoints]
    intro d
    fin_cases d <;> simp [advected3]
  have hsum : ∑ x ∈ gridPoints advected3.np, atStart (unitInterp 3) pts advected3.sol (exchange advected3.np advected3.h) mapped3Input m (.data (advected3.sol 0)) x *
      ∑ k, (unitInterp 3).cd k 1 (fun y => (jacobi (unitInterp 3) wavy3 y).adjugate k 0) x = -(1 / 8) := by
    simp only [hstart]
    rw [Finset.sum_eq_single 0 (fun x _ hx => by simp [hx]) fun h => absurd hz h, if_pos rfl, one_mul, wavy3_defect]
  rw [hsum, show (unitInterp 3).const "dt" = 1 from rfl] at hdef
  push_cast at hdef
  linarith

end OpenSBLI.Sim
