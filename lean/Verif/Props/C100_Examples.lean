import Verif.Props.C100_Accuracy
import Verif.Props.C99_Examples
import Mathlib.Topology.Instances.Real.Lemmas

/-!
# C100: diffusion on a stretched line, meeting the hypotheses
-/
namespace OpenSBLI.Sim
open OpenSBLI.Metric (fdValue sdStored Describes)
open OpenSBLI.Stretch (Stretching)
open scoped ContDiff

/-- `phi_t = phi_xx` on a stretched line of sixteen points. -/
def diffused1 : Setup 1 1 where
  np := ![16]
  order := 2
  sol := ![ "phi" ]
  rhs := ![.mul (.num 1) (.add (.mul (.arr (.data "D00")) (.mul (.arr (.data "D00")) (.cd 0 2 (.arr (.data "phi"))))) (.mul (.arr (.data "D00")) (.mul (.arr (.data "SD000")) (.cd 0 1 (.arr (.data "phi"))))))]
  rel := []
  w0 := 0
  known := ["phi"]
  groups := [(0, [.cd 0 2 (.arr (.data "phi")), .cd 0 1 (.arr (.data "phi"))])]
  vcds := []
  keys := ["D00", "SD000", "phi"]

theorem diffused1_valid : diffused1.Valid where
  listed := {
    groupDirs := by decide
    groupDir := by decide
    groupNonempty := by decide
    flatNodup := by decide
    flatMem := fun c => by
      simp [diffused1, Setup.flat, Ex.convective, Ex.classified, Ex.hasRe, Ex.sum, Ex.zeroFn, Ex.cds]
    vcdsNodup := by decide
    vcdsMem := fun c => by
      simp [diffused1, Ex.viscous, Ex.classified, Ex.hasRe, Ex.sum, Ex.zeroFn, Ex.cds]
    keysNodup := by decide
    keysMem := fun s => by
      simp [diffused1, Setup.required, Setup.flat, Ex.convective, Ex.viscous, Ex.classified, Ex.hasRe, Ex.sum, Ex.zeroFn, Ex.datas, Ex.arrs]
      tauto }
  solInj := by decide
  relSol := by decide
  relNodup := by decide
  relPlain := fun s e h => by simp [Setup.relation, diffused1] at h
  rhsPlain := fun i => by
    fin_cases i; refine ⟨?_, rfl, rfl⟩; simp [diffused1, Ex.plain, Ex.arrs]
  rhsSteady := by decide
  groups := by decide
  convFlat := by decide
  visc := fun c hc => by simp [diffused1] at hc
  viscDer := .inr (by decide)
  known := by decide
  halos := fun s hs e h => by simp [Setup.relation, diffused1] at h

theorem diffused1_spatial : ∃ ks, diffused1.spatial = .ok ks := by
  have h : SortDict.sortDictionary (((diffused1.keys.filter fun s => (diffused1.relation s).isNone) ++ diffused1.known).dedup) (diffused1.keys.filterMap fun s => (diffused1.relation s).map fun e => (s, e.datas)) =
      .ok [] := by decide +kernel
  unfold Setup.spatial Setup.relKernels Setup.relOrder
  rw [h]
  exact ⟨_, rfl⟩

/-- The direction is stretched; its halos are filled as given. -/
def metrics1 (f : Fill) : Metrics2 1 where
  cur := fun _ => false
  str := fun _ => true
  symbol := "x"
  ders := [(0, 0)]
  w0 := 0
  fill := fun _ => f
  sders := [(0, 0, 0)]
  w1 := 0

theorem metrics1_listed (f : Fill) : (metrics1 f).Listed where
  first := { nodup := by cases f <;> decide, mem := fun p => by revert p; cases f <;> decide }
  nodup := by cases f <;> decide
  mem := fun p => by
    have h : ∀ p : Fin 1 × Fin 1 × Fin 1, p ∈ [((0 : Fin 1), (0 : Fin 1), (0 : Fin 1))] ↔ sdStored (fun _ : Fin 1 => false) (fun _ => true) p.1 p.2.1 p.2.2 = true := by decide
    exact h p

noncomputable def stretched1Input (f : Fill) : Alg.Input (Call 1) where
  temporalSchemes := 1
  items := [(metrics1 f).item diffused1.np diffused1.h, diffused1.item .rk diffused1_spatial.choose]
  stages := 3
  niter := 250
  monitorFrequency := none
  ios := [Alg.IO.new 0 true none 50]

theorem stretched1_others (f : Fill) : Alg.sortByOrder (Alg.others (stretched1Input f).items) = [] ++ [(1, [.before], (metrics1 f).kernels diffused1.np diffused1.h)] := by
  simp [stretched1Input, Alg.others, Metrics2.item, Setup.item, Alg.sortByOrder]

theorem stretched1_onMapping (f : Fill) : OnMapping2 diffused1 (metrics1 f) (fun _ => [⟨.num 1, 0, some 0, .arr (.data "phi")⟩]) (stretched1Input f) where
  dim := by decide
  listed := metrics1_listed f
  fits := fun d => by
    have hnp : diffused1.np d = 16 := by rw [Subsingleton.elim d 0]; rfl
    have hh : diffused1.h = 1 := by decide
    rw [hnp, hh]
    exact ⟨by norm_num, fun _ => by norm_num⟩
  rhs := by cases f <;> decide +kernel
  last := ⟨[], stretched1_others f⟩
  plain := fun i t ht => by simp only [List.mem_singleton] at ht; subst ht; rfl
  fluxes := fun i t ht s hs => by
    simp only [List.mem_singleton] at ht
    subst ht
    simp only [Ex.datas, Ex.arrs, List.filterMap_cons, List.filterMap_nil, List.mem_singleton] at hs
    exact .inr ⟨0, hs⟩
  relations := fun t e h => by simp [Setup.relation, diffused1] at h
  coords := by cases f <;> decide +kernel

theorem stretched1_program (f : Fill) {pts : Ranges.Kernel 1 → List (P 1)} (hp : Enumerates pts) : ∃ prg, Program diffused1 .rk (unitInterp 1) pts (stretched1Input f) prg := by
  have hg : ∃ prg, Alg.generate (stretched1Input f) = .ok prg := by
    simp [Alg.generate, stretched1Input, Setup.item, Metrics2.item, Alg.Acc.add, Alg.sortByOrder, bind, Except.bind, pure, Except.pure, Alg.Placed.addKernels]
  obtain ⟨prg, hg⟩ := hg
  refine ⟨prg, diffused1_valid, hp, central_local (delta := fun _ => 1) fun d k f x => rfl, ⟨[(metrics1 f).item diffused1.np diffused1.h], [], _, diffused1_spatial.choose_spec, rfl, by simp [Metrics2.item, Alg.Item.isSimulation], by simp⟩, ?_, hg⟩
  intro o places k h
  simp [stretched1Input, Setup.item, Metrics2.item] at h
  simp [h.2.1]

/-- Central differences of second order with spacing `δ`. -/
noncomputable def spacedInterp (δ : ℝ) : Interp 1 := { unitInterp 1 with cd := fun d k f x => Central.discretise 2 k δ (fun y => f (Function.update x d y)) (x d) }

theorem stretched1_keeps (f : Fill) (I : Interp 1) (hI : Local I diffused1.np diffused1.h) {pts : Ranges.Kernel 1 → List (P 1)} (hp : Enumerates pts) (B : Sol 1 1 → Sol 1 1) (m : Mem 1) (s : String) (h1 : s ≠ "detJ") (h2 : ∀ k j : Fin 1, s ≠ metricName k j)
    (h3 : ∀ k i l : Fin 1, s ≠ sdName k i l) : atStart I pts diffused1.sol B (stretched1Input f) m (.data s) = m (.data s) := by
  unfold atStart
  rw [stretched1_others]
  simp only [List.nil_append, Alg.placedAt, List.flatMap_cons, List.flatMap_nil, if_true, List.append_nil]
  exact (metrics2_run (I := I) (by decide) (metrics1_listed f) diffused1.h_nonneg (stretched1_onMapping f).fits hI hp diffused1.sol B m).2.2.2 s h1 h2 h3

/-- A uniform field stays uniform, whatever the coordinates. -/
example (f : Fill) (pts : Ranges.Kernel 1 → List (P 1)) (hp : Enumerates pts) (m : Mem 1) (hm : ∀ x, m (.data "phi") x = 7) : ∃ prg, Alg.generate (stretched1Input f) = .ok prg ∧
    ∀ x, Grid diffused1.np x → Alg.effect (exec (unitInterp 1) pts diffused1.sol (exchange diffused1.np diffused1.h)) (Alg.runProgram prg) m (.data "phi") x = 7 := by
  obtain ⟨prg, hP⟩ := stretched1_program f hp
  have hI : IsCentral diffused1 (unitInterp 1) fun _ => 1 := fun d k f x => rfl
  refine ⟨prg, hP.generated, fun x hx => ?_⟩
  exact (C100_uniform_flow hP (stretched1_onMapping f) hI (by decide) rfl (by simp [unitInterp]) (by simp [unitInterp]) m (fun _ => 7) fun i y _ => by
    fin_cases i
    exact (congrFun (stretched1_keeps f _ (central_local hI) hp _ m "phi" (by decide) (by decide +kernel) (by decide +kernel)) y).trans (hm y)).1 0 x hx

/-! ## Order -/

/-- Derivatives of smooth functions with a period are bounded. -/
theorem periodic_bound {f : ℝ → ℝ} (hf : ContDiff ℝ ∞ f) {T : ℝ} (hT : T ≠ 0) (hper : ∀ t, f (t + T) = f t) (k : ℕ) : ∃ b, ∀ t, |iteratedDeriv k f t| ≤ b := by
  have hp : Function.Periodic (iteratedDeriv k f) T := fun t => by
    have h := congrFun (iteratedDeriv_comp_add_const k f T) t
    rw [← h]
    congr 1
    funext s
    exact hper s
  obtain ⟨b, hb⟩ := isBounded_iff_forall_norm_le.1 (hp.isBounded_of_continuous hT (hf.continuous_iteratedDeriv k (by exact_mod_cast le_top)))
  exact ⟨b, fun t => hb _ ⟨t, rfl⟩⟩

/-- A periodic stretching. -/
noncomputable def sineGrid (t : ℝ) : ℝ := t + Real.sin t / 2

theorem sine_smooth : ContDiff ℝ ∞ sineGrid := contDiff_id.add (Real.contDiff_sin.div_const 2)

theorem sine_deriv : deriv sineGrid = fun t => 1 + Real.cos t / 2 := by
  funext t
  exact ((hasDerivAt_id t).add ((Real.hasDerivAt_sin t).div_const 2)).deriv

theorem sine_slope (t : ℝ) : (1 / 2 : ℝ) ≤ deriv sineGrid t := by
  rw [sine_deriv]
  have := Real.neg_one_le_cos t
  show (1 / 2 : ℝ) ≤ 1 + Real.cos t / 2
  linarith

theorem sine_bounds : ∃ b, Stretching 1 (1 / 2) b sineGrid ∧ ∀ i ∈ [1, 2, 2 * 1 + 1, 2 * 1 + 2], ∀ t, |iteratedDeriv i (fun t => Real.sin (sineGrid t)) t| ≤ b := by
  have hd : ContDiff ℝ ∞ (deriv sineGrid) := sine_smooth.deriv'
  have hper : ∀ t, deriv sineGrid (t + 2 * Real.pi) = deriv sineGrid t := fun t => by simp [sine_deriv]
  have hT : (2 * Real.pi) ≠ 0 := by positivity
  have hi : ContDiff ℝ ∞ fun t => (deriv sineGrid t)⁻¹ := hd.inv fun t => (by have := sine_slope t; linarith : (0:ℝ) < _).ne'
  have hs : ContDiff ℝ ∞ fun t => Real.sin (sineGrid t) := Real.contDiff_sin.comp sine_smooth
  have hsp : ∀ t, Real.sin (sineGrid (t + 2 * Real.pi)) = Real.sin (sineGrid t) := fun t => by
    have : sineGrid (t + 2 * Real.pi) = sineGrid t + 2 * Real.pi := by simp [sineGrid]; ring
    rw [this, Real.sin_add_two_pi]
  obtain ⟨b1, h1⟩ := periodic_bound hd hT hper 1
  obtain ⟨b2, h2⟩ := periodic_bound hd hT hper 2
  obtain ⟨b3, h3⟩ := periodic_bound hd hT hper 3
  obtain ⟨b4, h4⟩ := periodic_bound hi hT (fun t => by rw [hper]) 3
  choose bs hbs using periodic_bound hs hT hsp
  set b := |b1| + |b2| + |b3| + |b4| + |bs 1| + |bs 2| + |bs 3| + |bs 4| with hb
  have e1 := le_abs_self b1
  have e2 := le_abs_self b2
  have e3 := le_abs_self b3
  have e4 := le_abs_self b4
  have f1 := le_abs_self (bs 1)
  have f2 := le_abs_self (bs 2)
  have f3 := le_abs_self (bs 3)
  have f4 := le_abs_self (bs 4)
  have a1 := abs_nonneg b1
  have a2 := abs_nonneg b2
  have a3 := abs_nonneg b3
  have a4 := abs_nonneg b4
  have c1 := abs_nonneg (bs 1)
  have c2 := abs_nonneg (bs 2)
  have c3 := abs_nonneg (bs 3)
  have c4 := abs_nonneg (bs 4)
  refine ⟨b, ⟨sine_smooth, by norm_num, sine_slope, fun t => ?_, fun t => ?_, fun t => ?_, fun t => (h4 t).trans (by linarith)⟩, fun i hi t => ?_⟩
  · rw [← Stretch.iteratedDeriv_deriv]; exact (h1 t).trans (by linarith)
  · rw [← Stretch.iteratedDeriv_deriv]; exact (h2 t).trans (by linarith)
  · rw [← Stretch.iteratedDeriv_deriv]; exact (h3 t).trans (by linarith)
  · refine (hbs i t).trans ?_
    simp only [List.mem_cons, List.not_mem_nil, or_false] at hi
    rcases hi with rfl | rfl | rfl | rfl <;> norm_num <;> linarith

theorem line_describes {I : Interp 1} {X : Fin 1 → P 1 → ℝ} (f : Fill) (y : P 1) : Describes (metrics1 f).cur (metrics1 f).str (jacobi I X y) :=
  ⟨fun i j hij => absurd (Subsingleton.elim i j) hij, fun i _ hi => by cases hi⟩

/-- On the stretched line the second derivative of the sine of the coordinate is computed to second order, away from the sides. -/
example : ∃ C δ0 : ℝ, 0 < δ0 ∧ ∀ δ, 0 < δ → δ ≤ δ0 → ∀ (f : Fill) (pts : Ranges.Kernel 1 → List (P 1)) (_ : Enumerates pts) (m : Mem 1),
    (∀ y, m (.data "x0") y = sineGrid (y 0 * δ)) → (∀ y, m (.data "phi") y = Real.sin (sineGrid (y 0 * δ))) → ∀ x : P 1, 1 ≤ x 0 → x 0 + 1 < 16 →
    |(secondTransformed (metrics1 f).cur (metrics1 f).str 0 0 (.arr (.data "phi"))).eval (spacedInterp δ) (atStart (spacedInterp δ) pts diffused1.sol (exchange diffused1.np diffused1.h) (stretched1Input f) m) x
      - iteratedDeriv 2 Real.sin (sineGrid (x 0 * δ))| ≤ C * δ ^ 2 := by
  obtain ⟨b, hg, hb⟩ := sine_bounds
  obtain ⟨C, δ0, h0, hC⟩ := C100_accuracy (D := 1) (n := 1) 1 le_rfl hg
  obtain ⟨K, δ1, _, h1, _, hK⟩ := Stretch.metric_error le_rfl hg
  refine ⟨C, min δ0 δ1, lt_min h0 h1, fun δ hδ hle f pts hp m hx hphi x hx1 hx2 => ?_⟩
  have hI : IsCentral diffused1 (spacedInterp δ) fun _ => δ := fun d k f x => rfl
  have hkeep := fun s => stretched1_keeps f _ (central_local hI) hp (exchange diffused1.np diffused1.h) m s
  have hh : diffused1.h = 1 := by decide
  refine hC (stretched1_onMapping f) hp rfl hI (fun _ => rfl) 0 rfl hδ (hle.trans (min_le_left _ _)) (X := fun _ y => sineGrid (y 0 * δ)) (fun _ => rfl) ?_ (fun y => line_describes f y) (fun y => ?_) Real.sin Real.contDiff_sin hb x ?_ ?_ _ ?_
  · intro i j _ y _
    have hc : coordName (metrics1 f).symbol i = "x0" := by fin_cases i; rfl
    rw [hc]
    exact (congrFun (hkeep "x0" (by decide) (by decide +kernel) (by decide +kernel)) y).trans (hx y)
  · rw [Matrix.det_fin_one]
    simp only [jacobi, Matrix.of_apply]
    rw [line_first hI 0 (f := sineGrid) fun q _ => by simp only [shift, Function.update_self, Int.cast_add]; rw [add_mul]]
    have := (hK δ hδ (hle.trans (min_le_right _ _)) (y 0 * δ)).1
    exact (lt_of_lt_of_le (by norm_num) this).ne'
  · intro d
    rw [Subsingleton.elim d 0]
    show 0 ≤ x 0 ∧ x 0 < 16
    omega
  · refine .inr ⟨by rw [hh]; exact hx1, ?_⟩
    rw [hh]
    exact hx2
  · intro q _
    exact (congrFun (hkeep "phi" (by decide) (by decide +kernel) (by decide +kernel)) _).trans (hphi _)

/-- At a wall: on the grid `x = ξ + ξ²` the second derivative computed for the coordinate itself is two, for every spacing. -/
example (δ : ℝ) (hδ : 0 < δ) (pts : Ranges.Kernel 1 → List (P 1)) (hp : Enumerates pts) (m : Mem 1) (hx : ∀ y, m (.data "x0") y = y 0 * δ + (y 0 * δ) ^ 2) (hphi : ∀ y, m (.data "phi") y = y 0 * δ + (y 0 * δ) ^ 2) :
    (secondTransformed (metrics1 .mirror).cur (metrics1 .mirror).str 0 0 (.arr (.data "phi"))).eval (spacedInterp δ)
      (atStart (spacedInterp δ) pts diffused1.sol (exchange diffused1.np diffused1.h) (stretched1Input .mirror) m) (fun _ => 0) = 2 := by
  have hI : IsCentral diffused1 (spacedInterp δ) fun _ => δ := fun d k f x => rfl
  have hkeep := fun s => stretched1_keeps .mirror _ (central_local hI) hp (exchange diffused1.np diffused1.h) m s
  have h := C100_boundary_inconsistent (stretched1_onMapping .mirror) hp 1 le_rfl rfl hI rfl rfl rfl hδ 1 one_pos (B := exchange diffused1.np diffused1.h) (m := m) (fun i j _ y _ => by
    have hc : coordName (metrics1 .mirror).symbol i = "x0" := by fin_cases i; rfl
    rw [hc]
    refine (congrFun (hkeep "x0" (by decide) (by decide +kernel) (by decide +kernel)) y).trans ((hx y).trans ?_)
    simp) (by decide) (.arr (.data "phi")) (fun q _ => by
    refine (congrFun (hkeep "phi" (by decide) (by decide +kernel) (by decide +kernel)) _).trans ((hphi _).trans ?_)
    simp [shift])
  rw [h]
  norm_num

end OpenSBLI.Sim
