import Verif.Props.C100_Curvilinear
import Verif.Props.C100_Examples
import Verif.Props.C87_Examples
import Mathlib.Analysis.SpecialFunctions.Pow.Real

/-!
# C100: advection and diffusion on a wavy grid, meeting the hypotheses
-/
namespace OpenSBLI.Sim
open OpenSBLI.Metric (fdValue sdStored Describes)
open OpenSBLI.Order (E pd pos Tame)
open OpenSBLI.Curv (jac Mapping)
open scoped ContDiff

/-- `phi_t = -phi_x + phi_xy / Re`. -/
def wavyTerms : List (Term 2) := [⟨.num (-1), 0, none, .arr (.data "phi")⟩, ⟨.pow (.const "Re") (.num (-1)), 0, some 1, .arr (.data "phi")⟩]

/-- The equation on a curvilinear grid of sixteen by sixteen points. -/
def curved2 : Setup 2 1 where
  np := ![16, 16]
  order := 2
  sol := ![ "phi" ]
  rhs := fun _ => mappedTerms (fun _ => true) (fun _ => false) wavyTerms
  rel := []
  w0 := 0
  known := ["phi"]
  groups := [(0, [.cd 0 1 (.arr (.data "phi"))]), (1, [.cd 1 1 (.arr (.data "phi"))])]
  vcds := [.cd 0 2 (.arr (.data "phi")), .cd 0 1 (.arr (.data "phi")), .cd 1 1 (.cd 0 1 (.arr (.data "phi"))), .cd 1 1 (.arr (.data "phi")), .cd 1 2 (.arr (.data "phi"))]
  keys := ["phi", "D00", "D10", "D01", "D11", "SD000", "SD001", "SD100", "SD101"]

/-- Membership in a list of finitely many values, decided by comparing the elements. -/
theorem same_members {α : Type} {l l' : List α} (h : ∀ a ∈ l, a ∈ l') (h' : ∀ a ∈ l', a ∈ l) (a : α) : a ∈ l ↔ a ∈ l' := ⟨h a, h' a⟩

theorem curved2_valid : curved2.Valid where
  listed := {
    groupDirs := by decide +kernel
    groupDir := by decide +kernel
    groupNonempty := by decide +kernel
    flatNodup := by decide +kernel
    flatMem := fun c => by
      rw [show (∃ i, c ∈ (curved2.rhs i).convective.cds) ↔ c ∈ (curved2.rhs 0).convective.cds from ⟨fun ⟨i, h⟩ => h, fun h => ⟨0, h⟩⟩]
      exact same_members (by decide +kernel) (by decide +kernel) c
    vcdsNodup := by decide +kernel
    vcdsMem := fun c => by
      rw [show (∃ i, c ∈ (curved2.rhs i).viscous.cds) ↔ c ∈ (curved2.rhs 0).viscous.cds from ⟨fun ⟨i, h⟩ => h, fun h => ⟨0, h⟩⟩]
      exact same_members (by decide +kernel) (by decide +kernel) c
    keysNodup := by decide +kernel
    keysMem := fun s => by
      have h : curved2.required s ↔ s ∈ ((curved2.flat ++ curved2.vcds).flatMap Ex.datas ++ (curved2.rhs 0).convective.datas ++ (curved2.rhs 0).viscous.datas) := by
        simp only [Setup.required, List.mem_append, List.mem_flatMap]
        constructor
        · rintro (h | ⟨_, i, h⟩ | ⟨i, h⟩)
          · exact .inl (.inl h)
          · exact .inl (.inr h)
          · exact .inr h
        · rintro ((h | h) | h)
          · exact .inl h
          · exact .inr (.inl ⟨by decide, 0, h⟩)
          · exact .inr (.inr ⟨0, h⟩)
      rw [h]
      exact same_members (by decide +kernel) (by decide +kernel) s }
  solInj := by decide +kernel
  relSol := by decide +kernel
  relNodup := by decide +kernel
  relPlain := fun s e h => by simp [Setup.relation, curved2] at h
  rhsPlain := fun i => by
    refine ⟨fun a ha => ?_, by decide +kernel +revert, by decide +kernel +revert⟩
    have h : ∀ a ∈ (curved2.rhs 0).arrs, a ∈ ["phi", "D00", "D10", "D01", "D11", "SD000", "SD001", "SD100", "SD101"].map Arr.data := by decide +kernel
    obtain ⟨s, _, hs⟩ := List.mem_map.1 (h a ha)
    exact ⟨s, hs.symm⟩
  rhsSteady := by decide +kernel
  groups := by decide +kernel
  convFlat := by decide +kernel
  visc := fun c hc => by
    simp only [curved2, List.mem_cons, List.not_mem_nil, or_false] at hc
    rcases hc with rfl | rfl | rfl | rfl | rfl
    · exact .inl rfl
    · exact .inl rfl
    · exact .inr ⟨_, rfl, by decide⟩
    · exact .inl rfl
    · exact .inl rfl
  viscDer := .inl (by decide +kernel)
  known := by decide +kernel
  halos := fun s hs e h => by simp [Setup.relation, curved2] at h

/-- The equation on a curvilinear grid of other numbers of points. -/
def curvedOn (N : ℤ) : Setup 2 1 := { curved2 with np := fun _ => N }

theorem curvedOn_valid (N : ℤ) : (curvedOn N).Valid where
  listed := ⟨curved2_valid.listed.groupDirs, curved2_valid.listed.groupDir, curved2_valid.listed.groupNonempty, curved2_valid.listed.flatNodup, curved2_valid.listed.flatMem, curved2_valid.listed.vcdsNodup, curved2_valid.listed.vcdsMem, curved2_valid.listed.keysNodup, curved2_valid.listed.keysMem⟩
  solInj := curved2_valid.solInj
  relSol := curved2_valid.relSol
  relNodup := curved2_valid.relNodup
  relPlain := curved2_valid.relPlain
  rhsPlain := curved2_valid.rhsPlain
  rhsSteady := curved2_valid.rhsSteady
  groups := curved2_valid.groups
  convFlat := curved2_valid.convFlat
  visc := curved2_valid.visc
  viscDer := curved2_valid.viscDer
  known := curved2_valid.known
  halos := curved2_valid.halos

theorem curvedOn_spatial (N : ℤ) : ∃ ks, (curvedOn N).spatial = .ok ks := by
  have h : SortDict.sortDictionary (((curved2.keys.filter fun s => (curved2.relation s).isNone) ++ curved2.known).dedup) (curved2.keys.filterMap fun s => (curved2.relation s).map fun e => (s, e.datas)) =
      .ok [] := by decide +kernel
  have h' : (curvedOn N).relOrder = .ok [] := h
  unfold Setup.spatial Setup.relKernels
  rw [h']
  exact ⟨_, rfl⟩

/-- Both directions are curvilinear and periodic. -/
def metricsW : Metrics2 2 where
  cur := fun _ => true
  str := fun _ => false
  symbol := "x"
  ders := [(0, 0), (0, 1), (1, 0), (1, 1)]
  w0 := 0
  fill := fun _ => .periodic
  sders := [(0, 0, 0), (0, 0, 1), (0, 1, 0), (0, 1, 1), (1, 0, 0), (1, 0, 1), (1, 1, 0), (1, 1, 1)]
  w1 := 0

theorem metricsW_listed : metricsW.Listed where
  first := { nodup := by decide +kernel, mem := fun p => by revert p; decide +kernel }
  nodup := by decide +kernel
  mem := fun p => by revert p; decide +kernel

noncomputable def curvedInput (N : ℤ) : Alg.Input (Call 2) where
  temporalSchemes := 1
  items := [metricsW.item (curvedOn N).np (curvedOn N).h, (curvedOn N).item .rk (curvedOn_spatial N).choose]
  stages := 3
  niter := 250
  monitorFrequency := none
  ios := [Alg.IO.new 0 true none 50]

theorem curved_others (N : ℤ) : Alg.sortByOrder (Alg.others (curvedInput N).items) = [] ++ [(1, [.before], metricsW.kernels (curvedOn N).np (curvedOn N).h)] := by
  simp [curvedInput, Alg.others, Metrics2.item, Setup.item, Alg.sortByOrder]

theorem curved_onMapping {N : ℤ} (hN : 0 < N) : OnMapping2 (curvedOn N) metricsW (fun _ => wavyTerms) (curvedInput N) where
  dim := by decide
  listed := metricsW_listed
  fits := fun d => ⟨hN, fun h => by cases h⟩
  rhs := fun i => rfl
  last := ⟨[], curved_others N⟩
  plain := fun i t ht => by
    simp only [wavyTerms, List.mem_cons, List.not_mem_nil, or_false] at ht
    rcases ht with rfl | rfl <;> rfl
  fluxes := fun i t ht s hs => by
    have h : t.arg = .arr (.data "phi") := by
      simp only [wavyTerms, List.mem_cons, List.not_mem_nil, or_false] at ht
      rcases ht with rfl | rfl <;> rfl
    rw [h] at hs
    simp only [Ex.datas, Ex.arrs, List.filterMap_cons, List.filterMap_nil, List.mem_singleton] at hs
    exact .inr ⟨0, hs⟩
  relations := fun t e h => by simp [Setup.relation, curvedOn, curved2] at h
  coords := by decide +kernel

theorem curved_apart (N : ℤ) : Apart (curvedOn N) := by
  have h1 : ∀ k j : Fin 2, metricName k j ≠ "phi" := by decide +kernel
  have h2 : ∀ k i l : Fin 2, sdName k i l ≠ "phi" := by decide +kernel
  intro s hs
  refine ⟨fun e he => by simp [curvedOn, curved2] at he, fun i => ?_⟩
  have hi : (curvedOn N).sol i = "phi" := by fin_cases i; rfl
  rw [hi]
  rcases hs with ⟨k, j, rfl⟩ | ⟨k, i, l, rfl⟩
  · exact h1 k j
  · exact h2 k i l

theorem curved_keeps {N : ℤ} (hN : 0 < N) (I : Interp 2) (hI : Local I (curvedOn N).np (curvedOn N).h) {pts : Ranges.Kernel 2 → List (P 2)} (hp : Enumerates pts) (B : Sol 2 1 → Sol 2 1) (m : Mem 2) (s : String) (h1 : s ≠ "detJ") (h2 : ∀ k j : Fin 2, s ≠ metricName k j)
    (h3 : ∀ k i l : Fin 2, s ≠ sdName k i l) : atStart I pts (curvedOn N).sol B (curvedInput N) m (.data s) = m (.data s) := by
  unfold atStart
  rw [curved_others]
  simp only [List.nil_append, Alg.placedAt, List.flatMap_cons, List.flatMap_nil, if_true, List.append_nil]
  exact (metrics2_run (I := I) (by decide) metricsW_listed (curvedOn N).h_nonneg (curved_onMapping hN).fits hI hp (curvedOn N).sol B m).2.2.2 s h1 h2 h3

/-! ## The grid -/

/-- A wavy grid. -/
noncomputable def wavyMap (ξ : E 2) : E 2 := ![ξ 0 + Real.sin (ξ 1) / 2, ξ 1 + Real.sin (ξ 0) / 2]

theorem wavy_smooth : ContDiff ℝ ∞ wavyMap := by
  have hc : ∀ d, ContDiff ℝ ∞ fun x : E 2 => x d := fun d => contDiff_apply ℝ ℝ d
  refine contDiff_pi.2 fun i => ?_
  fin_cases i
  · exact (hc 0).add ((Real.contDiff_sin.comp (hc 1)).div_const 2)
  · exact (hc 1).add ((Real.contDiff_sin.comp (hc 0)).div_const 2)

theorem wavy_shift (k : Fin 2 → ℤ) (x : E 2) (i : Fin 2) : wavyMap (x + fun d => (k d : ℝ) * (2 * Real.pi)) i = wavyMap x i + k i * (2 * Real.pi) := by
  fin_cases i <;> simp [wavyMap, Real.sin_add_int_mul_two_pi] <;> ring

theorem wavy_pd (i d : Fin 2) (ξ : E 2) : pd d (fun ξ => wavyMap ξ i) ξ = if i = d then 1 else Real.cos (ξ d) / 2 := by
  have h0 : HasDerivAt (fun t : ℝ => ξ d + t) 1 0 := (hasDerivAt_id 0).const_add _
  have h1 : HasDerivAt (fun t : ℝ => Real.sin (ξ d + t)) (Real.cos (ξ d + 0) * 1) 0 := h0.sin
  show deriv (fun t : ℝ => wavyMap (ξ + t • Pi.single d 1) i) 0 = _
  fin_cases i <;> fin_cases d
  · refine Eq.trans ?_ ((h0.add_const (Real.sin (ξ 1) / 2)).deriv)
    congr 1; funext t; simp [wavyMap]
  · refine Eq.trans ?_ (((h1.div_const 2).const_add (ξ 0)).deriv.trans (by simp))
    congr 1; funext t; simp [wavyMap]
  · refine Eq.trans ?_ (((h1.div_const 2).const_add (ξ 1)).deriv.trans (by simp))
    congr 1; funext t; simp [wavyMap]
  · refine Eq.trans ?_ ((h0.add_const (Real.sin (ξ 0) / 2)).deriv)
    congr 1; funext t; simp [wavyMap]

theorem wavy_mapping : Mapping wavyMap (3 / 4) where
  smooth := wavy_smooth
  tame i k := Order.periodic_tame (Order.pd_smooth (contDiff_pi.1 wavy_smooth i) k) (2 * Real.pi) (by positivity) fun n x => by
    rw [wavy_pd, wavy_pd]
    split_ifs
    · rfl
    · simp [Real.cos_add_int_mul_two_pi]
  pos := by norm_num
  det ξ := by
    rw [Matrix.det_fin_two]
    simp only [jac, Matrix.of_apply, wavy_pd]
    simp
    have h0 := Real.abs_cos_le_one (ξ 0)
    have h1 := Real.abs_cos_le_one (ξ 1)
    have h : |Real.cos (ξ 0) * Real.cos (ξ 1)| ≤ 1 := by
      rw [abs_mul]
      exact mul_le_one₀ h0 (abs_nonneg _) h1
    refine le_trans ?_ (le_abs_self _)
    have := le_abs_self (Real.cos (ξ 0) * Real.cos (ξ 1))
    nlinarith

theorem wavy_describes (ξ : E 2) : Describes metricsW.cur metricsW.str (jac wavyMap ξ) := ⟨fun _ _ _ h => by simp [metricsW] at h, fun _ h => by simp [metricsW] at h⟩

/-- Shifts by the numbers of points are shifts by a period. -/
theorem wavy_periodic {N : ℤ} {δ : ℝ} (hNδ : N * δ = 2 * Real.pi) (l i : Fin 2) (y : P 2) :
    wavyMap (pos (0 : E 2) (fun _ => δ) (shift y l N)) i = wavyMap (pos (0 : E 2) (fun _ => δ) y) i + if i = l then 2 * Real.pi else 0 := by
  have h : pos (0 : E 2) (fun _ => δ) (shift y l N) = pos (0 : E 2) (fun _ => δ) y + fun d => ((if d = l then 1 else 0 : ℤ) : ℝ) * (2 * Real.pi) := by
    funext d
    by_cases hd : d = l
    · subst hd
      simp [pos, shift, ← hNδ]
      ring
    · simp [pos, shift, hd]
  rw [h, wavy_shift]
  split_ifs <;> simp

/-- Central differences of second order with spacing `δ` in all directions; the Reynolds number is two. -/
noncomputable def spacedInterp2 (δ : ℝ) : Interp 2 := { unitInterp 2 with const := fun _ => 2, pow := fun a b => a ^ b, cd := fun d k f x => Central.discretise 2 k δ (fun y => f (Function.update x d y)) (x d) }

/-- The field. -/
noncomputable def wavyField (y : E 2) : ℝ := Real.sin (y 0) * Real.sin (y 1)

theorem wavyField_smooth : ContDiff ℝ ∞ wavyField := (Real.contDiff_sin.comp (contDiff_apply ℝ ℝ 0)).mul (Real.contDiff_sin.comp (contDiff_apply ℝ ℝ 1))

theorem wavyField_tame (k : Fin 2) : Tame fun _ : Unit => pd k fun ξ => wavyField (wavyMap ξ) := by
  have hs : ContDiff ℝ ∞ fun ξ => wavyField (wavyMap ξ) := wavyField_smooth.comp wavy_smooth
  refine Order.periodic_tame (Order.pd_smooth hs k) (2 * Real.pi) (by positivity) fun n x => ?_
  have := congrFun (Order.pd_shift (u := fun ξ => wavyField (wavyMap ξ)) k fun d => (n d : ℝ) * (2 * Real.pi)) x
  rw [← this]
  congr 1
  funext ξ
  simp only [wavyField, wavy_shift, Real.sin_add_int_mul_two_pi]

/-- On the wavy grid of `N` by `N` points, periodic in both directions, the first and the mixed second derivative of a field are computed to second order at all points, with the metric terms and their derivatives computed at the beginning of the time loop. -/
example : ∃ C h0 : ℝ, 0 < h0 ∧ ∀ N : ℤ, 0 < N → ∀ δ : ℝ, N * δ = 2 * Real.pi → δ ≤ h0 → ∀ (pts : Ranges.Kernel 2 → List (P 2)) (_ : Enumerates pts) (m : Mem 2),
    (∀ (i : Fin 2) y, m (.data (coordName "x" i)) y = wavyMap (fun d => y d * δ) i) → (∀ y, m (.data "phi") y = wavyField (wavyMap fun d => y d * δ)) → ∀ x : P 2, (∀ d, 0 ≤ x d ∧ x d < N) →
    let m' := atStart (spacedInterp2 δ) pts (curvedOn N).sol (exchange (curvedOn N).np (curvedOn N).h) (curvedInput N) m
    |(transformed metricsW.cur metricsW.str 1 (.arr (.data "phi"))).eval (spacedInterp2 δ) m' x - pd 1 wavyField (wavyMap fun d => x d * δ)| ≤ C * δ ^ 2 ∧
    |(secondTransformed metricsW.cur metricsW.str 0 1 (.arr (.data "phi"))).eval (spacedInterp2 δ) m' x - pd 1 (pd 0 wavyField) (wavyMap fun d => x d * δ)| ≤ C * δ ^ 2 := by
  obtain ⟨C, h0, hpos, hC⟩ := C100_curvilinear (τ := Unit) 1 le_rfl wavy_mapping (cur := metricsW.cur) (str := metricsW.str) wavy_describes (fun _ => wavyField_smooth) wavyField_tame
  refine ⟨C, h0, hpos, ?_⟩
  intro N hN δ hNδ hle pts hp m hcoord hphi x hx m'
  have hI : IsCentral (curvedOn N) (spacedInterp2 δ) fun _ => δ := fun d k f x => rfl
  have hδ : 0 < δ := by
    have hpi := Real.pi_pos
    have hN' : (0 : ℝ) < N := by exact_mod_cast hN
    by_contra h
    nlinarith
  have hkeep := fun s => curved_keeps hN _ (central_local hI) hp (exchange (curvedOn N).np (curvedOn N).h) m s
  have hpos' : ∀ y : P 2, pos (0 : E 2) (fun _ => δ) y = fun d => (y d : ℝ) * δ := fun y => by funext d; simp [pos]
  have hx0 : ∀ i : Fin 2, coordName "x" i ≠ "detJ" ∧ (∀ k j : Fin 2, coordName "x" i ≠ metricName k j) ∧ ∀ k j l : Fin 2, coordName "x" i ≠ sdName k j l := (curved_onMapping hN).coords
  obtain ⟨_, hmain⟩ := hC (curved_onMapping hN) hp rfl hI rfl rfl δ hle (fun _ => ⟨hδ, le_rfl⟩) 0 (B := exchange (curvedOn N).np (curvedOn N).h) (m := m) fun i j _ y _ => by
    refine (congrFun (hkeep _ (hx0 i).1 (hx0 i).2.1 (hx0 i).2.2) y).trans ((hcoord i y).trans ?_)
    simp only [hpos']
  have := hmain x hx (fun l => .inl ⟨rfl, fun i => ⟨if i = l then 2 * Real.pi else 0, fun y => ?_⟩⟩) () m' (fun _ _ => rfl) (fun _ _ _ => rfl) (.arr (.data "phi")) fun k l y _ => by
    refine (congrFun (hkeep "phi" (by decide) (by decide +kernel) (by decide +kernel)) y).trans ((hphi y).trans ?_)
    simp only [hpos']
  · rw [hpos'] at this
    exact ⟨this.1 1, this.2 0 1⟩
  · exact wavy_periodic hNδ l i y

/-- The right hand side of the program is within a multiple of the square of the spacing of `-phi_x + phi_xy / 2` at all points of the wavy grid. -/
example : ∃ C h0 : ℝ, 0 < h0 ∧ ∀ N : ℤ, 0 < N → ∀ δ : ℝ, N * δ = 2 * Real.pi → δ ≤ h0 → ∀ (pts : Ranges.Kernel 2 → List (P 2)) (_ : Enumerates pts) (m : Mem 2),
    (∀ (i : Fin 2) y, m (.data (coordName "x" i)) y = wavyMap (fun d => y d * δ) i) → ∀ full : String → P 2 → ℝ,
    let m' := atStart (spacedInterp2 δ) pts (curvedOn N).sol (exchange (curvedOn N).np (curvedOn N).h) (curvedInput N) m
    Consistent (curvedOn N) (spacedInterp2 δ) (fun s => m' (.data s)) (fun _ y => wavyField (wavyMap fun d => y d * δ)) full → ∀ x : P 2, (∀ d, 0 ≤ x d ∧ x d < N) →
    |((curvedOn N).rhs 0).eval (spacedInterp2 δ) (memOf full) x - (-pd 0 wavyField (wavyMap fun d => x d * δ) + 1 / 2 * pd 1 (pd 0 wavyField) (wavyMap fun d => x d * δ))| ≤ C * δ ^ 2 := by
  have harg : ∀ T ∈ wavyTerms, T.arg = .arr (.data "phi") := fun T hT => by
    simp only [wavyTerms, List.mem_cons, List.not_mem_nil, or_false] at hT
    rcases hT with rfl | rfl <;> rfl
  have hex : Order.exact (spacedInterp2 1) (Order.ofData fun _ => wavyField) (.arr (.data "phi")) = wavyField := rfl
  obtain ⟨C, h0, hpos, hC⟩ := C100_right_hand_sides (τ := Unit) 1 le_rfl wavy_mapping (cur := metricsW.cur) (str := metricsW.str) wavy_describes (spacedInterp2 1) (fun _ _ => wavyField) wavyTerms
    (fun T hT => ⟨by
      simp only [wavyTerms, List.mem_cons, List.not_mem_nil, or_false] at hT
      rcases hT with rfl | rfl <;> rfl, by rw [harg T hT]; rfl⟩)
    (fun T hT _ => by rw [harg T hT]; exact wavyField_smooth) (fun T hT k => by rw [harg T hT]; exact wavyField_tame k) 1 (fun T hT _ y => by
      simp only [wavyTerms, List.mem_cons, List.not_mem_nil, or_false] at hT
      rcases hT with rfl | rfl
      · simp [Order.exact]
      · simp [Order.exact, spacedInterp2, Real.rpow_neg_one]
        norm_num)
  refine ⟨C, h0, hpos, ?_⟩
  intro N hN δ hNδ hle pts hp m hcoord full m' hfull x hx
  have hI : IsCentral (curvedOn N) (spacedInterp2 δ) fun _ => δ := fun d k f x => rfl
  have hδ : 0 < δ := by
    have hpi := Real.pi_pos
    have hN' : (0 : ℝ) < N := by exact_mod_cast hN
    by_contra h
    nlinarith
  have hkeep := fun s => curved_keeps hN _ (central_local hI) hp (exchange (curvedOn N).np (curvedOn N).h) m s
  have hpos' : ∀ y : P 2, pos (0 : E 2) (fun _ => δ) y = fun d => (y d : ℝ) * δ := fun y => by funext d; simp [pos]
  have hx0 : ∀ i : Fin 2, coordName "x" i ≠ "detJ" ∧ (∀ k j : Fin 2, coordName "x" i ≠ metricName k j) ∧ ∀ k j l : Fin 2, coordName "x" i ≠ sdName k j l := (curved_onMapping hN).coords
  have hmain := hC (curved_onMapping hN) (curved_apart N) hp (curvedOn_valid N) (curvedOn_spatial N).choose_spec rfl hI rfl rfl δ hle (fun _ => ⟨hδ, le_rfl⟩) 0 (B := exchange (curvedOn N).np (curvedOn N).h) (m := m) (fun i j _ y _ => by
      refine (congrFun (hkeep _ (hx0 i).1 (hx0 i).2.1 (hx0 i).2.2) y).trans ((hcoord i y).trans ?_)
      simp only [hpos'])
    0 rfl (fun T hT s hs => by
      simp only [wavyTerms, List.mem_cons, List.not_mem_nil, or_false] at hT
      rcases hT with rfl | rfl <;> simp [Ex.datas, Ex.arrs] at hs)
    (fun e _ => ⟨fun _ _ => rfl, rfl, rfl, rfl, rfl⟩) () (fun s e h => by simp [curvedOn, curved2] at h) (fun _ y => wavyField (wavyMap fun d => y d * δ)) full (fun j y _ => by simp only [hpos']) hfull x hx
    (fun l => .inl ⟨rfl, fun i => ⟨if i = l then 2 * Real.pi else 0, fun y => wavy_periodic hNδ l i y⟩⟩)
  rw [hpos'] at hmain
  have he : (wavyTerms.map fun T => T.exact (spacedInterp2 1) (fun _ => wavyField) (wavyMap fun d => x d * δ)).sum = -pd 0 wavyField (wavyMap fun d => x d * δ) + 1 / 2 * pd 1 (pd 0 wavyField) (wavyMap fun d => x d * δ) := by
    simp [wavyTerms, Term.exact, hex]
    simp [Order.exact, spacedInterp2, Real.rpow_neg_one]
  rw [he] at hmain
  exact hmain

end OpenSBLI.Sim
