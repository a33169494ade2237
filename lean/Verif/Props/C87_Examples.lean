import Verif.Props.C87_Order
import Verif.Props.C77_Examples
import Mathlib.Analysis.SpecialFunctions.Trigonometric.Deriv
import Mathlib.Algebra.Order.Archimedean.Real.Basic

/-!
# C87: smooth periodic fields, and a problem meeting the hypotheses
-/
namespace OpenSBLI.Order
open Sim
open scoped ContDiff

variable {D : ℕ} {τ : Type}

/-- A smooth function which is periodic in all directions has bounded derivatives. -/
theorem periodic_tame {u : E D → ℝ} (hu : ContDiff ℝ ∞ u) (L : ℝ) (hL : 0 < L) (hper : ∀ (k : Fin D → ℤ) x, u (x + fun d => k d * L) = u x) : Tame (fun _ : τ => u) where
  smooth _ := hu
  bounded w := by
    have hp : ∀ (k : Fin D → ℤ) x, pds w u (x + fun d => k d * L) = pds w u x := fun k x => by
      have := congrFun (pds_shift w u fun d => (k d : ℝ) * L) x
      simp only [hper] at this
      exact this.symm
    obtain ⟨C, hC⟩ := (isCompact_Icc (a := (0 : E D)) (b := fun _ => L)).exists_bound_of_continuousOn ((pds_smooth w hu).continuous.continuousOn)
    refine ⟨C, fun _ x => ?_⟩
    have := hC (x + fun d => ((-⌊x d / L⌋ : ℤ) : ℝ) * L) ⟨fun d => ?_, fun d => ?_⟩
    · rwa [hp, Real.norm_eq_abs] at this
    · have h1 := Int.floor_le (x d / L)
      rw [le_div_iff₀ hL] at h1
      simp only [Pi.zero_apply, Pi.add_apply]
      push_cast
      linarith
    · have h1 := (Int.lt_floor_add_one (x d / L)).le
      rw [div_le_iff₀ hL] at h1
      simp only [Pi.add_apply]
      push_cast
      linarith

/-! ## The problem `flow` on finer and finer grids -/

/-- The problem of `C77_Examples`, on a grid with other numbers of points. -/
def flowOn (np : Fin 2 → ℤ) : Setup 2 2 := { flow with np := np }

theorem flowOn_valid (np : Fin 2 → ℤ) : (flowOn np).Valid where
  listed := ⟨flow_valid.listed.groupDirs, flow_valid.listed.groupDir, flow_valid.listed.groupNonempty, flow_valid.listed.flatNodup, flow_valid.listed.flatMem, flow_valid.listed.vcdsNodup, flow_valid.listed.vcdsMem, flow_valid.listed.keysNodup, flow_valid.listed.keysMem⟩
  solInj := flow_valid.solInj
  relSol := flow_valid.relSol
  relNodup := flow_valid.relNodup
  relPlain := flow_valid.relPlain
  rhsPlain := flow_valid.rhsPlain
  rhsSteady := flow_valid.rhsSteady
  groups := flow_valid.groups
  convFlat := flow_valid.convFlat
  visc := flow_valid.visc
  viscDer := flow_valid.viscDer
  known := flow_valid.known
  halos := flow_valid.halos

theorem flowOn_spatial (np : Fin 2 → ℤ) : ∃ ks, (flowOn np).spatial = .ok ks := by
  have h : SortDict.sortDictionary (((flow.keys.filter fun s => (flow.relation s).isNone) ++ flow.known).dedup) (flow.keys.filterMap fun s => (flow.relation s).map fun e => (s, e.datas)) =
      .ok ["u", "p"] := by decide +kernel
  have h' : (flowOn np).relOrder = .ok ["u", "p"] := h
  unfold Setup.spatial Setup.relKernels
  rw [h']
  exact ⟨_, rfl⟩

/-- Density `2 + sin x`, momentum `cos y`; velocity and pressure by the relations. -/
noncomputable def flowFields (gm1 : ℝ) : String → E 2 → ℝ := fun s x =>
  if s = "rho" then 2 + Real.sin (x 0) else if s = "rhou" then Real.cos (x 1) else if s = "u" then Real.cos (x 1) * (2 + Real.sin (x 0))⁻¹
  else if s = "p" then gm1 * (Real.cos (x 1) * (Real.cos (x 1) * (2 + Real.sin (x 0))⁻¹)) else 0

theorem flowFields_tame (gm1 : ℝ) (s : String) : Tame (fun _ : τ => flowFields gm1 s) := by
  have hc : ∀ d, ContDiff ℝ ∞ fun x : E 2 => x d := fun d => contDiff_apply ℝ ℝ d
  have hi : ContDiff ℝ ∞ fun x : E 2 => (2 + Real.sin (x 0))⁻¹ := (contDiff_const.add (Real.contDiff_sin.comp (hc 0))).inv fun x => by have := Real.neg_one_le_sin (x 0); simp only [Function.comp_apply]; linarith
  have hk : ContDiff ℝ ∞ fun x : E 2 => Real.cos (x 1) := Real.contDiff_cos.comp (hc 1)
  have hsin : ∀ (k : Fin 2 → ℤ) (x : E 2) d, Real.sin ((x + fun d => (k d : ℝ) * (2 * Real.pi)) d) = Real.sin (x d) := fun k x d => Real.sin_add_int_mul_two_pi _ _
  have hcos : ∀ (k : Fin 2 → ℤ) (x : E 2) d, Real.cos ((x + fun d => (k d : ℝ) * (2 * Real.pi)) d) = Real.cos (x d) := fun k x d => Real.cos_add_int_mul_two_pi _ _
  refine periodic_tame ?_ (2 * Real.pi) (by positivity) fun k x => by simp only [flowFields, hsin, hcos]
  unfold flowFields
  split_ifs
  · exact contDiff_const.add (Real.contDiff_sin.comp (hc 0))
  · exact hk
  · exact hk.mul hi
  · exact contDiff_const.mul (hk.mul (hk.mul hi))
  · exact contDiff_const

/-- The constants, tables and functions of `flow`. -/
noncomputable def flowReading : Interp 2 := { flowInterp with cd := fun _ _ f => f }

theorem flowFields_satisfies (np : Fin 2 → ℤ) : Satisfies (flowOn np) flowReading (flowFields 3) := by
  intro s e h x
  simp only [flowOn, flow, List.mem_cons, List.not_mem_nil, or_false, Prod.mk.injEq] at h
  rcases h with ⟨rfl, rfl⟩ | ⟨rfl, rfl⟩
  · simp [exact, flowFields, flowReading, flowInterp, ofData, rhou, u]
  · simp [exact, flowFields, flowReading, flowInterp, ofData, rhou]

/-- The fourth order scheme: on all grids, with spacings `δ` at most `h`, the right hand side of the momentum equation computed from the sampled fields, a fourth order formula of fluxes plus a mixed viscous derivative, is within `C h^4` of
`-(rhou u + p)_x + Re^-1 u_xy`. -/
example : ∃ C : ℝ, ∀ (np : Fin 2 → ℤ) (δ : E 2) (h : ℝ), (∀ d, 0 < δ d ∧ δ d ≤ h) → 0 ≤ h → h ≤ 1 → ∀ (x₀ : E 2) (full : String → P 2 → ℝ),
    let I : Interp 2 := { flowInterp with cd := fun d k f x => Central.discretise 4 k (δ d) (fun y => f (Function.update x d y)) (x d) }
    let U := flowFields 3
    Consistent (flowOn np) I (fun _ _ => 0) (fun j x => U (flow.sol j) (pos x₀ δ x)) full → ∀ x, Grid np x →
      |(flow.rhs 1).eval I (memOf full) x -
        (-1 * pd 0 (fun x => U "rhou" x * U "u" x + U "p" x) (pos x₀ δ x) + 3⁻¹ * pd 0 (pd 1 (U "u")) (pos x₀ δ x))| ≤ C * h ^ 4 := by
  have ht : TameEx flowReading (fun _ : Unit => ofData (flowFields 3)) (flow.rhs 1) := by
    have hd : ∀ s, Tame (fun _ : Unit => ofData (flowFields 3) (.data s)) := fun s => flowFields_tame 3 s
    refine ⟨⟨trivial, .inl rfl, ⟨hd _, hd _⟩, hd _⟩, .inl ⟨rfl, rfl, ?_⟩, .inl rfl, .inl rfl, hd _⟩
    exact tame_const (flowReading.pow (flowReading.const "Re") ((-1 : ℚ) : ℝ))
  obtain ⟨C, hC⟩ := C87_right_hand_sides (n := 2) 2 (by norm_num) flowReading (fun _ : Unit => flowFields 3) (flow.rhs 1) ht
  refine ⟨C, ?_⟩
  intro np δ h hδ h0 h1 x₀ full I U hfull x hx
  obtain ⟨ks, hks⟩ := flowOn_spatial np
  have := hC (flowOn np) 1 I δ h ks (fun _ _ => 0) () x₀ (fun j x => U (flow.sol j) (pos x₀ δ x)) full (flowOn_valid np) hks flow_closed rfl (by decide) rfl
    (fun _ _ => ⟨fun _ _ => rfl, rfl, rfl, rfl, rfl⟩) (fun d k f x => rfl) hδ h0 h1 (flowFields_satisfies np) (fun _ _ _ => rfl) hfull x hx
  have e : exact flowReading (ofData (flowFields 3)) (flow.rhs 1) (pos x₀ δ x) =
      -1 * pd 0 (fun x => U "rhou" x * U "u" x + U "p" x) (pos x₀ δ x) + 3⁻¹ * pd 0 (pd 1 (U "u")) (pos x₀ δ x) := by
    simp [flow, exact, flowReading, flowInterp, ofData, U, rhou, u, p]
  rw [← e]
  exact this

end OpenSBLI.Order
