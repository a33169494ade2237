import Verif.Props.C97_Examples

/-!
# C97: contact waves with Roe averages

The equations of apps/euler_wave, solved with `RoeAverage` in place of `SimpleAverage`.
-/
namespace OpenSBLI.Sim
open EulerWave
open scoped Matrix

/-- The problem of apps/euler_wave (Model/EulerWave.lean) with `Avg = RoeAverage([0, 1])` (averaging.py 69-112) in place of the simple average; `g` is the ratio of specific heats, which the average takes from the constant `gama` (averaging.py 102). -/
noncomputable def eulerWaveRoe (g : ℝ) : Shock 2 4 := { eulerWave with avg := roeAvg 2 g, avgReads := roeReads 2 }

theorem roe_symbols : ∀ d, ∀ u ∈ ["rho", "p", "rhoE", "u0", "u1"], u ∈ eulerWave.symbols d := by decide +kernel

theorem eulerWaveRoe_core (g : ℝ) : (eulerWaveRoe g).Core where
  relations := eulerWave_core.relations
  dirs := eulerWave_core.dirs
  dirsNodup := eulerWave_core.dirsNodup
  scheme := eulerWave_core.scheme
  groups := eulerWave_core.groups
  conv := eulerWave_core.conv
  vcdsNodup := eulerWave_core.vcdsNodup
  vcdsMem := eulerWave_core.vcdsMem
  visc := eulerWave_core.visc
  rhsPlain := eulerWave_core.rhsPlain
  rhsSteady := eulerWave_core.rhsSteady
  restShape := eulerWave_core.restShape
  coef := eulerWave_core.coef
  flux := eulerWave_core.flux
  ev := eulerWave_core.ev
  lev := eulerWave_core.lev
  rev := eulerWave_core.rev
  avgLocal := C78_roe_average_reads 2 g
  avgRead := fun d hd i j t ht u hu => by
    have ht' : t ∈ eulerWave.symbols d := flux_symbol (C := eulerWave) (i := i) (.inr (.inr ⟨j, List.mem_append.1 ht⟩))
    have hu' : u = t ∨ u ∈ ["rho", "p", "rhoE", "u0", "u1"] := by
      have : u ∈ roeReads 2 t := hu
      have e0 : (List.finRange 2).map (fun i : Fin 2 => s!"u{i.val}") = ["u0", "u1"] := by decide
      rw [roeReads, e0] at this
      simpa using this
    rcases hu' with rfl | h
    · exact .inl ht'
    · exact .inl (roe_symbols d u h)
  halos := eulerWave_core.halos

theorem eulerWaveRoe_valid (g : ℝ) : (eulerWaveRoe g).Valid := ⟨eulerWaveRoe_core g, eulerWave_valid.2⟩

/-- The square root weighted mean of two equal values. -/
theorem roe_mean_same {s t : ℝ} (hs : 0 < s) (ht : 0 < t) (u : ℝ) : (s * u + t * u) / (s + t) = u := by
  have : s + t ≠ 0 := by positivity
  field_simp

/-- States of velocity `U` and pressure `q` are carried with this velocity, with Roe averages too. -/
theorem eulerWaveRoe_carries {I : Interp 2} (hp : RealPowers I) {U : Fin 2 → ℝ} {q : ℝ} (hg : 1 < I.const "gama") (hq : 0 < q) :
    Carries (eulerWaveRoe (I.const "gama")) I U (moving U) (resting (I.const "gama") q) (pressing U q) fun _ => 0 where
  flux := fun hf => (eulerWave_carries hp hg hq).flux hf
  ev := fun hf => (eulerWave_carries hp hg hq).ev hf
  vectors := fun {init v f} hf y z ρ ρ' hρ hρ' hy hz d _ x => by
    obtain ⟨e0, -, -, e3, e4, e5, e6, -⟩ := eulerWave_point hp hg.ne' hf hρ hy
    obtain ⟨e0', -, -, e3', e4', e5', e6', -⟩ := eulerWave_point hp hg.ne' hf hρ' hz
    intro mean
    have hg1 : 0 < I.const "gama" - 1 := by linarith
    obtain ⟨r1, r2, r3, -⟩ := C78_roe_average 2 (I.const "gama") (fun s => f s y) (fun s => f s z)
    have hs := Real.sqrt_pos.2 hρ
    have hs' := Real.sqrt_pos.2 hρ'
    have m0 : mean (.data "rho") x = Real.sqrt (ρ * ρ') := by
      refine Eq.trans r1 ?_
      simp only [e0, e0']
    have m4 : mean (.data "u0") x = U 0 := by
      refine Eq.trans (r2 0) ?_
      simp only [e0, e0', show s!"u{(0 : Fin 2).val}" = "u0" by decide, e4, e4']
      exact roe_mean_same hs hs' _
    have m5 : mean (.data "u1") x = U 1 := by
      refine Eq.trans (r2 1) ?_
      simp only [e0, e0', show s!"u{(1 : Fin 2).val}" = "u1" by decide, e5, e5']
      exact roe_mean_same hs hs' _
    have m7 : 0 < mean (.data "a") x := by
      refine lt_of_lt_of_eq ?_ r3.symm
      refine Real.sqrt_pos.2 (mul_pos hg1 ?_)
      simp only [Fin.sum_univ_two, show s!"u{(0 : Fin 2).val}" = "u0" by decide, show s!"u{(1 : Fin 2).val}" = "u1" by decide, e0, e0', e3, e3', e4, e4', e5, e5', e6, e6', roe_mean_same hs hs']
      have hk : ∀ σ : ℝ, 0 < σ → (q + (q / (I.const "gama" - 1) + σ * ((U 0 ^ 2 + U 1 ^ 2) / 2))) / σ = (q + q / (I.const "gama" - 1)) / σ + (U 0 ^ 2 + U 1 ^ 2) / 2 := fun σ hσ => by
        field_simp
        ring
      rw [hk ρ hρ, hk ρ' hρ']
      have h1 : 0 < (q + q / (I.const "gama" - 1)) / ρ := by positivity
      have h2 : 0 < (q + q / (I.const "gama" - 1)) / ρ' := by positivity
      rw [mul_add, mul_add, add_add_add_comm, add_div, roe_mean_same hs hs', add_sub_cancel_right]
      positivity
    have hρm : 0 < Real.sqrt (ρ * ρ') := Real.sqrt_pos.2 (mul_pos hρ hρ')
    have hl : (Matrix.of fun i j => (eulerWave.lev d i j).eval I mean x) = Euler.lev2 (I.const "gama") (Real.sqrt (ρ * ρ')) (mean (.data "a") x) (U 0) (U 1) (unit d 0) (unit d 1) := by
      ext i j
      rw [← m0, ← m4, ← m5]
      exact (eulerWave_vectors hp mean x d i j).1
    have hr : (Matrix.of fun i j => (eulerWave.rev d i j).eval I mean x) = Euler.rev2 (I.const "gama") (Real.sqrt (ρ * ρ')) (mean (.data "a") x) (U 0) (U 1) (unit d 0) (unit d 1) := by
      ext i j
      rw [← m0, ← m4, ← m5]
      exact (eulerWave_vectors hp mean x d i j).2
    have hinv := Euler.C16_inverse_2d (I.const "gama") (Real.sqrt (ρ * ρ')) (mean (.data "a") x) (U 0) (U 1) (unit d 0) (unit d 1) hg.ne' hρm.ne' m7.ne' (by fin_cases d <;> simp [unit])
    change (Matrix.of fun i j => (eulerWave.lev d i j).eval I mean x) *ᵥ _ = _ ∧ (Matrix.of fun i j => (eulerWave.rev d i j).eval I mean x) * (Matrix.of fun i j => (eulerWave.lev d i j).eval I mean x) = 1
    rw [hl, hr]
    refine ⟨?_, hinv.2⟩
    have hcol : moving U = (Euler.rev2 (I.const "gama") (Real.sqrt (ρ * ρ')) (mean (.data "a") x) (U 0) (U 1) (unit d 0) (unit d 1)) *ᵥ Pi.single 0 1 := by
      rw [Matrix.mulVec_single_one]
      have hg1 : I.const "gama" - 1 ≠ 0 := sub_ne_zero.2 hg.ne'
      funext i
      fin_cases i <;> simp [moving, Euler.rev2]
      field_simp
    rw [hcol, Matrix.mulVec_mulVec, hinv.1, Matrix.one_mulVec]
  coef := fun d hd i m x => (eulerWave_carries hp (U := U) hg hq).coef d hd i m x
  rhs := fun i m x => (eulerWave_carries hp (U := U) hg hq).rhs i m x

/-- C97: gas at rest with uniform pressure stays as it is with Roe averages too, whatever the densities. -/
theorem C97_gas_at_rest_roe {pts : Ranges.Kernel 2 → List (P 2)} {I : Interp 2} {inp : Alg.Input (Call 2)} {prg : List (Alg.Node (Call 2))} (hP : ShockProgram (eulerWaveRoe (I.const "gama")) .rk I pts inp prg) (hp : RealPowers I)
    (hg : 1 < I.const "gama") (hst : inp.stages = 3) (hnew : I.table "rknew" = [2/3, 5/12, 3/5]) (hold : I.table "rkold" = [1/4, 3/20, 3/5]) (m : Mem 2) (q : ℝ) (hq : 0 < q) (ρ : P 2 → ℝ) (hρ : ∀ x, Grid ![400, 400] x → 0 < ρ x)
    (hm : ∀ x, Grid ![400, 400] x → let start := atStart I pts eulerWave.sol eulerWave.exchange inp m
      start (.data "rho") x = ρ x ∧ start (.data "rhou0") x = 0 ∧ start (.data "rhou1") x = 0 ∧ start (.data "rhoE") x = q / (I.const "gama" - 1)) (x : P 2) (hx : Grid ![400, 400] x) :
    let final := Alg.effect (exec I pts eulerWave.sol eulerWave.exchange) (Alg.runProgram prg) m
    final (.data "rho") x = ρ x ∧ final (.data "rhou0") x = 0 ∧ final (.data "rhou1") x = 0 ∧ final (.data "rhoE") x = q / (I.const "gama" - 1) := by
  have h := C97_at_rest hP (eulerWaveRoe_carries hp (U := 0) hg hq) (by simp [eulerWaveRoe, eulerWave]) eulerWave_reach hst hnew hold m ρ hρ (fun i y hy => by
    obtain ⟨e0, e1, e2, e3⟩ := hm y hy
    fin_cases i
    · refine Eq.trans e0 ?_; simp [resting, moving]
    · refine Eq.trans e1 ?_; simp [resting, moving]
    · refine Eq.trans e2 ?_; simp [resting, moving]
    · refine Eq.trans e3 ?_; simp [resting, moving])
  intro final
  refine ⟨Eq.trans (h 0 x hx) ?_, Eq.trans (h 1 x hx) ?_, Eq.trans (h 2 x hx) ?_, Eq.trans (h 3 x hx) ?_⟩ <;> simp [resting, moving]

theorem eulerWaveRoe_spatial (g : ℝ) : ∃ cs, (eulerWaveRoe g).spatial = .ok cs := by
  have h : eulerWave.relOrder = .ok ["u0", "u1", "p", "a"] := by decide +kernel
  unfold Shock.spatial
  rw [if_neg (eulerWaveRoe_core g).dirs, show (eulerWaveRoe g).relOrder = _ from h]
  exact ⟨_, rfl⟩

/-- The algorithm with Roe averages, for any number of steps. -/
noncomputable def roeInput (niter : ℤ) : Alg.Input (Call 2) :=
  { eulerWaveInput with items := [.simulation (((eulerWaveRoe (7/5)).startKernels .rk).map .comp) [] (((eulerWaveRoe (7/5)).advanceKernels .rk).map .comp) [.bc] (eulerWaveRoe_spatial (7/5)).choose], niter := niter }

/-- The bubble of heavy gas stays where it is with Roe averages, for any number of steps. -/
example (pts : Ranges.Kernel 2 → List (P 2)) (hp : Enumerates pts) (niter : ℤ) : ∃ prg, Alg.generate (roeInput niter) = .ok prg ∧
    let m : Mem 2 := fun a x => if a = .data "rho" then bubble x else if a = .data "rhoE" then 5/2 else 0
    ∀ x, Grid ![400, 400] x → Alg.effect (exec eulerWaveInterp pts eulerWave.sol eulerWave.exchange) (Alg.runProgram prg) m (.data "rho") x = bubble x := by
  have hg : ∃ prg, Alg.generate (roeInput niter) = .ok prg := by
    simp [Alg.generate, roeInput, eulerWaveInput, Alg.Acc.add, Alg.sortByOrder]
    exact ⟨_, rfl⟩
  obtain ⟨prg, hg⟩ := hg
  have hP : ShockProgram (eulerWaveRoe (7/5)) .rk eulerWaveInterp pts (roeInput niter) prg := by
    refine ⟨eulerWaveRoe_valid _, hp, central_local eulerWave_meant.central, _, (eulerWaveRoe_spatial (7/5)).choose_spec, ⟨[], [], rfl, by simp, by simp⟩, ?_, hg⟩
    intro o places k h
    simp [roeInput] at h
  refine ⟨prg, hg, ?_⟩
  intro m x hx
  have hs : atStart eulerWaveInterp pts eulerWave.sol eulerWave.exchange (roeInput niter) m = m := by
    simp [atStart, roeInput, Alg.others, Alg.sortByOrder, Alg.placedAt, Alg.calls, Alg.effect]
  refine (C97_gas_at_rest_roe (I := eulerWaveInterp) (by rw [eulerWave_meant.gama]; exact hP) eulerWave_meant.powers (by rw [eulerWave_meant.gama]; norm_num) rfl eulerWave_meant.new eulerWave_meant.old m 1 one_pos bubble (fun y _ => by unfold bubble; split_ifs <;> norm_num) (fun y _ => ?_) x hx).1
  rw [hs, eulerWave_meant.gama]
  refine ⟨by simp [m], by simp [m], by simp [m], by simp [m]; norm_num⟩

end OpenSBLI.Sim
