import Verif.Props.C89_TimeOrder
import Verif.Props.C05_Linear4
import Verif.Lemmas.TimeOrder4

/-!
# C89: the low storage scheme of order four on nonlinear equations

With the decimals of the source, which satisfy the conditions of order four up to 10⁻¹³ only. A bound `C (dt⁴ + 10⁻¹³)` says nothing when `C` may depend on the scheme, so the constants
are first given for all methods, and then used for this one.
-/
namespace OpenSBLI.TimeOrder
open Spec

variable {V : Type} [NormedAddCommGroup V] [NormedSpace ℝ V] [FiniteDimensional ℝ V]

/-- C89: every nonlinear system with a four times differentiable right hand side has constants with which all explicit methods that satisfy the conditions of order four up to a small `η`
approximate its solution up to `C (dt⁴ + η)`. -/
theorem C89_order_four (s : ℕ) (σ : ℝ) (hσ : 0 ≤ σ) {F : V → V} {Ω : Set V} (hF : SmoothOn4 F Ω) {y : ℝ → V} {time : ℝ} (hy : SolvesODE F Ω y time) :
    ∃ C h₀ η₀, 0 < h₀ ∧ 0 < η₀ ∧ FourthOrderUpTo s σ F y time C h₀ η₀ := by
  obtain ⟨ε, hε, hy⟩ := hy
  exact converges4 s σ hσ hF.isOpen hF.smooth hε hy

/-- C89: so it is for every `η` when the right hand side is Lipschitz continuous. -/
theorem C89_order_four_lipschitz (s : ℕ) (σ : ℝ) (hσ : 0 ≤ σ) {F : V → V} {Ω : Set V} (hF : SmoothOn4 F Ω) {L : ℝ} (hL : ∀ v w, ‖F v - F w‖ ≤ L * ‖v - w‖) {y : ℝ → V} {time : ℝ} (hy : SolvesODE F Ω y time) :
    ∃ C h₀, 0 < h₀ ∧ ∀ η₀, FourthOrderUpTo s σ F y time C h₀ η₀ := by
  obtain ⟨ε, hε, hy⟩ := hy
  obtain ⟨C, h₀, h1, h2⟩ := converges4_lipschitz s σ hσ hF.isOpen hF.smooth (abs_nonneg L) (fun v w => (hL v w).trans (mul_le_mul_of_nonneg_right (le_abs_self L) (norm_nonneg _))) hε hy
  exact ⟨C, h₀, h1, fun _ T η hT hσ hη _ => h2 T η hT hσ hη⟩

omit [FiniteDimensional ℝ V] in
/-- C89: the steps of the low storage scheme of order four are those of an explicit method of five stages that satisfies the conditions of order four up to 10⁻¹³ and whose coefficients add up to at most 6. -/
theorem C89_ls4_method : ∃ T : Tableau ℝ 5, T.explicit ∧ (∑ i, ∑ j, |T.A i j|) + ∑ i, |T.b i| ≤ 6 ∧ NearOrder4 T (1/10^13) ∧
    ∀ (F : V → V) (dt : ℝ) (r : RK.LSState V), ∃ k, T.IsSlopes F id dt r.u k ∧ (RK.lsStep RK.lsA4R RK.lsB4R F id dt r).u = T.result id dt r.u k := by
  refine ⟨RK.tabReal4, by rw [RK.tabReal4_eq]; exact RK.lsTab5_explicit _ _ _ _ _ _ _ _ _, ?_, ?_, fun F dt r => ?_⟩
  · have h : (∑ i, ∑ j, |RK.tabLS4.A i j|) + ∑ i, |RK.tabLS4.b i| ≤ 6 := by decide +kernel
    have h' : (((∑ i, ∑ j, |RK.tabLS4.A i j|) + ∑ i, |RK.tabLS4.b i| : ℚ) : ℝ) ≤ ((6 : ℚ) : ℝ) := Rat.cast_le.2 h
    push_cast at h'
    exact h'
  · obtain ⟨h1, h2, h31, h32, h41, h42, h43, h44⟩ : |RK.tabLS4.t1| ≤ 1/10^13 ∧ |RK.tabLS4.t2| ≤ 1/10^13 ∧ |RK.tabLS4.t31| ≤ 1/10^13 ∧ |RK.tabLS4.t32| ≤ 1/10^13 ∧
      |RK.tabLS4.t41| ≤ 1/10^13 ∧ |RK.tabLS4.t42| ≤ 1/10^13 ∧ |RK.tabLS4.t43| ≤ 1/10^13 ∧ |RK.tabLS4.t44| ≤ 1/10^13 := by decide +kernel
    have key : ∀ (q : ℚ) (x : ℝ), |q| ≤ 1/10^13 → x = q → |x| ≤ 1/10^13 := by
      rintro q x hq rfl
      have : ((|q| : ℚ) : ℝ) ≤ ((1/10^13 : ℚ) : ℝ) := Rat.cast_le.2 hq
      push_cast at this
      exact this
    refine ⟨key _ _ h1 ?_, key _ _ h2 ?_, key _ _ h31 ?_, key _ _ h32 ?_, key _ _ h41 ?_, key _ _ h42 ?_, key _ _ h43 ?_, key _ _ h44 ?_⟩ <;>
      simp only [Tableau.t1, Tableau.t2, Tableau.t31, Tableau.t32, Tableau.t41, Tableau.t42, Tableau.t43, Tableau.t44, Tableau.AAc, Tableau.Ac, Tableau.Ac2, Tableau.c, RK.tabReal4] <;> push_cast <;> rfl
  · have hA : RK.lsA4R = [0, -4178904745/10^10, -1192151694643/10^12, -1697784692471/10^12, -1514183444257/10^12] := by
      simp only [RK.lsA4R, RK.lsA4, List.map_cons, List.map_nil]; push_cast; rfl
    have hB : RK.lsB4R = [1496590219993/10^13, 3792103129999/10^13, 8229550293869/10^13, 6994504559488/10^13, 1530572479681/10^13] := by
      simp only [RK.lsB4R, RK.lsB4, List.map_cons, List.map_nil]; push_cast; rfl
    rw [hA, hB, RK.tabReal4_eq]
    exact RK.lsStep5_is_RK _ _ _ _ _ _ _ _ _ F dt r

omit [FiniteDimensional ℝ V] in
/-- C89: the low storage scheme of order four approximates solutions of nonlinear systems up to `C (dt⁴ + 10⁻¹³)`, with the constants of the problem, whatever its register held. -/
theorem C89_low_storage4 {F : V → V} {y : ℝ → V} {time C h₀ η₀ : ℝ} (hC : FourthOrderUpTo 5 6 F y time C h₀ η₀) (hη : 1/10^13 ≤ η₀) {dt : ℝ} (d0 : 0 ≤ dt) (d1 : dt ≤ h₀) (r : RK.LSState V) (hr : r.u = y 0) (k : ℕ) (hk : k * dt ≤ time) :
    ‖(RK.lsRun RK.lsA4R RK.lsB4R F id dt k r).u - y (k * dt)‖ ≤ C * (dt ^ 4 + 1/10^13) := by
  obtain ⟨T, hT, hσ, hN, hst⟩ := C89_ls4_method (V := V)
  refine hC T _ hT hσ hN hη dt d0 d1 (fun k => (RK.lsRun RK.lsA4R RK.lsB4R F id dt k r).u) hr (fun n => ?_) k hk
  rw [RK.lsRun_succ']
  exact hst F dt _

/-- A pendulum with friction, `θ'' = - sin θ - θ'/10`, is such a system: with constants for all methods, the error of the scheme of order four is at most `C (dt⁴ + 10⁻¹³)`. -/
example {y : ℝ → ℝ × ℝ} {time : ℝ} (hy : SolvesODE (fun v : ℝ × ℝ => (v.2, - Real.sin v.1 - v.2 / 10)) Set.univ y time) :
    ∃ C h₀, 0 < h₀ ∧ (∀ η₀, FourthOrderUpTo 5 6 (fun v : ℝ × ℝ => (v.2, - Real.sin v.1 - v.2 / 10)) y time C h₀ η₀) ∧
      ∀ dt, 0 ≤ dt → dt ≤ h₀ → ∀ r : RK.LSState (ℝ × ℝ), r.u = y 0 → ∀ k : ℕ, k * dt ≤ time → ‖(RK.lsRun RK.lsA4R RK.lsB4R (fun v : ℝ × ℝ => (v.2, - Real.sin v.1 - v.2 / 10)) id dt k r).u - y (k * dt)‖ ≤ C * (dt ^ 4 + 1/10^13) := by
  have hL : ∀ v w : ℝ × ℝ, ‖(v.2, - Real.sin v.1 - v.2 / 10) - (w.2, - Real.sin w.1 - w.2 / 10)‖ ≤ 2 * ‖v - w‖ := by
    intro v w
    have e1 : ‖v.1 - w.1‖ ≤ ‖v - w‖ := norm_fst_le (v - w)
    have e2 : ‖v.2 - w.2‖ ≤ ‖v - w‖ := norm_snd_le (v - w)
    have e3 : ‖Real.sin v.1 - Real.sin w.1‖ ≤ ‖v.1 - w.1‖ := by
      have := Real.abs_sin_sub_sin_le v.1 w.1
      simpa using this
    rw [Real.norm_eq_abs] at e1 e2
    rw [Real.norm_eq_abs, Real.norm_eq_abs] at e3
    rw [Prod.mk_sub_mk, Prod.norm_mk]
    refine max_le ?_ ?_
    · rw [Real.norm_eq_abs]; linarith [norm_nonneg (v - w)]
    · rw [Real.norm_eq_abs]
      have h := abs_add_le (-(Real.sin v.1 - Real.sin w.1)) (-(v.2 - w.2) / 10)
      rw [abs_neg, abs_div, abs_neg, abs_of_pos (by norm_num : (0:ℝ) < 10)] at h
      have e : -Real.sin v.1 - v.2 / 10 - (-Real.sin w.1 - w.2 / 10) = -(Real.sin v.1 - Real.sin w.1) + -(v.2 - w.2) / 10 := by ring
      rw [e]
      linarith [abs_nonneg (v.2 - w.2)]
  obtain ⟨C, h₀, h1, h2⟩ := C89_order_four_lipschitz 5 6 (by norm_num) ⟨isOpen_univ, ContDiff.contDiffOn (by fun_prop)⟩ hL hy
  exact ⟨C, h₀, h1, h2, fun dt d0 d1 r hr k hk => C89_low_storage4 (h2 (1/10^13)) le_rfl d0 d1 r hr k hk⟩

end OpenSBLI.TimeOrder

namespace OpenSBLI.Sim
open Spec TimeOrder Alg

variable {D n : ℕ}

/-- C89: the right hand sides of a problem the code accepts have four derivatives where the powers and functions in them and in the constituent relations have. -/
theorem C89_smooth4 {S : Setup D n} (hS : S.Valid) {ks : List (Ker D)} (hks : S.spatial = .ok ks) {I : Interp D} {δ : Fin D → ℝ} (hI : IsCentral S I δ) (hn : ∀ d, S.h ≤ S.np d) {init : String → P D → ℝ}
    {full : Sol D n → String → P D → ℝ} (hfull : ∀ q, Consistent S I init q (full q)) (q0 : Sol D n) {Ω : Set (GridSol S.np n)} (hΩ : IsOpen Ω)
    (hp : ∀ e, ((∃ i, e = S.rhs i) ∨ ∃ s, (s, e) ∈ S.rel) → PowersSmooth 4 I (fun u : GridSol S.np n => memOf (full (complete S.np (exchange S.np S.h) q0 u))) Ω e) :
    SmoothOn4 (onGridValues S.np (fun q i x => (S.rhs i).eval I (memOf (full q)) x) (exchange S.np S.h) q0) Ω := by
  obtain ⟨order, hord⟩ := spatial_order hks
  refine ⟨hΩ, contDiffOn_pi.2 fun i => contDiffOn_pi.2 fun x => ?_⟩
  show ContDiffOn ℝ 4 (fun u : GridSol S.np n => (S.rhs i).eval I (memOf (full (complete S.np (exchange S.np S.h) q0 u))) x.1) Ω
  refine eval_smooth hI _ (fun a ha y => ?_) (hp _ (.inl ⟨i, rfl⟩)) x.1
  obtain ⟨s, rfl⟩ := (hS.rhsPlain i).1 a ha
  exact datasets_smooth hS.relations hI hord (fun u => hfull _) (exchange_smooth (Int.natCast_nonneg _) hn q0 Ω) (fun s e h => hp e (.inr ⟨s, h⟩)) s (rhs_required hS i s ((mem_datas _ s).2 ha)) y

/-- C89: so do simulations with that scheme. -/
theorem C89_simulation_ls4 {np : Fin D → ℤ} {h : ℤ} (hh : 0 ≤ h) {F B : Sol D n → Sol D n} (hB : FillsHalos np h B) (s0 : TState D n) {y : ℝ → GridSol np n} {time C h₀ η₀ : ℝ}
    (hC : FourthOrderUpTo 5 6 (onGridValues np F B s0.q) y time C h₀ η₀) (hη : 1/10^13 ≤ η₀) (h0 : restrict np s0.q = y 0) {dt : ℝ} (d0 : 0 ≤ dt) (d1 : dt ≤ h₀) (k : ℕ) (hk : k * dt ≤ time) :
    ‖restrict np ((lsStep np F B dt (RK.lsA4R.zip RK.lsB4R))^[k] s0).q - y (k * dt)‖ ≤ C * (dt ^ 4 + 1/10^13) := by
  rw [C77_grid_values_ls hh hB F dt RK.lsA4R RK.lsB4R s0 ⟨restrict np s0.q, restrict np s0.aux, restrict np s0.q⟩ rfl rfl k]
  exact C89_low_storage4 hC hη d0 d1 _ h0 k hk

/-- C89: and the printed program of the scheme of order four, at the end and in the files with a number. Partial: as C85. -/
theorem C89_text_ls4_partial {S : Setup D n} {G : GridSol S.np n → GridSol S.np n} {y : ℝ → GridSol S.np n} {time C h₀ η₀ : ℝ} (hC : FourthOrderUpTo 5 6 G y time C h₀ η₀) (hη : 1/10^13 ≤ η₀)
    {T : Text D} {U : Arr → Prop} {pts : Ranges.Kernel D → List (P D)} {inp : Input (Call D)} {prg : List (Node (Call D))} {B : Sol D n → Sol D n} {a : Arrays D} {full : Sol D n → String → P D → ℝ}
    (hS : T.Suits S .lowStorage inp U) (hP : Program S .lowStorage (T.meaning (T.const prg) 0) pts inp prg) (hst : inp.stages = 5) (hA : T.table "rkA" = RK.lsA4R) (hB4 : T.table "rkB" = RK.lsB4R) (hB : FillsHalos S.np S.h B)
    (hfull : ∀ q, Consistent S (T.meaning (T.const prg) 0) (fun s => T.startState S prg pts B inp a (.data s)) q (full q))
    (hF : onGridValues S.np (fun q i x => (S.rhs i).eval (T.meaning (T.const prg) 0) (memOf (full q)) x) B (stateOf S (T.startState S prg pts B inp a)).q = G)
    (h0 : restrict S.np (stateOf S (T.startState S prg pts B inp a)).q = y 0) (d0 : 0 ≤ T.const prg "dt") (d1 : T.const prg "dt" ≤ h₀) (htime : inp.niter.toNat * T.const prg "dt" ≤ time) :
    let near (a' : Arrays D) (t : ℝ) := ∀ i x (hx : Grid S.np x), |a' (T.names (.data (S.sol i))) x - y t i ⟨x, hx⟩| ≤ C * (T.const prg "dt" ^ 4 + 1/10^13)
    (∃ a', T.run prg pts S.sol B (runProgram prg) a = some a' ∧ near a' (inp.niter.toNat * T.const prg "dt")) ∧
    ∀ before after o (k : ℤ) e, runProgram prg = before ++ .write o (some k) e :: after → ∃ a', T.run prg pts S.sol B before a = some a' ∧ near a' (k * T.const prg "dt") := by
  intro near
  set dt := T.const prg "dt" with hdt
  set s0 := stateOf S (T.startState S prg pts B inp a) with hs0
  have key : ∀ k : ℕ, k * dt ≤ time → ∀ i x (hx : Grid S.np x),
      |((lsStep S.np (fun q i x => (S.rhs i).eval (T.meaning (T.const prg) 0) (memOf (full q)) x) B dt (RK.lsA4R.zip RK.lsB4R))^[k] s0).q i x - y (k * dt) i ⟨x, hx⟩| ≤ C * (dt ^ 4 + 1/10^13) := by
    intro k hk i x hx
    have h1 := C89_simulation_ls4 (Int.natCast_nonneg _) hB s0 (F := fun q i x => (S.rhs i).eval (T.meaning (T.const prg) 0) (memOf (full q)) x) (by rw [hF]; exact hC) hη h0 d0 d1 k hk
    exact (norm_le_pi_norm _ (⟨x, hx⟩ : Order.GP S.np)).trans ((norm_le_pi_norm _ i).trans h1)
  obtain ⟨⟨a', r1, r2⟩, r3⟩ := C85_ls_partial hS hP RK.lsA4R RK.lsB4R rfl (by rw [hst]; rfl) hA hB4 B a full hfull
  refine ⟨⟨a', r1, fun i x hx => ?_⟩, fun before after o k e he => ?_⟩
  · rw [r2 i]
    exact key _ htime i x hx
  · obtain ⟨j, j1, j2, j3, a', s1, s2⟩ := r3 before after o k e he
    refine ⟨a', s1, fun i x hx => ?_⟩
    rw [s2 i, ← j1]
    refine key j (le_trans (mul_le_mul_of_nonneg_right ?_ d0) htime) i x hx
    exact_mod_cast j3

end OpenSBLI.Sim
