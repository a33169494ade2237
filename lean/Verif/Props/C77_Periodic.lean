import Verif.Props.C77_Program
import Verif.Props.C24_C31_C35_Ranges
import Verif.Props.C18_C20_Central
import Verif.Props.C03_C05_RungeKutta
import Mathlib.Algebra.BigOperators.Ring.Finset
import Mathlib.Algebra.BigOperators.Group.Finset.Sigma

/-!
# C77: Runge-Kutta iterates, conservation and uniform flow for periodic boxes
-/
namespace OpenSBLI.Sim

variable {D n : ℕ}

/-! ## Boundary conditions filling the halos -/

/-- The points of the grid and of all halos. -/
def Allocated (np : Fin D → ℤ) (h : ℤ) (x : P D) : Prop := ∀ d, -h ≤ x d ∧ x d < np d + h

/-- Boundary conditions which compute the halo points from the grid points. -/
structure FillsHalos (np : Fin D → ℤ) (h : ℤ) (B : Sol D n → Sol D n) : Prop where
  keeps : ∀ v i x, Grid np x → B v i x = v i x
  outside : ∀ v i x, ¬ Allocated np h x → B v i x = v i x
  halo : ∀ v v', (∀ i x, Grid np x → v i x = v' i x) → ∀ i x, Allocated np h x → B v i x = B v' i x

/-- Values on the grid. -/
abbrev GridSol (np : Fin D → ℤ) (n : ℕ) := Fin n → {x : P D // Grid np x} → ℝ

def restrict (np : Fin D → ℤ) (v : Sol D n) : GridSol np n := fun i x => v i x.1

open Classical in
/-- A solution with the given values on the grid, completed by the boundary conditions. -/
noncomputable def complete (np : Fin D → ℤ) (B : Sol D n → Sol D n) (q0 : Sol D n) (u : GridSol np n) : Sol D n :=
  B fun i x => if h : Grid np x then u i ⟨x, h⟩ else q0 i x

theorem restrict_bc {np : Fin D → ℤ} {h : ℤ} {B : Sol D n → Sol D n} (hB : FillsHalos np h B) (v : Sol D n) : restrict np (B v) = restrict np v := by
  funext i x
  exact hB.keeps v i x.1 x.2

theorem complete_eq {np : Fin D → ℤ} {h : ℤ} {B : Sol D n → Sol D n} (hB : FillsHalos np h B) (q0 v : Sol D n) (hv : ∀ i x, ¬ Allocated np h x → v i x = q0 i x) :
    B v = complete np B q0 (restrict np v) := by
  funext i x
  unfold complete
  by_cases hx : Allocated np h x
  · refine hB.halo _ _ (fun i x hx => ?_) i x hx
    rw [dif_pos hx]; rfl
  · rw [hB.outside _ _ _ hx, hB.outside _ _ _ hx, hv i x hx]
    split
    · rename_i hg; exact (hv i x hx).symm
    · rfl

/-- C77: with such boundary conditions the values on the grid are those of the Runge-Kutta method of `Model/RungeKutta.lean`, the subject of C03-C05, applied to the right hand sides as functions of the values on the grid. -/
theorem C77_grid_values {np : Fin D → ℤ} {h : ℤ} (hh : 0 ≤ h) {B : Sol D n → Sol D n} (hB : FillsHalos np h B) (F : Sol D n → Sol D n) (dt : ℝ) (s0 : TState D n) (r0 : RK.State (GridSol np n))
    (hr0 : r0.new = restrict np s0.q) (k : ℕ) :
    restrict np ((rkStep np F B dt [(2/3, 1/4), (5/12, 3/20), (3/5, 3/5)])^[k] s0).q =
      (RK.run (fun u => restrict np (F (complete np B s0.q u))) id dt k r0).new := by
  set G := fun u => restrict np (F (complete np B s0.q u)) with hG
  have hga : ∀ x, Grid np x → Allocated np h x := fun x hx d => by have := hx d; omega
  let Rel (s : TState D n) (r : RK.State (GridSol np n)) : Prop :=
    s.q = complete np B s0.q r.new ∧ restrict np s.q = r.new ∧ restrict np s.aux = r.old ∧ ∀ i x, ¬ Allocated np h x → s.q i x = s0.q i x
  -- one stage
  have stage : ∀ (s : TState D n) (r : RK.State (GridSol np n)) (a b : ℝ), Rel s r → Rel (rkStage np F B dt s (a, b)) (RK.stage G id dt (b, a) r) := by
    rintro s r a b ⟨h1, h2, h3, h4⟩
    have hF : ∀ i (x : {x : P D // Grid np x}), F s.q i x.1 = G r.new i x := fun i x => by rw [h1]; rfl
    set w : Sol D n := onGrid np (fun i x => s.aux i x + dt * a * F s.q i x) s.q with hw
    have hwo : ∀ i x, ¬ Allocated np h x → w i x = s0.q i x := by
      intro i x hx
      simp only [hw, onGrid]
      rw [if_neg fun hg => hx (hga x hg)]
      exact h4 i x hx
    have hwr : restrict np w = (RK.stage G id dt (b, a) r).new := by
      funext i x
      have : restrict np w i x = s.aux i x.1 + dt * a * F s.q i x.1 := by
        simp only [restrict, hw, onGrid]; rw [if_pos x.2]
      rw [this, hF, show s.aux i x.1 = r.old i x from congrFun (congrFun h3 i) x]
      simp [RK.stage, RK.boundary, RK.solutionUpdate, RK.stageUpdate, RK.spatial]
    have hq : (rkStage np F B dt s (a, b)).q = B w := rfl
    refine ⟨?_, ?_, ?_, fun i x hx => ?_⟩
    · rw [hq, complete_eq hB s0.q w hwo, hwr]
    · rw [hq, restrict_bc hB, hwr]
    · funext i x
      have : restrict np (rkStage np F B dt s (a, b)).aux i x = s.aux i x.1 + dt * b * F s.q i x.1 := by
        simp only [restrict, rkStage, onGrid]; rw [if_pos x.2]
      rw [this, hF, show s.aux i x.1 = r.old i x from congrFun (congrFun h3 i) x]
      simp [RK.stage, RK.boundary, RK.solutionUpdate, RK.stageUpdate, RK.spatial]
    · rw [hq, hB.outside _ _ _ hx]; exact hwo i x hx
  -- one step
  have step : ∀ (s : TState D n) (r : RK.State (GridSol np n)), restrict np s.q = r.new → (∀ i x, ¬ Allocated np h x → s.q i x = s0.q i x) →
      Rel (rkStep np F B dt [(2/3, 1/4), (5/12, 3/20), (3/5, 3/5)] s) (RK.step G id dt r) := by
    intro s r h1 h2
    have hstart : Rel { q := B s.q, aux := onGrid np (B s.q) s.aux } (RK.save (RK.boundary id r)) := by
      refine ⟨?_, ?_, ?_, fun i x hx => ?_⟩
      · change B s.q = complete np B s0.q r.new
        rw [complete_eq hB s0.q s.q h2, h1]
      · change restrict np (B s.q) = r.new
        rw [restrict_bc hB, h1]
      · funext i x
        change restrict np (onGrid np (B s.q) s.aux) i x = r.new i x
        simp only [restrict, onGrid]
        rw [if_pos x.2, hB.keeps _ _ _ x.2]
        exact congrFun (congrFun h1 i) x
      · change B s.q i x = _
        rw [hB.outside _ _ _ hx]; exact h2 i x hx
    exact stage _ _ _ _ (stage _ _ _ _ (stage _ _ _ _ hstart))
  have main : ∀ k, restrict np ((rkStep np F B dt [(2/3, 1/4), (5/12, 3/20), (3/5, 3/5)])^[k] s0).q = (RK.run G id dt k r0).new ∧
      ∀ i x, ¬ Allocated np h x → ((rkStep np F B dt [(2/3, 1/4), (5/12, 3/20), (3/5, 3/5)])^[k] s0).q i x = s0.q i x := by
    intro k
    induction k with
    | zero => exact ⟨hr0.symm, fun _ _ _ => rfl⟩
    | succ k ih =>
      rw [Function.iterate_succ_apply', RK.run_succ']
      obtain ⟨_, h2, _, h4⟩ := step _ _ ih.1 ih.2
      exact ⟨h2, h4⟩
  exact (main k).1

/-! ## Periodic boxes -/

/-- The exchanges of a block periodic in all directions, on every solution array. -/
def exchange (np : Fin D → ℤ) (h : ℤ) (v : Sol D n) : Sol D n := fun i => Ranges.exchangeAll np (fun _ => (-h, h)) (List.finRange D) (v i)

theorem exchange_image {np : Fin D → ℤ} {h : ℤ} (hh : 0 ≤ h) (hnp : ∀ d, h ≤ np d) (v : Sol D n) (i : Fin n) (x : P D) (hx : Allocated np h x) :
    exchange np h v i x = v i fun d => x d % np d := by
  unfold exchange
  rw [Ranges.C24_periodic_image np h h hh le_rfl (by omega) hnp _ _ x hx (List.nodup_finRange D)]
  congr 1
  funext d
  simp [Ranges.wrap]

theorem transfer_outside {α : Type} (np : Fin D → ℤ) (h : ℤ) (hh : 0 ≤ h) (d : Fin D) (hd : h ≤ np d) (side : Bool) (a : P D → α) (x : P D) (hx : ¬ Allocated np h x) :
    (Ranges.periodicTransfer np (fun _ => (-h, h)) d side).apply a x = a x := by
  unfold Ranges.Transfer.apply
  rw [if_neg]
  intro hin
  apply hx
  intro e
  have := hin e
  by_cases he : e = d
  · subst he
    cases side <;> simp [Ranges.periodicTransfer, abs_of_nonneg hh] at this <;> omega
  · simp [Ranges.periodicTransfer, he, abs_of_nonneg hh] at this
    omega

/-- The periodic exchange fills the halos. -/
theorem exchange_fills {np : Fin D → ℤ} {h : ℤ} (hh : 0 ≤ h) (hnp : ∀ d, h ≤ np d) : FillsHalos (n := n) np h (exchange np h) := by
  refine ⟨fun v i x hx => ?_, fun v i x hx => ?_, fun v v' hv i x hx => ?_⟩
  · exact Ranges.C24_interior_unchanged np h h hh le_rfl (by omega) hnp _ _ x hx (List.nodup_finRange D)
  · unfold exchange Ranges.exchangeAll
    generalize List.finRange D = l
    generalize v i = a
    induction l generalizing a with
    | nil => rfl
    | cons d l ih =>
      rw [List.foldl_cons, ih]
      unfold Ranges.exchangeDirection
      rw [transfer_outside np h hh d (hnp d) true _ x hx, transfer_outside np h hh d (hnp d) false _ x hx]
  · rw [exchange_image hh hnp v i x hx, exchange_image hh hnp v' i x hx]
    by_cases hpos : ∀ d, 0 < np d
    · exact hv i _ fun d => ⟨Int.emod_nonneg _ (hpos d).ne', Int.emod_lt_of_pos _ (hpos d)⟩
    · push Not at hpos
      obtain ⟨d, hd⟩ := hpos
      have h1 := hnp d
      have h2 := hx d
      omega

/-! ## Central differences of periodic data -/

/-- Derivatives are the central differences of the order of the scheme, with spacings `delta`. -/
def IsCentral (S : Setup D n) (I : Interp D) (delta : Fin D → ℝ) : Prop :=
  ∀ d k f x, I.cd d k f x = Central.discretise S.order k (delta d) (fun y => f (Function.update x d y)) (x d)

/-- Their stencils stay within `order/2` points. -/
theorem central_local {S : Setup D n} {I : Interp D} {delta : Fin D → ℝ} (h : IsCentral S I delta) : Local I S.np S.h := by
  intro d k f g x hfg
  rw [h, h]
  unfold Central.discretise
  congr 1
  refine Finset.sum_congr rfl fun p hp => ?_
  rw [Central.mem_points] at hp
  exact congrArg (Central.weight ℝ S.order k p * ·) (hfg p (.inl (abs_le.2 hp)))

/-- No direction occurs twice in a nest of derivatives. -/
def Ex.nest (used : List (Fin D)) : Ex D → Bool
  | .cd d _ e => decide (d ∉ used) && e.nest (d :: used)
  | .add a b | .mul a b | .pow a b => a.nest used && b.nest used
  | .fn _ e => e.nest used
  | _ => true

/-- Numbers and constants. -/
def Ex.coef : Ex D → Bool
  | .num _ | .const _ => true
  | .mul a b | .pow a b => a.coef && b.coef
  | _ => false

/-- Sums of derivatives with constant coefficients. -/
def Ex.fluxes : Ex D → Bool
  | .num z => decide (z = 0)
  | .cd d k e => decide (1 ≤ k) && e.nest [d]
  | .add a b => a.fluxes && b.fluxes
  | .mul a b => a.coef && b.fluxes
  | _ => false

/-- Periodic images of each other. -/
def Same (np : Fin D → ℤ) (y z : P D) : Prop := ∀ d, y d % np d = z d % np d

theorem Same.shift {np : Fin D → ℤ} {y z : P D} (h : Same np y z) (d : Fin D) (j : ℤ) : Same np (shift y d j) (shift z d j) := by
  intro e
  by_cases he : e = d
  · subst he
    simp only [Sim.shift, Function.update_self]
    exact Int.ModEq.add_right j (h e)
  · simp only [Sim.shift, Function.update_of_ne he]
    exact h e

theorem central_eval {S : Setup D n} {I : Interp D} {delta : Fin D → ℝ} (h : IsCentral S I delta) (d : Fin D) (k : ℕ) (f : P D → ℝ) (x : P D) :
    I.cd d k f x = (∑ p ∈ Central.points S.order, Central.weight ℝ S.order k p * f (shift x d p)) * (1 / delta d ^ k) := h d k f x

theorem points_abs (S : Setup D n) {p : ℤ} (hp : p ∈ Central.points S.order) : |p| ≤ S.h := abs_le.2 ((Central.mem_points _ _).1 hp)

/-- Expressions in periodic data are periodic. -/
theorem nest_same {S : Setup D n} {I : Interp D} {delta : Fin D → ℝ} (hI : IsCentral S I delta) {f : String → P D → ℝ} (e : Ex D)
    (hf : ∀ s ∈ e.datas, ∀ y z, Allocated S.np S.h y → Allocated S.np S.h z → Same S.np y z → f s y = f s z) (used : List (Fin D)) (he : e.nest used = true)
    {y z : P D} (hy : Box S.np S.h used y) (hz : Box S.np S.h used z) (hyz : Same S.np y z) : e.eval I (memOf f) y = e.eval I (memOf f) z := by
  induction e generalizing used y z with
  | num _ => rfl
  | const _ => rfl
  | indexed _ => rfl
  | arr a =>
    have hall : ∀ {y : P D}, Box S.np S.h used y → Allocated S.np S.h y := fun hy d => by
      have := hy d
      have hh := S.h_nonneg
      split_ifs at this <;> omega
    cases a with
    | data s => exact hf s (by simp [Ex.datas, Ex.arrs]) y z (hall hy) (hall hz) hyz
    | _ => rfl
  | cd d k e ih =>
    simp only [Ex.nest, Bool.and_eq_true, decide_eq_true_eq] at he
    simp only [Ex.eval]
    rw [central_eval hI, central_eval hI]
    congr 1
    refine Finset.sum_congr rfl fun p hp => ?_
    rw [ih hf (d :: used) he.2 (hy.shift he.1 (points_abs S hp)) (hz.shift he.1 (points_abs S hp)) (hyz.shift d p)]
  | add a b iha ihb | mul a b iha ihb | pow a b iha ihb =>
    simp only [Ex.nest, Bool.and_eq_true] at he
    simp only [Ex.eval]
    rw [iha (fun s hs => hf s ((mem_datas _ s).2 (List.mem_append_left _ ((mem_datas a s).1 hs)))) used he.1 hy hz hyz,
      ihb (fun s hs => hf s ((mem_datas _ s).2 (List.mem_append_right _ ((mem_datas b s).1 hs)))) used he.2 hy hz hyz]
  | fn g e ih =>
    simp only [Ex.eval]
    rw [ih hf used he hy hz hyz]

theorem coef_eval (I : Interp D) (m : Mem D) (e : Ex D) (h : e.coef = true) (x y : P D) : e.eval I m x = e.eval I m y := by
  induction e with
  | mul a b iha ihb | pow a b iha ihb =>
    simp only [Ex.coef, Bool.and_eq_true] at h
    simp only [Ex.eval]
    rw [iha h.1, ihb h.2]
  | num _ => rfl
  | const _ => rfl
  | _ => simp [Ex.coef] at h

/-- The points of the grid. -/
noncomputable def gridPoints (np : Fin D → ℤ) : Finset (P D) := Fintype.piFinset fun d => Finset.Ico 0 (np d)

theorem mem_gridPoints (np : Fin D → ℤ) (x : P D) : x ∈ gridPoints np ↔ Grid np x := by simp [gridPoints, Grid]

theorem grid_wrap {np : Fin D → ℤ} {x : P D} (hx : Grid np x) (d : Fin D) (j : ℤ) : Grid np (Function.update x d ((x d + j) % np d)) := by
  intro e
  by_cases he : e = d
  · subst he
    have := hx e
    simp only [Function.update_self]
    exact ⟨Int.emod_nonneg _ (by omega), Int.emod_lt_of_pos _ (by omega)⟩
  · rw [Function.update_of_ne he]; exact hx e

/-- Sums over the grid do not see a shift of values which are periodic there. -/
theorem sum_wrap {np : Fin D → ℤ} (d : Fin D) (g : P D → ℝ) (p : ℤ) (hg : ∀ x, Grid np x → g (shift x d p) = g (Function.update x d ((x d + p) % np d))) :
    ∑ x ∈ gridPoints np, g (shift x d p) = ∑ x ∈ gridPoints np, g x := by
  have hmove : ∀ (j : ℤ) x, Grid np x → Grid np (Function.update x d ((x d + j) % np d)) := fun j x hx => grid_wrap hx d j
  have hback : ∀ (j : ℤ) x, Grid np x → Function.update (Function.update x d ((x d + j) % np d)) d (((Function.update x d ((x d + j) % np d)) d + -j) % np d) = x := by
    intro j x hx
    rw [Function.update_self, Function.update_idem]
    have : ((x d + j) % np d + -j) % np d = x d := by
      rw [Int.emod_add_emod, show x d + j + -j = x d by ring]
      exact Int.emod_eq_of_lt (hx d).1 (hx d).2
    rw [this, Function.update_eq_self]
  refine Finset.sum_nbij' (fun x => Function.update x d ((x d + p) % np d)) (fun x => Function.update x d ((x d + -p) % np d)) ?_ ?_ ?_ ?_ ?_
  · intro x hx; rw [mem_gridPoints] at hx ⊢; exact hmove p x hx
  · intro x hx; rw [mem_gridPoints] at hx ⊢; exact hmove (-p) x hx
  · intro x hx; rw [mem_gridPoints] at hx; exact hback p x hx
  · intro x hx
    rw [mem_gridPoints] at hx
    have := hback (-p) x hx
    rwa [neg_neg] at this
  · intro x hx
    rw [mem_gridPoints] at hx
    exact hg x hx

theorem sum_shift {np : Fin D → ℤ} {h : ℤ} (d : Fin D) (g : P D → ℝ) (hg : ∀ y z, Box np h [d] y → Box np h [d] z → Same np y z → g y = g z) (p : ℤ) (hp : |p| ≤ h) :
    ∑ x ∈ gridPoints np, g (shift x d p) = ∑ x ∈ gridPoints np, g x := by
  have hh : 0 ≤ h := (abs_nonneg p).trans hp
  refine sum_wrap d g p fun x hx => ?_
  have hb : Box np h [] x := (box_nil _ _ _).2 hx
  refine hg _ _ (hb.shift (by simp) hp) (Box.mono hh (by simp) ((box_nil np h _).2 (grid_wrap hx d p))) fun e => ?_
  by_cases he : e = d
  · subst he
    simp [shift]
  · simp [shift, he]

/-- Sums of fluxes of periodic data vanish. -/
theorem sum_fluxes {S : Setup D n} {I : Interp D} {delta : Fin D → ℝ} (hI : IsCentral S I delta) {f : String → P D → ℝ} (e : Ex D)
    (hf : ∀ s ∈ e.datas, ∀ y z, Allocated S.np S.h y → Allocated S.np S.h z → Same S.np y z → f s y = f s z) (he : e.fluxes = true) :
    ∑ x ∈ gridPoints S.np, e.eval I (memOf f) x = 0 := by
  induction e with
  | num z =>
    simp only [Ex.fluxes, decide_eq_true_eq] at he
    subst he
    simp [Ex.eval]
  | cd d k e _ =>
    simp only [Ex.fluxes, Bool.and_eq_true, decide_eq_true_eq] at he
    simp only [Ex.eval, central_eval hI]
    rw [← Finset.sum_mul, Finset.sum_comm]
    have : ∀ p ∈ Central.points S.order, ∑ x ∈ gridPoints S.np, Central.weight ℝ S.order k p * e.eval I (memOf f) (shift x d p) =
        Central.weight ℝ S.order k p * ∑ x ∈ gridPoints S.np, e.eval I (memOf f) x := by
      intro p hp
      rw [← Finset.mul_sum, sum_shift (h := S.h) d _ (fun y z hy hz hyz => nest_same hI e hf [d] he.2 hy hz hyz) p (points_abs S hp)]
    rw [Finset.sum_congr rfl this, ← Finset.sum_mul, Central.C18_annihilates_constants S.order k he.1, zero_mul, zero_mul]
  | add a b iha ihb =>
    simp only [Ex.fluxes, Bool.and_eq_true] at he
    simp only [Ex.eval]
    rw [Finset.sum_add_distrib, iha (fun s hs => hf s ((mem_datas _ s).2 (List.mem_append_left _ ((mem_datas a s).1 hs)))) he.1,
      ihb (fun s hs => hf s ((mem_datas _ s).2 (List.mem_append_right _ ((mem_datas b s).1 hs)))) he.2, add_zero]
  | mul a b iha ihb =>
    simp only [Ex.fluxes, Bool.and_eq_true] at he
    simp only [Ex.eval]
    have : ∀ x ∈ gridPoints S.np, a.eval I (memOf f) x * b.eval I (memOf f) x = a.eval I (memOf f) (fun _ => 0) * b.eval I (memOf f) x := fun x _ => by
      rw [coef_eval I _ a he.1 x fun _ => 0]
    rw [Finset.sum_congr rfl this, ← Finset.mul_sum, ihb (fun s hs => hf s ((mem_datas _ s).2 (List.mem_append_right _ ((mem_datas b s).1 hs)))) he.2, mul_zero]
  | _ => simp [Ex.fluxes] at he

/-- Fluxes of uniform data vanish. -/
theorem uniform_fluxes {S : Setup D n} {I : Interp D} {delta : Fin D → ℝ} (hI : IsCentral S I delta) {f : String → P D → ℝ} (e : Ex D)
    (hf : ∀ s ∈ e.datas, ∀ y z, Allocated S.np S.h y → Allocated S.np S.h z → f s y = f s z) (he : e.fluxes = true) (x : P D) (hx : Grid S.np x) : e.eval I (memOf f) x = 0 := by
  have hb : Box S.np S.h [] x := (box_nil _ _ _).2 hx
  have key : ∀ (e : Ex D), (∀ s ∈ e.datas, ∀ y z, Allocated S.np S.h y → Allocated S.np S.h z → f s y = f s z) → ∀ used, e.nest used = true → ∀ y z, Box S.np S.h used y → Box S.np S.h used z →
      e.eval I (memOf f) y = e.eval I (memOf f) z := by
    intro e
    induction e with
    | num _ => exact fun _ _ _ _ _ _ _ => rfl
    | const _ => exact fun _ _ _ _ _ _ _ => rfl
    | indexed _ => exact fun _ _ _ _ _ _ _ => rfl
    | arr a =>
      intro hf used he y z hy hz
      have hall : ∀ {y : P D}, Box S.np S.h used y → Allocated S.np S.h y := fun hy d => by
        have := hy d
        have hh := S.h_nonneg
        split_ifs at this <;> omega
      cases a with
      | data s => exact hf s (by simp [Ex.datas, Ex.arrs]) y z (hall hy) (hall hz)
      | _ => rfl
    | cd d k e ih =>
      intro hf used he y z hy hz
      simp only [Ex.nest, Bool.and_eq_true, decide_eq_true_eq] at he
      simp only [Ex.eval]
      rw [central_eval hI, central_eval hI]
      congr 1
      refine Finset.sum_congr rfl fun p hp => ?_
      rw [ih hf (d :: used) he.2 _ _ (hy.shift he.1 (points_abs S hp)) (hz.shift he.1 (points_abs S hp))]
    | add a b iha ihb | mul a b iha ihb | pow a b iha ihb =>
      intro hf used he y z hy hz
      simp only [Ex.nest, Bool.and_eq_true] at he
      simp only [Ex.eval]
      rw [iha (fun s hs => hf s ((mem_datas _ s).2 (List.mem_append_left _ ((mem_datas a s).1 hs)))) used he.1 y z hy hz,
        ihb (fun s hs => hf s ((mem_datas _ s).2 (List.mem_append_right _ ((mem_datas b s).1 hs)))) used he.2 y z hy hz]
    | fn g e ih =>
      intro hf used he y z hy hz
      simp only [Ex.eval]
      rw [ih hf used he y z hy hz]
  induction e with
  | num z =>
    simp only [Ex.fluxes, decide_eq_true_eq] at he
    subst he
    simp [Ex.eval]
  | cd d k e _ =>
    simp only [Ex.fluxes, Bool.and_eq_true, decide_eq_true_eq] at he
    simp only [Ex.eval]
    rw [central_eval hI]
    have : ∀ p ∈ Central.points S.order, Central.weight ℝ S.order k p * e.eval I (memOf f) (shift x d p) = Central.weight ℝ S.order k p * e.eval I (memOf f) x := by
      intro p hp
      rw [key e hf [d] he.2 _ x (hb.shift (by simp) (points_abs S hp)) (hb.mono S.h_nonneg (by simp))]
    rw [Finset.sum_congr rfl this, ← Finset.sum_mul, Central.C18_annihilates_constants S.order k he.1, zero_mul, zero_mul]
  | add a b iha ihb =>
    simp only [Ex.fluxes, Bool.and_eq_true] at he
    simp only [Ex.eval]
    rw [iha (fun s hs => hf s ((mem_datas _ s).2 (List.mem_append_left _ ((mem_datas a s).1 hs)))) he.1,
      ihb (fun s hs => hf s ((mem_datas _ s).2 (List.mem_append_right _ ((mem_datas b s).1 hs)))) he.2, add_zero]
  | mul a b iha ihb =>
    simp only [Ex.fluxes, Bool.and_eq_true] at he
    simp only [Ex.eval]
    rw [ihb (fun s hs => hf s ((mem_datas _ s).2 (List.mem_append_right _ ((mem_datas b s).1 hs)))) he.2, mul_zero]
  | _ => simp [Ex.fluxes] at he

/-! ## Datasets point by point -/

/-- All datasets read are components of the solution or given by relations. -/
def Closed (S : Setup D n) : Prop :=
  ∀ s, ((∃ i, s ∈ (S.rhs i).datas) ∨ ∃ t e, S.relation t = some e ∧ s ∈ e.datas) → (S.relation s).isSome ∨ ∃ i, s = S.sol i

theorem mem_terms_arrs (e : Ex D) (a : Arr) (ha : a ∈ e.arrs) : ∃ t ∈ e.terms, a ∈ t.arrs := by
  induction e with
  | add x y ihx ihy =>
    rcases List.mem_append.1 ha with h | h
    · obtain ⟨t, ht, hat⟩ := ihx h; exact ⟨t, List.mem_append_left _ ht, hat⟩
    · obtain ⟨t, ht, hat⟩ := ihy h; exact ⟨t, List.mem_append_right _ ht, hat⟩
  | _ => exact ⟨_, by simp [Ex.terms], ha⟩

theorem mem_foldl_arrs (l : List (Ex D)) (z : Ex D) (a : Arr) (h : a ∈ z.arrs ∨ ∃ t ∈ l, a ∈ t.arrs) : a ∈ (l.foldl Ex.add z).arrs := by
  induction l generalizing z with
  | nil => rcases h with h | ⟨t, ht, _⟩; exacts [h, by simp at ht]
  | cons t l ih =>
    rw [List.foldl_cons]
    refine ih _ ?_
    rcases h with h | ⟨t', ht', h⟩
    · exact .inl (List.mem_append_left _ h)
    · rcases List.mem_cons.1 ht' with rfl | ht'
      · exact .inl (List.mem_append_right _ h)
      · exact .inr ⟨t', ht', h⟩

/-- The datasets of a right hand side are required. -/
theorem rhs_required {S : Setup D n} (hS : S.Valid) (i : Fin n) (s : String) (hs : s ∈ (S.rhs i).datas) : S.required s := by
  obtain ⟨_, hn, hsum⟩ := hS.rhsPlain i
  have ha := (mem_datas _ s).1 hs
  have ht : ∃ t ∈ (S.rhs i).classified, .data s ∈ t.arrs := by
    cases h : S.rhs i with
    | add a b => rw [h] at ha; exact mem_terms_arrs _ _ ha
    | mul a b => rw [h] at ha; exact ⟨_, by simp [Ex.classified], ha⟩
    | _ => rw [h] at hsum; simp [Ex.isSum] at hsum
  obtain ⟨t, ht, hat⟩ := ht
  have hcl := fun (p : Ex D → Bool) (hp : p t = true) => show s ∈ ((Ex.sum ((S.rhs i).classified.filter p)).zeroFn).datas by
    rw [mem_datas, zeroFn_id _ (by unfold Ex.sum; exact foldl_add_noFn _ _ rfl fun t ht => classified_noFn _ hn t (List.mem_filter.1 ht).1)]
    exact mem_foldl_arrs _ _ _ (.inr ⟨t, List.mem_filter.2 ⟨ht, hp⟩, hat⟩)
  by_cases hre : t.hasRe = true
  · exact .inr (.inr ⟨i, hcl (fun t => t.hasRe) hre⟩)
  · exact .inr (.inl ⟨hS.groups, i, hcl (fun t => !t.hasRe) (by simpa using hre)⟩)

/-- Datasets take equal values at points at which the solutions and the given datasets they use do. -/
theorem required_two_of {S : Setup D n} {req : String → Prop} (hS : S.Relations req) {I : Interp D} {order : List String} (hord : S.relOrder = .ok order)
    (use : String → Prop) (hcl : ∀ t e, use t → S.relation t = some e → ∀ s ∈ e.datas, use s) {init init' : String → P D → ℝ} {q q' : Sol D n} {f f' : String → P D → ℝ}
    (hf : ConsistentOn S req I init q f) (hf' : ConsistentOn S req I init' q' f') {y z : P D} (hq : ∀ i, q i y = q' i z)
    (hleaf : ∀ s, use s → S.relation s = none → (∀ i, s ≠ S.sol i) → init s y = init' s z) (s : String) (hs : req s) (hs' : use s) : f s y = f' s z := by
  obtain ⟨known, hk, _, hmem, hdep⟩ := rel_order hS order hord
  have hbase : ∀ u, use u → S.relation u = none → f u y = f' u z := fun u hu hn => by
    by_cases hsol : ∃ j, u = S.sol j
    · obtain ⟨j, rfl⟩ := hsol
      rw [hf.sol j, hf'.sol j]; exact hq j
    · push Not at hsol
      rw [hf.rest u (relation_none hS.relNodup hn) hsol, hf'.rest u (relation_none hS.relNodup hn) hsol]
      exact hleaf u hu hn hsol
  have main : ∀ order : List String, (∀ s ∈ order, s ∈ S.keys ∧ (S.relation s).isSome) →
      Spec.RespectsDeps known (S.keys.filterMap fun s => (S.relation s).map fun e => (s, e.datas)) order → ∀ s ∈ order, use s → f s y = f' s z := by
    intro order
    induction order using List.reverseRecOn with
    | nil => exact fun _ _ s hs => by simp at hs
    | append_singleton pre s ih =>
      intro hord hdep t ht hut
      have ih := ih (fun t ht => hord t (List.mem_append_left _ ht)) fun p x r he => hdep p x (r ++ [s]) (by rw [he]; simp)
      by_cases hts : t = s
      · subst hts
        obtain ⟨hkey, hsome⟩ := hord t (by simp)
        obtain ⟨e, he⟩ := Option.isSome_iff_exists.1 hsome
        have hreq := (hS.keysMem t).1 hkey
        have he' := (relation_iff hS.relNodup t e).1 he
        rw [hf.rel t e hreq he' y, hf'.rel t e hreq he' z]
        obtain ⟨hec, hepl, _⟩ := hS.relPlain t e he
        refine eval_two e hec fun a ha => ?_
        obtain ⟨u, rfl⟩ := hepl a ha
        have hu : u ∈ e.datas := (mem_datas e u).2 ha
        change f u y = f' u z
        rcases Option.eq_none_or_eq_some (S.relation u) with hn | ⟨e', he'⟩
        · exact hbase u (hcl t e hut he u hu) hn
        · rcases hdep pre t [] (by simp) e.datas (List.mem_filterMap.2 ⟨t, hkey, by rw [he]; rfl⟩) u hu with h | h
          · rw [hk u h] at he'; cases he'
          · exact ih u h (hcl t e hut he u hu)
      · exact ih t (by simpa [hts] using ht) hut
  rcases Option.eq_none_or_eq_some (S.relation s) with hn | ⟨e', he'⟩
  · exact hbase s hs' hn
  · exact main order (fun s hs => (hmem s).1 hs) hdep s ((hmem s).2 ⟨(hS.keysMem s).2 hs, by rw [he']; rfl⟩) hs'

/-- Without given datasets. -/
theorem required_two {S : Setup D n} {req : String → Prop} (hS : S.Relations req) {I : Interp D} {order : List String} (hord : S.relOrder = .ok order)
    (hcl : ∀ t e, S.relation t = some e → ∀ s ∈ e.datas, (S.relation s).isSome ∨ ∃ i, s = S.sol i) {init init' : String → P D → ℝ} {q q' : Sol D n} {f f' : String → P D → ℝ}
    (hf : ConsistentOn S req I init q f) (hf' : ConsistentOn S req I init' q' f') {y z : P D} (hq : ∀ i, q i y = q' i z) (s : String) (hs : req s)
    (hs' : (S.relation s).isSome ∨ ∃ i, s = S.sol i) : f s y = f' s z :=
  required_two_of hS hord (fun s => (S.relation s).isSome ∨ ∃ i, s = S.sol i) (fun t e _ he => hcl t e he) hf hf' hq (fun s h hn hi => by
    rcases h with h | ⟨i, h⟩
    · rw [hn] at h; cases h
    · exact absurd h (hi i)) s hs hs'

theorem datasets_point {S : Setup D n} (hS : S.Valid) {I : Interp D} {ks : List (Ker D)} (hks : S.spatial = .ok ks) (hcl : Closed S) {init : String → P D → ℝ} {q : Sol D n} {f : String → P D → ℝ}
    (hf : Consistent S I init q f) {y z : P D} (hq : ∀ i, q i y = q i z) (i : Fin n) (s : String) (hs : s ∈ (S.rhs i).datas) : f s y = f s z := by
  obtain ⟨order, hord⟩ := spatial_order hks
  exact required_two hS.relations hord (fun t e he s hs => hcl s (.inr ⟨t, e, he, hs⟩)) hf hf hq s (rhs_required hS i s hs) (hcl s (.inl ⟨i, hs⟩))

end OpenSBLI.Sim
