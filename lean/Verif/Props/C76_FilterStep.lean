import Verif.Props.C76_WenoFilter
import Verif.Spec.EulerFlux
import Mathlib.Data.List.FinRange
import Mathlib.Algebra.BigOperators.Field
import Mathlib.Data.Fintype.Pi
import Mathlib.Data.Int.Interval
import Mathlib.Tactic.FinCases

/-!
# C76: one application of the WENO filter

The kernels of `Model/WenoFilter.lean` run one after another, against the update computed directly from the solution.
-/
set_option linter.unusedSectionVars false
set_option linter.unusedSimpArgs false

namespace OpenSBLI.WenoFilter
open Weno Llf Filters Matrix

variable {D : ℕ}

/-! ## Ranges -/

theorem range_visits (np : Fin D → ℤ) (h : Fin D → Finset Ranges.HaloType × Finset Ranges.HaloType) (x : P D) :
    (range np h).visits x ↔ ∀ d, Ranges.minHalo (h d).1 ≤ x d ∧ x d < np d + Ranges.maxHalo (h d).2 := by
  have key : ∀ (l : List (Fin D)) (k : Ranges.Kernel D),
      ((l.foldl (fun k d => (k.setHaloRange d false (h d).1).setHaloRange d true (h d).2) k).ranges = k.ranges) ∧
      ∀ d, (l.foldl (fun k d => (k.setHaloRange d false (h d).1).setHaloRange d true (h d).2) k).halos d =
        if d ∈ l then ((k.halos d).1 ∪ (h d).1, (k.halos d).2 ∪ (h d).2) else k.halos d := by
    intro l
    induction l with
    | nil => intro k; simp
    | cons e l ih =>
      intro k
      rw [List.foldl_cons]
      refine ⟨(ih _).1.trans rfl, fun d => ?_⟩
      rw [(ih _).2 d]
      by_cases he : d = e
      · subst he
        by_cases hl : d ∈ l <;> simp [hl, Ranges.Kernel.setHaloRange]
      · by_cases hl : d ∈ l <;> simp [hl, he, Ranges.Kernel.setHaloRange]
  unfold Ranges.Kernel.visits
  refine forall_congr' fun d => ?_
  have k1 := (key (List.finRange D) (Ranges.Kernel.onGrid fun d => (0, np d))).1
  have k2 := (key (List.finRange D) (Ranges.Kernel.onGrid fun d => (0, np d))).2 d
  rw [if_pos (List.mem_finRange d)] at k2
  rw [Ranges.Kernel.totalRange, range, k1, k2]
  simp [Ranges.Kernel.onGrid]

theorem grid_visits (np : Fin D → ℤ) (x : P D) : (gridRange np).visits x ↔ ∀ d, 0 ≤ x d ∧ x d < np d := by
  simp [gridRange, Ranges.Kernel.visits, Ranges.Kernel.totalRange, Ranges.Kernel.onGrid, Ranges.minHalo, Ranges.maxHalo]

theorem relations_visits (S : Setup D) (np : Fin D → ℤ) (x : P D) : (relationsRange S np).visits x ↔ ∀ d, -(S.k : ℤ) ≤ x d ∧ x d ≤ np d + S.k := by
  rw [relationsRange, range_visits]
  refine forall_congr' fun d => ?_
  simp [Ranges.minHalo, Ranges.maxHalo]
  omega

theorem recon_visits (np : Fin D → ℤ) (d : Fin D) (x : P D) :
    (reconRange np d).visits x ↔ ∀ j, (if j = d then -1 else 0) ≤ x j ∧ x j < np j + if j = d then 1 else 0 := by
  rw [reconRange, range_visits]
  refine forall_congr' fun j => ?_
  by_cases h : j = d <;> simp [h, Ranges.minHalo, Ranges.maxHalo]

/-! ## Locality of the interface flux -/

theorem sideSensor_congr (side : Side) (k : ℕ) (hk : 2 ≤ k) (dz : ℝ) (d : ℕ → ℝ) (f g : ℤ → ℝ) (h : ∀ p : ℤ, -(k : ℤ) < p → p ≤ k → f p = g p) :
    sideSensor side k dz d f = sideSensor side k dz d g := by
  have hp : ∀ r < k, ∀ j < k, f (funcPoint side r j) = g (funcPoint side r j) := fun r hr j hj => by
    apply h
    · cases side <;> simp [funcPoint, Side.c] <;> omega
    · cases side <;> simp [funcPoint, Side.c] <;> omega
  have hb : ∀ r < k, beta side k r dz f = beta side k r dz g := fun r hr => by
    unfold beta
    congr 1
    refine List.map_congr_left fun e he => ?_
    have := C10_extraction_in_stencil k r hk dz e he
    have h1 := hp r hr _ this.1
    have h2 := hp r hr _ this.2
    rw [funcPoint] at h1 h2
    rw [h1, h2]
  unfold sideSensor wenoSensor
  congr 1
  refine Finset.sum_congr rfl fun r hr => ?_
  rw [omega_congr k (alphaJS d fun r => beta side k r dz f) (alphaJS d fun r => beta side k r dz g) (fun r hr => by simp only [alphaJS, hb r hr]) r (Finset.mem_range.1 hr)]

theorem interfaceOut_congr {n : ℕ} (order k : ℕ) (hk : 2 ≤ k) (dz : ℝ) (hdz : dz ≠ 0) (d : Side → ℕ → ℝ) (hd : ∀ side, OptimalWeights ℝ side k (d side)) (l l' : Line n) (x x' : ℤ)
    (hL : l.LEV x = l'.LEV x') (hR : l.REV x = l'.REV x')
    (h : ∀ p : ℤ, -(k : ℤ) < p → p ≤ k → l.f (x + p) = l'.f (x' + p) ∧ l.q (x + p) = l'.q (x' + p) ∧ l.ev (x + p) = l'.ev (x' + p)) :
    interfaceOut true true order (.weno .JS k dz d) l x = interfaceOut true true order (.weno .JS k dz d) l' x' := by
  set s : Scheme := .weno .JS k dz d with hs
  have hval : s.Valid := ⟨hk, by simp, hdz, hd⟩
  have hm : ∀ p ∈ s.stencilPoints, -(k : ℤ) < p ∧ p ≤ k := fun p hp => by
    rw [C15_stencil_points] at hp; simp only [hs] at hp; omega
  have hF : ∀ i p, -(k : ℤ) < p → p ≤ k → waveFlux l x i p = waveFlux l' x' i p := fun i p h1 h2 => by
    rw [waveFlux, waveFlux, hL, (h p h1 h2).1]
  have hQ : ∀ i p, -(k : ℤ) < p → p ≤ k → waveState l x i p = waveState l' x' i p := fun i p h1 h2 => by
    rw [waveState, waveState, hL, (h p h1 h2).2.1]
  have hA : ∀ i, waveSpeed s l x i = waveSpeed s l' x' i := fun i => by
    rw [waveSpeed, waveSpeed]
    exact maxWave_congr _ _ _ fun p hp => by rw [(h p (hm p hp).1 (hm p hp).2).2.2]
  have hP : ∀ i p, -(k : ℤ) < p → p ≤ k → positive (waveFlux l x i p) (waveState l x i p) (waveSpeed s l x i) = positive (waveFlux l' x' i p) (waveState l' x' i p) (waveSpeed s l' x' i) :=
    fun i p h1 h2 => by rw [hF i p h1 h2, hQ i p h1 h2, hA]
  have hN : ∀ i p, -(k : ℤ) < p → p ≤ k → negative (waveFlux l x i p) (waveState l x i p) (waveSpeed s l x i) = negative (waveFlux l' x' i p) (waveState l' x' i p) (waveSpeed s l' x' i) :=
    fun i p h1 h2 => by rw [hF i p h1 h2, hQ i p h1 h2, hA]
  have hSens : ∀ i, sensorOf true s l x i = sensorOf true s l' x' i := fun i => by
    simp only [sensorOf, waveSensor, hs]
    rw [sideSensor_congr .right k hk dz _ _ _ (hP i), sideSensor_congr .left k hk dz _ _ _ (hN i)]
  have hC : ∀ i, characteristic s l x i = characteristic s l' x' i := fun i => by
    have e : ∀ (l : Line n) x, characteristic s l x i = 0 + s.recon .right (fun p => positive (waveFlux l x i p) (waveState l x i p) (waveSpeed s l x i)) +
        s.recon .left (fun p => negative (waveFlux l x i p) (waveState l x i p) (waveSpeed s l x i)) := fun l x => rfl
    rw [e, e, recon_congr s hval .right _ _ (fun p hp => hP i p (hm p (mem_stencilPoints s _ p hp)).1 (hm p (mem_stencilPoints s _ p hp)).2),
      recon_congr s hval .left _ _ (fun p hp => hN i p (hm p (mem_stencilPoints s _ p hp)).1 (hm p (mem_stencilPoints s _ p hp)).2)]
  have hcf : ∀ (w : List ℚ) (pts : List ℤ) (f g : ℤ → ℝ), (∀ p ∈ pts, f p = g p) → centralFlux w pts f = centralFlux w pts g := by
    intro w pts f g
    induction pts generalizing w with
    | nil => intro _; cases w <;> rfl
    | cons b pts ih =>
      intro hfg
      cases w with
      | nil => rfl
      | cons a w =>
        have := ih w fun p hp => hfg p (by simp [hp])
        simp only [centralFlux, List.zipWith_cons_cons, List.sum_cons] at this ⊢
        rw [this, hfg b (by simp)]
  unfold interfaceOut
  rw [if_pos rfl, if_pos rfl]
  congr 1
  funext w
  rw [hR]
  congr 1
  funext i
  rw [hSens, hC, hcf w _ _ _ fun p hp => hF i p (hm p hp).1 (hm p hp).2]

/-! ## The update computed directly -/

/-- Velocity, pressure and speed of sound of the solution at every point. -/
noncomputable def freshPrims (g : ℝ) (q : P D → Fin (D+2) → ℝ) : P D → Prims D := fun y => primitives g (q y)

/-- Filter flux at the interface between `x` and its neighbour in direction `d`, from the solution alone. -/
noncomputable def filterFlux (S : Setup D) (N : Params D) (q : P D → Fin (D+2) → ℝ) (d : Fin D) (x : P D) (c : Fin (D+2)) : ℝ :=
  ((interfaceOut true true S.order (scheme S N) (lineOf N.eig q (freshPrims N.g q) d x) 0).getD 0) c

/-- Points of the grid. -/
def OnGrid (np : Fin D → ℤ) (x : P D) : Prop := ∀ d, 0 ≤ x d ∧ x d < np d

/-- C76: the quantities the relations kernel computes are the velocity, the pressure of an ideal gas and its speed of sound, and the fluxes are those of the Euler equations, for every state with nonzero density. -/
theorem C76_fluxes_are_euler (g : ℝ) (d : Fin D) (q : Fin (D+2) → ℝ) (hq : q 0 ≠ 0) :
    (∀ i, (primitives g q).u i = q i.succ.castSucc / q 0) ∧ (primitives g q).p = Spec.pressure g q ∧ (primitives g q).a = Real.sqrt (g * Spec.pressure g q / q 0) ∧
      fluxes d q (primitives g q) = Spec.eulerFlux g (fun j => if j = d then 1 else 0) q := by
  have hp : (primitives g q).p = Spec.pressure g q := by
    simp only [primitives, Spec.pressure]
    congr 2
    rw [mul_one_div, mul_comm (1/2 : ℝ), mul_one_div, div_div]
  have hm : Spec.contraMomentum (fun j => if j = d then (1:ℝ) else 0) q = q d.succ.castSucc := by
    simp [Spec.contraMomentum]
  refine ⟨fun i => by simp [primitives, div_eq_mul_inv], hp, ?_, ?_⟩
  · rw [← hp]
    simp only [primitives]
    rw [mul_one_div]
  · unfold fluxes Spec.eulerFlux
    simp only [hm, hp]
    have hu : (primitives g q).u d = q d.succ.castSucc / q 0 := by simp [primitives, div_eq_mul_inv]
    rw [hu]
    refine congrArg₂ _ (by field_simp) (congrArg₂ _ (funext fun i => ?_) ?_)
    · by_cases h : i = d <;> simp [h, mul_div_assoc]
    · rw [add_comm, mul_div_assoc]

/-- C76: what enters the reconstruction in direction `d` around the interface behind `x`: at every position of the line the Euler flux, the solution and the eigenvalues of that point, and the eigenvectors at the means of
density, velocity and speed of sound of the two points next to the interface. -/
theorem C76_filter_line (E : Eigen D) (g : ℝ) (q : P D → Fin (D+2) → ℝ) (hq : ∀ y, q y 0 ≠ 0) (d : Fin D) (x : P D) (p : ℤ) :
    let l := lineOf E q (freshPrims g q) d x
    let y := Function.update x d (x d + p)
    let z := Function.update x d (x d + (p + 1))
    let u := fun y i => q y (Fin.succ i).castSucc / q y 0
    let a := fun y => Real.sqrt (g * Spec.pressure g (q y) / q y 0)
    l.f p = Spec.eulerFlux g (fun j => if j = d then 1 else 0) (q y) ∧ l.q p = q y ∧ l.ev p = E.ev d (u y) (a y) ∧
      l.LEV p = E.LEV d ((q y 0 + q z 0) / 2) (fun i => (u y i + u z i) / 2) ((a y + a z) / 2) ∧
      l.REV p = E.REV d ((q y 0 + q z 0) / 2) (fun i => (u y i + u z i) / 2) ((a y + a z) / 2) := by
  intro l y z u a
  have hu : ∀ w, (freshPrims g q w).u = u w := fun w => funext fun i => (C76_fluxes_are_euler g d (q w) (hq w)).1 i
  have ha : ∀ w, (freshPrims g q w).a = a w := fun w => (C76_fluxes_are_euler g d (q w) (hq w)).2.2.1
  refine ⟨(C76_fluxes_are_euler g d (q y) (hq y)).2.2.2, rfl, ?_, ?_, ?_⟩
  · simp only [l, lineOf, hu, ha]; rfl
  · simp only [l, lineOf, hu, ha]; rfl
  · simp only [l, lineOf, hu, ha]; rfl

example : fluxes (D := 1) 0 ![2, 6, 10] (primitives (7/5) ![2, 6, 10]) = Spec.eulerFlux (7/5) (fun j => if j = 0 then 1 else 0) ![2, 6, 10] :=
  (C76_fluxes_are_euler (7/5) 0 ![2, 6, 10] (by norm_num)).2.2.2

/-! ## Running the kernels -/

theorem reconWork_inj {start : ℕ} {d d' : Fin D} {c c' : Fin (D+2)} (h : reconWork start d c = reconWork start d' c') : d = d' ∧ c = c' := by
  simp only [reconWork] at h
  have hc := c.2
  have hc' := c'.2
  have : (d : ℕ) * (D+2) + c = d' * (D+2) + c' := by omega
  have h1 : (d : ℕ) = d' := by
    have e := congrArg (· / (D+2)) this
    simpa [Nat.add_comm, Nat.add_mul_div_right, Nat.div_eq_of_lt hc, Nat.div_eq_of_lt hc'] using e
  have h2 : (c : ℕ) = c' := by rw [h1] at this; omega
  exact ⟨Fin.ext h1, Fin.ext h2⟩

open Classical in
theorem run_recon (S : Setup D) (N : Params D) (d : Fin D) (s : Arrays D) :
    (run S N (.recon d (reconWork S.start d)) s).q = s.q ∧ (run S N (.recon d (reconWork S.start d)) s).prim = s.prim ∧ (run S N (.recon d (reconWork S.start d)) s).kappa = s.kappa ∧
    (∀ c x, (run S N (.recon d (reconWork S.start d)) s).work (reconWork S.start d c) x =
      if (reconRange N.np d).visits x then ((interfaceOut true true S.order (scheme S N) (lineOf N.eig s.q s.prim d x) 0).getD 0) c else s.work (reconWork S.start d c) x) ∧
    (∀ n x, (∀ c, n ≠ reconWork S.start d c) → (run S N (.recon d (reconWork S.start d)) s).work n x = s.work n x) := by
  refine ⟨rfl, rfl, rfl, fun c x => ?_, fun n x hn => ?_⟩
  · simp only [run]
    split_ifs with hv
    · have hf : (List.finRange (D+2)).find? (fun c' => decide (reconWork S.start d c' = reconWork S.start d c)) = some c := by
        have he : (fun c' => decide (reconWork S.start d c' = reconWork S.start d c)) = fun c' : Fin (D+2) => decide (c' = c) := by
          funext c'
          by_cases h : c' = c
          · simp [h]
          · have h' : ¬reconWork S.start d c' = reconWork S.start d c := fun h' => h (reconWork_inj h').2
            simp [h, h']
        rw [he]
        have hmem : c ∈ List.finRange (D+2) := List.mem_finRange c
        cases hfind : (List.finRange (D+2)).find? (fun c' => decide (c' = c)) with
        | none => simpa using List.find?_eq_none.1 hfind c hmem
        | some c' => simpa using List.find?_some hfind
      rw [hf]
    · rfl
  · simp only [run]
    split_ifs with hv
    · have hf : (List.finRange (D+2)).find? (fun c' => decide (reconWork S.start d c' = n)) = none := by
        rw [List.find?_eq_none]; intro c _; simpa using fun h => hn c h.symm
      rw [hf]
    · rfl

open Classical in
theorem run_recons (S : Setup D) (N : Params D) (l : List (Fin D)) (hl : l.Nodup) (s : Arrays D) :
    (runAll S N (l.map fun d => Ker.recon d (reconWork S.start d)) s).q = s.q ∧ (runAll S N (l.map fun d => Ker.recon d (reconWork S.start d)) s).prim = s.prim ∧
    (runAll S N (l.map fun d => Ker.recon d (reconWork S.start d)) s).kappa = s.kappa ∧
    (∀ d ∈ l, ∀ c x, (reconRange N.np d).visits x → (runAll S N (l.map fun d => Ker.recon d (reconWork S.start d)) s).work (reconWork S.start d c) x =
      ((interfaceOut true true S.order (scheme S N) (lineOf N.eig s.q s.prim d x) 0).getD 0) c) ∧
    (∀ n x, (∀ d ∈ l, ∀ c, n ≠ reconWork S.start d c) → (runAll S N (l.map fun d => Ker.recon d (reconWork S.start d)) s).work n x = s.work n x) := by
  induction l generalizing s with
  | nil => refine ⟨rfl, rfl, rfl, fun d hd => absurd hd (by simp), fun n x _ => rfl⟩
  | cons e l ih =>
    have h1 := run_recon S N e s
    have h2 := ih (List.nodup_cons.1 hl).2 (run S N (.recon e (reconWork S.start e)) s)
    have e0 : runAll S N ((e :: l).map fun d => Ker.recon d (reconWork S.start d)) s =
        runAll S N (l.map fun d => Ker.recon d (reconWork S.start d)) (run S N (.recon e (reconWork S.start e)) s) := rfl
    rw [e0]
    refine ⟨h2.1.trans h1.1, h2.2.1.trans h1.2.1, h2.2.2.1.trans h1.2.2.1, fun d hd c x hv => ?_, fun n x hn => ?_⟩
    · rcases List.mem_cons.1 hd with rfl | hd
      · rw [h2.2.2.2.2 _ x fun d' hd' c' h => (List.nodup_cons.1 hl).1 (by rw [(reconWork_inj h).1]; exact hd'), h1.2.2.2.1, if_pos hv]
      · rw [h2.2.2.2.1 d hd c x hv, h1.1, h1.2.1]
    · rw [h2.2.2.2.2 n x fun d hd => hn d (List.mem_cons_of_mem _ hd), h1.2.2.2.2 n x (hn e (by simp))]

/-- Conditions on the numbers of the scheme: those the constructor computes. -/
structure Consistent (S : Setup D) (N : Params D) : Prop where
  dz : N.dz ≠ 0
  optimal : ∀ side, OptimalWeights ℝ side S.k (N.d side)

theorem order_k {S : Setup D} {w : List ℚ} (h : centralWeights S.order = some w) : 2 ≤ S.k ∧ S.k ≤ 4 ∧ S.order = 2 * S.k - 1 := by
  unfold Setup.k
  rcases orders_cases h with ⟨h, _⟩ | ⟨h, _⟩ | ⟨h, _⟩ <;> rw [h] <;> decide

/-- The fluxes the reconstruction kernels store are those of the solution: nothing outside the points of the relations kernel is read. -/
theorem stored_flux (S : Setup D) (N : Params D) (w : List ℚ) (h : centralWeights S.order = some w) (hN : Consistent S N) (q : P D → Fin (D+2) → ℝ) (v : P D → Prims D)
    (hv : ∀ y, (relationsRange S N.np).visits y → v y = primitives N.g (q y)) (d : Fin D) (x : P D) (hx : (reconRange N.np d).visits x) (c : Fin (D+2)) :
    ((interfaceOut true true S.order (scheme S N) (lineOf N.eig q v d x) 0).getD 0) c = filterFlux S N q d x c := by
  have hk := order_k h
  have hp : ∀ p : ℤ, -(S.k : ℤ) < p → p ≤ S.k → v (shift x d p) = freshPrims N.g q (shift x d p) := by
    intro p h1 h2
    apply hv
    rw [relations_visits]
    intro j
    have hj := (recon_visits N.np d x).1 hx j
    by_cases hd : j = d
    · subst hd
      rw [if_pos rfl, if_pos rfl] at hj
      simp only [shift, Function.update_self]
      omega
    · rw [if_neg hd, if_neg hd] at hj
      simp only [shift, Function.update_of_ne hd]
      omega
  unfold filterFlux
  rw [scheme, interfaceOut_congr S.order S.k hk.1 N.dz hN.dz N.d hN.optimal (lineOf N.eig q v d x) (lineOf N.eig q (freshPrims N.g q) d x) 0 0]
  · simp only [lineOf]
    rw [hp 0 (by omega) (by omega), hp (0+1) (by omega) (by omega)]
  · simp only [lineOf]
    rw [hp 0 (by omega) (by omega), hp (0+1) (by omega) (by omega)]
  · intro p h1 h2
    simp only [lineOf, zero_add]
    rw [hp p h1 h2]
    exact ⟨rfl, trivial, rfl⟩

/-- The state after the relations and the reconstructions. -/
theorem after_reconstructions (S : Setup D) (N : Params D) (w : List ℚ) (h : centralWeights S.order = some w) (hN : Consistent S N) (s : Arrays D) :
    let t := runAll S N (Ker.relations :: (List.finRange D).map fun d => Ker.recon d (reconWork S.start d)) s
    t.q = s.q ∧ t.kappa = s.kappa ∧ (∀ y, (relationsRange S N.np).visits y → t.prim y = primitives N.g (s.q y)) ∧
      (∀ d c x, (reconRange N.np d).visits x → t.work (reconWork S.start d c) x = filterFlux S N s.q d x c) := by
  intro t
  have e : t = runAll S N ((List.finRange D).map fun d => Ker.recon d (reconWork S.start d)) (run S N .relations s) := rfl
  have hr := run_recons S N (List.finRange D) (List.nodup_finRange D) (run S N .relations s)
  have hv : ∀ y, (relationsRange S N.np).visits y → (run S N .relations s).prim y = primitives N.g (s.q y) := fun y hy => if_pos hy
  rw [e]
  refine ⟨hr.1, hr.2.2.1, fun y hy => by rw [hr.2.1]; exact hv y hy, fun d c x hx => ?_⟩
  rw [hr.2.2.2.1 d (List.mem_finRange d) c x hx]
  exact stored_flux S N w h hN s.q _ hv d x hx c


/-! ## The sensor kernels -/

open Classical in
theorem run_derivatives (S : Setup D) (N : Params D) (L : List (Fin D × Fin D)) (b : ℕ) (s : Arrays D) :
    let t := runAll S N (L.mapIdx fun n ij => Ker.derivative (b + n) ij.1 ij.2) s
    t.q = s.q ∧ t.prim = s.prim ∧ t.kappa = s.kappa ∧
      ∀ n x, t.work n x = if b ≤ n ∧ OnGrid N.np x then (match L[n - b]? with
        | some ij => N.cd ij.2 (fun y => (s.prim y).u ij.1) x
        | none => s.work n x) else s.work n x := by
  induction L generalizing b s with
  | nil => intro t; refine ⟨rfl, rfl, rfl, fun n x => ?_⟩; simp; rfl
  | cons ij L ih =>
    intro t
    have e : t = runAll S N (L.mapIdx fun n ij => Ker.derivative (b + 1 + n) ij.1 ij.2) (run S N (.derivative b ij.1 ij.2) s) := by
      have hm : (fun (n : ℕ) (ij : Fin D × Fin D) => Ker.derivative (b + (n + 1)) ij.1 ij.2) = fun n ij => Ker.derivative (b + 1 + n) ij.1 ij.2 := by
        funext n ij; rw [Nat.add_assoc, Nat.add_comm 1 n]
      have : t = runAll S N (((ij :: L).mapIdx fun n ij => Ker.derivative (b + n) ij.1 ij.2)) s := rfl
      rw [this, List.mapIdx_cons, hm]
      rfl
    have h := ih (b + 1) (run S N (.derivative b ij.1 ij.2) s)
    rw [e]
    refine ⟨h.1, h.2.1, h.2.2.1, fun n x => ?_⟩
    rw [h.2.2.2 n x]
    have hw : (run S N (.derivative b ij.1 ij.2) s).work n x = if n = b ∧ (gridRange N.np).visits x then N.cd ij.2 (fun y => (s.prim y).u ij.1) x else s.work n x := rfl
    have hpr : (run S N (.derivative b ij.1 ij.2) s).prim = s.prim := rfl
    have hg : (gridRange N.np).visits x ↔ OnGrid N.np x := grid_visits N.np x
    rw [hw, hpr, hg]
    by_cases hx : OnGrid N.np x
    · rcases Nat.lt_trichotomy n b with hn | hn | hn
      · rw [if_neg (by omega), if_neg (by omega), if_neg (by omega)]
      · subst hn
        rw [if_neg (by omega), if_pos ⟨rfl, hx⟩, if_pos ⟨le_rfl, hx⟩, Nat.sub_self]
        rfl
      · have a1 : b + 1 ≤ n ∧ OnGrid N.np x := ⟨hn, hx⟩
        have a2 : b ≤ n ∧ OnGrid N.np x := ⟨hn.le, hx⟩
        have a3 : ¬(n = b ∧ OnGrid N.np x) := by omega
        rw [if_pos a1, if_pos a2, if_neg a3]
        obtain ⟨m, rfl⟩ : ∃ m, n = b + 1 + m := ⟨n - (b+1), by omega⟩
        rw [Nat.add_sub_cancel_left, show b + 1 + m - b = m + 1 by omega]
        rfl
    · simp [hx]

/-- Gradient of the velocity of the solution, with the stretching of the mesh. -/
noncomputable def velocityGradient (N : Params D) (q : P D → Fin (D+2) → ℝ) (x : P D) (i j : Fin D) : ℝ :=
  N.stretch j x * N.cd j (fun y => (freshPrims N.g q y).u i) x

open Classical in
/-- The sensor array: the sensor of the solution on the grid, whatever it held before elsewhere. -/
noncomputable def sensorArray (S : Setup D) (N : Params D) (q : P D → Fin (D+2) → ℝ) (old : P D → ℝ) (x : P D) : ℝ :=
  if OnGrid N.np x then
    (if S.mach then yeeSensor (localMach N.g (q x 0) (fun i => q x i.succ.castSucc) (q x (Fin.last _))) else 1) * (ducrosSensor D (velocityGradient N q x)).getD 0
  else old x

open Classical in
/-- What a flux array holds when the filter is applied: with `Central` a derivative of the velocity may have been put into the same array. -/
noncomputable def fluxRead (S : Setup D) (N : Params D) (q : P D → Fin (D+2) → ℝ) (d : Fin D) (x : P D) (c : Fin (D+2)) : ℝ :=
  if S.storeSome = false ∧ S.sensorStart ≤ reconWork S.start d c ∧ OnGrid N.np x then
    match S.listing[reconWork S.start d c - S.sensorStart]? with
    | some ij => N.cd ij.2 (fun y => (freshPrims N.g q y).u ij.1) x
    | none => filterFlux S N q d x c
  else filterFlux S N q d x c

/-- The update of `filter_application` for given sensor value and interface fluxes `F`. -/
noncomputable def filtered (S : Setup D) (N : Params D) (q : P D → Fin (D+2) → ℝ) (kappa : P D → ℝ) (F : Fin D → P D → Fin (D+2) → ℝ) (x : P D) (c : Fin (D+2)) : ℝ :=
  q x c + (wallControl (walls S) N.np x : ℝ) * N.control * kappa x * N.dt * -∑ d, N.stretch d x * ((F d x c - F d (shift x d (-1)) c) / N.delta d)

/-- The central derivatives of the sensor at grid points see nothing beyond the points where the relations are evaluated. -/
def DerivativesInside (S : Setup D) (N : Params D) : Prop :=
  ∀ (j : Fin D) (a b : P D → ℝ) (x : P D), OnGrid N.np x → (∀ y, (∀ d, -(S.k : ℤ) ≤ y d ∧ y d ≤ N.np d + S.k) → a y = b y) → N.cd j a x = N.cd j b x

theorem grid_in_relations (S : Setup D) (np : Fin D → ℤ) (x : P D) (hx : OnGrid np x) : (relationsRange S np).visits x := by
  rw [relations_visits]; intro d; have := hx d; omega

theorem grid_in_recon (np : Fin D → ℤ) (d : Fin D) (x : P D) (hx : OnGrid np x) : (reconRange np d).visits x ∧ (reconRange np d).visits (shift x d (-1)) := by
  constructor
  · rw [recon_visits]; intro j; have := hx j; split_ifs <;> omega
  · rw [recon_visits]
    intro j
    have := hx j
    by_cases h : j = d
    · subst h; simp only [shift, Function.update_self, if_pos]; omega
    · simp only [shift, Function.update_of_ne h, if_neg h]; omega

open Classical in
/-- The application kernel. -/
theorem run_apply (S : Setup D) (N : Params D) (sensor : Sensor) (mach : Bool) (t : Arrays D) (q : P D → Fin (D+2) → ℝ) (kappa : P D → ℝ) (F : Fin D → P D → Fin (D+2) → ℝ) (hq : t.q = q)
    (hk : ∀ x, OnGrid N.np x → (match sensor with
      | .ducros => kappaMax t.kappa x
      | _ => if mach then 1 * (t.prim x).mach else 1) = kappa x)
    (hF : ∀ d c x, (reconRange N.np d).visits x → t.work (reconWork S.start d c) x = F d x c) (x : P D) (c : Fin (D+2)) :
    (run S N (.apply (reconWork S.start) sensor mach) t).q x c = if OnGrid N.np x then filtered S N q kappa F x c else q x c := by
  simp only [run]
  by_cases hx : OnGrid N.np x
  · rw [if_pos ((grid_visits N.np x).2 hx), if_pos hx]
    unfold filtered wenoFilterUpdate
    have hsum : ∑ d, N.stretch d x * ((t.work (reconWork S.start d c) x - t.work (reconWork S.start d c) (shift x d (-1))) / N.delta d) =
        ∑ d, N.stretch d x * ((F d x c - F d (shift x d (-1)) c) / N.delta d) := Finset.sum_congr rfl fun d _ => by
      rw [hF d c x (grid_in_recon N.np d x hx).1, hF d c _ (grid_in_recon N.np d x hx).2]
    rw [hsum, hq]
    have := hk x hx
    cases sensor <;> simp only at this ⊢ <;> rw [this]
  · rw [if_neg fun h => hx ((grid_visits N.np x).1 h), if_neg hx, hq]

/-! ## The theorems -/

/-- C76: the filter can be made exactly for the orders 3, 5 and 7, after the boundary conditions have been set, with a constant sensor or, in two and three dimensions, with the Ducros sensor. -/
theorem C76_accepted_iff (S : Setup D) :
    (∃ ks, program S = .ok ks) ↔ (S.order = 3 ∨ S.order = 5 ∨ S.order = 7) ∧ S.boundaries ≠ none ∧ (S.sensor = .constant ∨ S.sensor = .ducros ∧ (D = 2 ∨ D = 3)) := by
  have ho : (∃ w, centralWeights S.order = some w) ↔ S.order = 3 ∨ S.order = 5 ∨ S.order = 7 := by
    constructor
    · rintro ⟨w, h⟩
      rcases orders_cases h with ⟨h, _⟩ | ⟨h, _⟩ | ⟨h, _⟩ <;> simp [h]
    · rintro (h | h | h) <;> rw [h] <;> exact ⟨_, rfl⟩
  rw [← ho]
  unfold program
  cases hw : centralWeights S.order with
  | none => simp
  | some w =>
    cases hb : S.boundaries with
    | none => simp
    | some b =>
      cases hs : S.sensor with
      | other => simp
      | constant => simp
      | ducros =>
        by_cases hD : D = 2 ∨ D = 3
        · simp [hD]
        · simp [hD]

theorem program_weights {S : Setup D} {ks : List (Ker D)} (h : program S = .ok ks) : ∃ w, centralWeights S.order = some w := by
  unfold program at h
  cases hw : centralWeights S.order with
  | none => rw [hw] at h; cases h
  | some w => exact ⟨w, rfl⟩

theorem runAll_append (S : Setup D) (N : Params D) (a b : List (Ker D)) (s : Arrays D) : runAll S N (a ++ b) s = runAll S N b (runAll S N a s) := by
  simp [runAll, List.foldl_append]

open Classical in
/-- C76: with the constant sensor one application of the filter replaces the solution at every grid point by the update computed from the solution before it, whatever the other arrays held; the sensor value is one, or
the Mach number control of the point if that was asked for. Points outside the grid are not touched. -/
theorem C76_step_constant (S : Setup D) (N : Params D) (hN : Consistent S N) (ks : List (Ker D)) (h : program S = .ok ks) (hs : S.sensor = .constant) (s : Arrays D) (x : P D) (c : Fin (D+2)) :
    (runAll S N ks s).q x c = if OnGrid N.np x then
      filtered S N s.q (fun y => if S.mach then yeeSensor (localMach N.g (s.q y 0) (fun i => s.q y i.succ.castSucc) (s.q y (Fin.last _))) else 1) (filterFlux S N s.q) x c else s.q x c := by
  obtain ⟨w, hw⟩ := program_weights h
  have hks : ks = (Ker.relations :: (List.finRange D).map fun d => Ker.recon d (reconWork S.start d)) ++ [.apply (reconWork S.start) .constant S.mach] := by
    unfold program at h
    rw [hw, hs] at h
    cases hb : S.boundaries with
    | none => rw [hb] at h; cases h
    | some b => rw [hb] at h; injection h with h; exact h.symm
  rw [hks, runAll_append]
  have ha := after_reconstructions S N w hw hN s
  refine run_apply S N .constant S.mach _ s.q _ _ ha.1 (fun y hy => ?_) ha.2.2.2 x c
  simp only
  rw [ha.2.2.1 y (grid_in_relations S N.np y hy), one_mul]
  rfl

open Classical in
/-- C76, all cases of the Ducros sensor: exactly what is computed, including the arrays shared between fluxes and velocity derivatives. -/
theorem C76_step_ducros (S : Setup D) (N : Params D) (hN : Consistent S N) (hcd : DerivativesInside S N) (hall : ∀ ij, ij ∈ S.listing)
    (ks : List (Ker D)) (h : program S = .ok ks) (hs : S.sensor = .ducros) (s : Arrays D) (x : P D) (c : Fin (D+2)) :
    (runAll S N ks s).q x c = if OnGrid N.np x then filtered S N s.q (kappaMax (sensorArray S N s.q s.kappa)) (fluxRead S N s.q) x c else s.q x c := by
  obtain ⟨w, hw⟩ := program_weights h
  have hks : ks = (Ker.relations :: (List.finRange D).map fun d => Ker.recon d (reconWork S.start d)) ++ sensorKernels S ++ [.apply (reconWork S.start) .ducros S.mach] := by
    unfold program at h
    rw [hw, hs] at h
    cases hb : S.boundaries with
    | none => rw [hb] at h; cases h
    | some b =>
      rw [hb] at h
      simp only at h
      split_ifs at h with hD
      injection h with h; exact h.symm
  rw [hks, runAll_append, runAll_append]
  obtain ⟨hq, hkap, hprim, hwork⟩ := after_reconstructions S N w hw hN s
  set t := runAll S N (Ker.relations :: (List.finRange D).map fun d => Ker.recon d (reconWork S.start d)) s with ht
  have hgrad : ∀ i j y, OnGrid N.np y → N.cd j (fun z => (t.prim z).u i) y = N.cd j (fun z => (freshPrims N.g s.q z).u i) y := fun i j y hy =>
    hcd j _ _ y hy fun z hz => by
      have := hprim z ((relations_visits S N.np z).2 hz)
      simp only [this]; rfl
  suffices hsens : (runAll S N (sensorKernels S) t).q = s.q ∧ (∀ y, (runAll S N (sensorKernels S) t).kappa y = sensorArray S N s.q s.kappa y) ∧
      ∀ d c y, (reconRange N.np d).visits y → (runAll S N (sensorKernels S) t).work (reconWork S.start d c) y = fluxRead S N s.q d y c by
    refine run_apply S N .ducros S.mach _ s.q _ _ hsens.1 (fun y hy => ?_) hsens.2.2 x c
    have : (runAll S N (sensorKernels S) t).kappa = sensorArray S N s.q s.kappa := funext hsens.2.1
    simp only [this]
  unfold sensorKernels
  split_ifs with hss
  · refine ⟨hq, fun y => ?_, fun d c y hy => ?_⟩
    · have e : (runAll S N [Ker.sensor none] t).kappa y = if (gridRange N.np).visits y then
          sensorValue S.mach (t.prim y) fun i j => N.stretch j y * N.cd j (fun z => (t.prim z).u i) y else t.kappa y := rfl
      rw [e, sensorArray]
      by_cases hy : OnGrid N.np y
      · rw [if_pos ((grid_visits N.np y).2 hy), if_pos hy, hprim y (grid_in_relations S N.np y hy)]
        simp only [hgrad _ _ y hy]
        rfl
      · rw [if_neg fun h => hy ((grid_visits N.np y).1 h), if_neg hy, hkap]
    · rw [fluxRead, if_neg (by simp [hss]), ← hwork d c y hy]; rfl
  · rw [runAll_append]
    obtain ⟨d1, d2, d3, d4⟩ := run_derivatives S N S.listing S.sensorStart t
    set t' := runAll S N (S.listing.mapIdx fun n ij => Ker.derivative (S.sensorStart + n) ij.1 ij.2) t with ht'
    refine ⟨d1.trans hq, fun y => ?_, fun d c y hy => ?_⟩
    · have e : (runAll S N [Ker.sensor (some (derivativeWork S))] t').kappa y = if (gridRange N.np).visits y then
          sensorValue S.mach (t'.prim y) fun i j => N.stretch j y * t'.work (derivativeWork S i j) y else t'.kappa y := rfl
      rw [e, sensorArray]
      by_cases hy : OnGrid N.np y
      · rw [if_pos ((grid_visits N.np y).2 hy), if_pos hy, d2, hprim y (grid_in_relations S N.np y hy)]
        have hg : ∀ i j, t'.work (derivativeWork S i j) y = N.cd j (fun z => (freshPrims N.g s.q z).u i) y := by
          intro i j
          have hlt : S.listing.idxOf (i, j) < S.listing.length := List.idxOf_lt_length_iff.2 (hall (i, j))
          rw [d4, if_pos ⟨by simp [derivativeWork], hy⟩, derivativeWork, Nat.add_sub_cancel_left, List.getElem?_eq_getElem hlt, List.getElem_idxOf hlt]
          exact hgrad i j y hy
        simp only [hg]
        rfl
      · rw [if_neg fun h => hy ((grid_visits N.np y).1 h), if_neg hy, d3, hkap]
    · have e : (runAll S N [Ker.sensor (some (derivativeWork S))] t').work = t'.work := rfl
      rw [e, d4, fluxRead]
      by_cases hc : S.sensorStart ≤ reconWork S.start d c ∧ OnGrid N.np y
      · rw [if_pos hc, if_pos ⟨by simpa using hss, hc⟩]
        cases S.listing[reconWork S.start d c - S.sensorStart]? with
        | none => exact hwork d c y hy
        | some ij => exact hgrad ij.1 ij.2 y hc.2
      · rw [if_neg hc, if_neg fun h => hc h.2]
        exact hwork d c y hy

theorem ducros_separate (S : Setup D) (N : Params D) (q : P D → Fin (D+2) → ℝ)
    (h : S.storeSome = true ∨ S.sensorStart + S.listing.length ≤ S.start ∨ S.start + D * (D+2) ≤ S.sensorStart) : fluxRead S N q = filterFlux S N q := by
  funext d x c
  unfold fluxRead
  split_ifs with hc
  · have hlt : reconWork S.start d c < S.start + D * (D+2) := by
      have h1 := d.2
      have h2 := c.2
      have : (d : ℕ) * (D+2) + (D+2) ≤ D * (D+2) := by rw [← Nat.succ_mul]; exact Nat.mul_le_mul_right _ h1
      simp only [reconWork]; omega
    have hge : S.start ≤ reconWork S.start d c := by simp only [reconWork]; omega
    rcases h with h | h | h
    · rw [h] at hc; exact absurd hc.1 (by simp)
    · rw [List.getElem?_eq_none (by omega)]
    · omega
  · rfl


open Classical in
/-- C76: with `StoreSome`, or when the numbers of the two groups of work arrays are apart, the Ducros variant applies the filter fluxes of the solution, weighted with the largest sensor value nearby. What is missing for
the full claim: arrays that are shared (`C76_step_ducros`), sensor values outside the grid, which are whatever the array held before. -/
theorem C76_step_ducros_partial (S : Setup D) (N : Params D) (hN : Consistent S N) (hcd : DerivativesInside S N) (hall : ∀ ij, ij ∈ S.listing)
    (hsep : S.storeSome = true ∨ S.sensorStart + S.listing.length ≤ S.start ∨ S.start + D * (D+2) ≤ S.sensorStart)
    (ks : List (Ker D)) (h : program S = .ok ks) (hs : S.sensor = .ducros) (s : Arrays D) (x : P D) (c : Fin (D+2)) :
    (runAll S N ks s).q x c = if OnGrid N.np x then filtered S N s.q (kappaMax (sensorArray S N s.q s.kappa)) (filterFlux S N s.q) x c else s.q x c := by
  rw [C76_step_ducros S N hN hcd hall ks h hs s x c, ducros_separate S N s.q hsep]

/-- C76, against the expectation: `Central` numbers its work arrays from the index left by the simulation equations, zero, where the fluxes of the filter begin as well. With `start = sensorStart` the derivatives of the
velocity replace the first `listing.length` flux arrays on the grid before the filter is applied: in two dimensions (four derivatives, four components) all fluxes of direction 0, in three dimensions (nine and
five) those of direction 0 and four components of direction 1. -/
theorem C76_central_overwrites_fluxes (S : Setup D) (N : Params D) (hs : S.storeSome = false) (hst : S.start = S.sensorStart) (q : P D → Fin (D+2) → ℝ) (d : Fin D) (c : Fin (D+2)) (x : P D) (hx : OnGrid N.np x) :
    fluxRead S N q d x c = if h : (d : ℕ) * (D+2) + c < S.listing.length then
      N.cd (S.listing[(d : ℕ) * (D+2) + c]).2 (fun y => q y (S.listing[(d : ℕ) * (D+2) + c]).1.succ.castSucc / q y 0) x else filterFlux S N q d x c := by
  have e : reconWork S.start d c - S.sensorStart = (d : ℕ) * (D+2) + c := by simp only [reconWork]; omega
  rw [fluxRead, if_pos ⟨hs, by simp only [reconWork]; omega, hx⟩, e]
  split_ifs with h
  · rw [List.getElem?_eq_getElem h]
    simp [freshPrims, primitives, div_eq_mul_inv]
  · rw [List.getElem?_eq_none (by omega)]

theorem listing_length (L : List (Fin D × Fin D)) (hall : ∀ ij, ij ∈ L) (hnd : L.Nodup) : L.length = D * D := by
  have h1 : L.toFinset = Finset.univ := Finset.eq_univ_iff_forall.2 fun ij => List.mem_toFinset.2 (hall ij)
  have h2 := List.toFinset_card_of_nodup hnd
  rw [h1, Finset.card_univ, Fintype.card_prod, Fintype.card_fin] at h2
  exact h2.symm

/-- C76, the consequence in two dimensions: at a grid point whose lower neighbour in direction 0 is a grid point too, the filtered solution contains differences of a velocity derivative in place of the fluxes of direction 0. -/
theorem C76_two_dimensional_defect (S : Setup 2) (N : Params 2) (hN : Consistent S N) (hcd : DerivativesInside S N) (hall : ∀ ij, ij ∈ S.listing) (hnd : S.listing.Nodup)
    (ks : List (Ker 2)) (h : program S = .ok ks) (hs : S.sensor = .ducros) (hss : S.storeSome = false) (hst : S.start = S.sensorStart) (s : Arrays 2) (x : P 2) (c : Fin 4)
    (hx : OnGrid N.np x) (hx1 : 1 ≤ x 0) (hc : (c : ℕ) < S.listing.length) :
    (runAll S N ks s).q x c = s.q x c + (wallControl (walls S) N.np x : ℝ) * N.control * kappaMax (sensorArray S N s.q s.kappa) x * N.dt *
      -(N.stretch 0 x * ((N.cd S.listing[(c : ℕ)].2 (fun y => s.q y S.listing[(c : ℕ)].1.succ.castSucc / s.q y 0) x -
            N.cd S.listing[(c : ℕ)].2 (fun y => s.q y S.listing[(c : ℕ)].1.succ.castSucc / s.q y 0) (shift x 0 (-1))) / N.delta 0) +
        N.stretch 1 x * ((filterFlux S N s.q 1 x c - filterFlux S N s.q 1 (shift x 1 (-1)) c) / N.delta 1)) := by
  have hlen : S.listing.length = 4 := listing_length _ hall hnd
  rw [C76_step_ducros S N hN hcd hall ks h hs s x c, if_pos hx, filtered, Fin.sum_univ_two]
  have hx0 : OnGrid N.np (shift x 0 (-1)) := fun d => by
    have := hx d
    by_cases hd : d = 0
    · subst hd; simp only [shift, Function.update_self]; omega
    · simp only [shift, Function.update_of_ne hd]; exact this
  have f0 : ∀ y, OnGrid N.np y → fluxRead S N s.q 0 y c = N.cd S.listing[(c : ℕ)].2 (fun y => s.q y S.listing[(c : ℕ)].1.succ.castSucc / s.q y 0) y := fun y hy => by
    rw [C76_central_overwrites_fluxes S N hss hst s.q 0 c y hy]
    have e : ((0 : Fin 2) : ℕ) * (2+2) + (c : ℕ) = c := by simp
    simp only [e, hc, dif_pos]
  have f1 : ∀ y, fluxRead S N s.q 1 y c = filterFlux S N s.q 1 y c := fun y => by
    have e : reconWork S.start (1 : Fin 2) c - S.sensorStart = 4 + c := by simp only [reconWork]; simp; omega
    unfold fluxRead
    split_ifs
    · rw [e, List.getElem?_eq_none (by omega)]
    · rfl
  rw [f0 x hx, f0 _ hx0, f1, f1]

/-! ## Uniform flow, sensor values -/

theorem uniform_flux (S : Setup D) (N : Params D) (w : List ℚ) (h : centralWeights S.order = some w) (hN : Consistent S N) (q : P D → Fin (D+2) → ℝ) (q0 : Fin (D+2) → ℝ)
    (hq : ∀ y, (∀ d, -(S.k : ℤ) ≤ y d ∧ y d ≤ N.np d + S.k) → q y = q0) (d : Fin D) (x : P D) (hx : (reconRange N.np d).visits x) (c : Fin (D+2)) : filterFlux S N q d x c = 0 := by
  have hk := order_k h
  have hp : ∀ p : ℤ, -(S.k : ℤ) < p → p ≤ S.k → q (shift x d p) = q0 := by
    intro p h1 h2
    apply hq
    intro j
    have hj := (recon_visits N.np d x).1 hx j
    by_cases hd : j = d
    · subst hd
      rw [if_pos rfl, if_pos rfl] at hj
      simp only [shift, Function.update_self]
      omega
    · rw [if_neg hd, if_neg hd] at hj
      simp only [shift, Function.update_of_ne hd]
      omega
  unfold filterFlux
  rw [scheme, C76_no_flux_on_linear_waves S.order w h S.k hk.2.2 N.dz hN.dz N.d hN.optimal]
  · rfl
  · intro i
    refine ⟨((lineOf N.eig q (freshPrims N.g q) d x).LEV 0 *ᵥ fluxes d q0 (primitives N.g q0)) i, 0, ((lineOf N.eig q (freshPrims N.g q) d x).LEV 0 *ᵥ q0) i, 0, fun p h1 h2 => ?_⟩
    have e1 : (lineOf N.eig q (freshPrims N.g q) d x).f (0 + p) = fluxes d q0 (primitives N.g q0) := by
      simp only [lineOf, zero_add, freshPrims, hp p h1 h2]
    have e2 : (lineOf N.eig q (freshPrims N.g q) d x).q (0 + p) = q0 := by
      simp only [lineOf, zero_add, hp p h1 h2]
    rw [e1, e2]
    simp

/-- C76: a uniform flow is not changed by the filter, for every sensor, order, eigensystem and content of the other arrays, with separate work arrays and without (the central derivative of a uniform velocity being zero). -/
theorem C76_uniform_flow_unchanged (S : Setup D) (N : Params D) (hN : Consistent S N) (hcd : DerivativesInside S N) (hzero : ∀ j a x, N.cd j (fun _ => a) x = 0) (hall : ∀ ij, ij ∈ S.listing)
    (ks : List (Ker D)) (h : program S = .ok ks) (s : Arrays D) (q0 : Fin (D+2) → ℝ) (hq : ∀ y, (∀ d, -(S.k : ℤ) ≤ y d ∧ y d ≤ N.np d + S.k) → s.q y = q0) :
    (runAll S N ks s).q = s.q := by
  obtain ⟨w, hw⟩ := program_weights h
  have hf : ∀ d x c, (reconRange N.np d).visits x → filterFlux S N s.q d x c = 0 := fun d x c hx => uniform_flux S N w hw hN s.q q0 hq d x hx c
  have hu : ∀ kap F x c, OnGrid N.np x → (∀ d x, (reconRange N.np d).visits x → F d x c = 0) → filtered S N s.q kap F x c = s.q x c := fun kap F x c hx hF => by
    rw [filtered, Finset.sum_eq_zero fun d _ => by rw [hF d x (grid_in_recon N.np d x hx).1, hF d _ (grid_in_recon N.np d x hx).2]; simp]
    simp
  have hacc := (C76_accepted_iff S).1 ⟨ks, h⟩
  funext x c
  rcases hacc.2.2 with hs | ⟨hs, -⟩
  · rw [C76_step_constant S N hN ks h hs s x c]
    by_cases hx : OnGrid N.np x
    · rw [if_pos hx]; exact hu _ _ x c hx fun d y hy => hf d y c hy
    · rw [if_neg hx]
  · rw [C76_step_ducros S N hN hcd hall ks h hs s x c]
    split_ifs with hx
    · refine hu _ _ x c hx fun d y hy => ?_
      unfold fluxRead
      split_ifs with hy'
      · cases S.listing[reconWork S.start d c - S.sensorStart]? with
        | none => exact hf d y c hy
        | some ij =>
          simp only
          rw [hcd ij.2 _ (fun _ => (primitives N.g q0).u ij.1) y hy'.2.2 fun z hz => by simp only [freshPrims, hq z hz], hzero]
      · exact hf d y c hy
    · rfl

/-- C76: with `0 ≤` old values `≤ 1` outside the grid, the weight of the update, the largest sensor value nearby, lies between 0 and 1 at every grid point. -/
theorem C76_sensor_weight (S : Setup D) (N : Params D) (q : P D → Fin (D+2) → ℝ) (old : P D → ℝ) (hold : ∀ y, 0 ≤ old y ∧ old y ≤ 1) (hD : D = 2 ∨ D = 3) (x : P D) :
    0 ≤ kappaMax (sensorArray S N q old) x ∧ kappaMax (sensorArray S N q old) x ≤ 1 := by
  have hb : ∀ y, 0 ≤ sensorArray S N q old y ∧ sensorArray S N q old y ≤ 1 := fun y => by
    unfold sensorArray
    by_cases hy : OnGrid N.np y
    · rw [if_pos hy]
      obtain ⟨th, hth⟩ := Option.isSome_iff_exists.1 ((C54_defined_iff D (velocityGradient N q y)).2 hD)
      rw [hth, Option.getD_some]
      have hr := C54_range D _ th hth
      have hm : 0 ≤ (if S.mach then yeeSensor (localMach N.g (q y 0) (fun i => q y i.succ.castSucc) (q y (Fin.last _))) else 1) ∧
          (if S.mach then yeeSensor (localMach N.g (q y 0) (fun i => q y i.succ.castSucc) (q y (Fin.last _))) else 1) ≤ 1 := by
        split_ifs
        · exact ⟨(C54_mach_control _).1, (C54_mach_control _).2.1⟩
        · norm_num
      exact ⟨mul_nonneg hm.1 hr.1, mul_le_one₀ hm.2 hr.1 hr.2.1.le⟩
    · rw [if_neg hy]; exact hold y
  have hle : ∀ b, kappaMax (sensorArray S N q old) x ≤ b ↔ sensorArray S N q old x ≤ b ∧ ∀ d ∈ List.finRange D, ∀ j ∈ ([-2, -1, 0, 1, 2] : List ℤ), sensorArray S N q old (shift x d j) ≤ b :=
    fun b => foldl_foldl_max_le _ _ _ _ b
  exact ⟨(hb x).1.trans ((hle _).1 le_rfl).1, (hle 1).2 ⟨(hb x).2, fun d _ j _ => (hb _).2⟩⟩


/-! ## Conservation -/

/-- The solution is periodic in every direction as far as the filter reads it. -/
def Periodic (S : Setup D) (np : Fin D → ℤ) (q : P D → Fin (D+2) → ℝ) : Prop :=
  ∀ (d : Fin D) (y : P D), (∀ j, j ≠ d → 0 ≤ y j ∧ y j < np j) → -(S.k : ℤ) ≤ y d → y d < S.k → q y = q (shift y d (np d))

theorem shift_shift (x : P D) (d : Fin D) (a b : ℤ) : shift (shift x d a) d b = shift x d (a + b) := by
  unfold shift; simp [add_assoc]

theorem shift_comm' (x : P D) (d : Fin D) (a b : ℤ) : shift (shift x d a) d b = shift (shift x d b) d a := by
  rw [shift_shift, shift_shift, add_comm]

theorem periodic_flux (S : Setup D) (N : Params D) (w : List ℚ) (h : centralWeights S.order = some w) (hN : Consistent S N) (q : P D → Fin (D+2) → ℝ) (hq : Periodic S N.np q)
    (d : Fin D) (y : P D) (hy : ∀ j, j ≠ d → 0 ≤ y j ∧ y j < N.np j) (hyd : y d = -1) (c : Fin (D+2)) : filterFlux S N q d y c = filterFlux S N q d (shift y d (N.np d)) c := by
  have hk := order_k h
  have hp : ∀ p : ℤ, -(S.k : ℤ) < p → p ≤ S.k → q (shift y d p) = q (shift (shift y d (N.np d)) d p) := fun p h1 h2 => by
    rw [shift_comm']
    apply hq
    · intro j hj; simp only [shift, Function.update_of_ne hj]; exact hy j hj
    · simp only [shift, Function.update_self]; omega
    · simp only [shift, Function.update_self]; omega
  unfold filterFlux
  rw [scheme, interfaceOut_congr S.order S.k hk.1 N.dz hN.dz N.d hN.optimal (lineOf N.eig q (freshPrims N.g q) d y) (lineOf N.eig q (freshPrims N.g q) d (shift y d (N.np d))) 0 0]
  · simp only [lineOf, freshPrims]
    rw [hp 0 (by omega) (by omega), hp (0+1) (by omega) (by omega)]
  · simp only [lineOf, freshPrims]
    rw [hp 0 (by omega) (by omega), hp (0+1) (by omega) (by omega)]
  · intro p h1 h2
    simp only [lineOf, zero_add, freshPrims]
    rw [hp p h1 h2]
    exact ⟨rfl, rfl, rfl⟩

/-- All grid points. -/
noncomputable def gridPoints (np : Fin D → ℤ) : Finset (P D) := Fintype.piFinset fun d => Finset.Ico 0 (np d)

theorem mem_gridPoints (np : Fin D → ℤ) (x : P D) : x ∈ gridPoints np ↔ OnGrid np x := by
  simp [gridPoints, OnGrid]

/-- Sums over the grid do not see a shift of a periodic quantity. -/
theorem sum_shift (np : Fin D → ℤ) (d : Fin D) (F : P D → ℝ) (hF : ∀ y, (∀ j, j ≠ d → 0 ≤ y j ∧ y j < np j) → y d = -1 → F y = F (shift y d (np d))) :
    ∑ x ∈ gridPoints np, F (shift x d (-1)) = ∑ x ∈ gridPoints np, F x := by
  refine Finset.sum_nbij' (fun x => if x d = 0 then shift x d (np d - 1) else shift x d (-1)) (fun x => if x d = np d - 1 then shift x d (-(np d - 1)) else shift x d 1) ?_ ?_ ?_ ?_ ?_
  · intro x hx
    rw [mem_gridPoints] at hx ⊢
    intro j
    have hj := hx j
    have hd := hx d
    by_cases h : j = d
    · subst h; split_ifs <;> simp only [shift, Function.update_self] <;> omega
    · split_ifs <;> simp only [shift, Function.update_of_ne h] <;> exact hj
  · intro x hx
    rw [mem_gridPoints] at hx ⊢
    intro j
    have hj := hx j
    have hd := hx d
    by_cases h : j = d
    · subst h; split_ifs <;> simp only [shift, Function.update_self] <;> omega
    · split_ifs <;> simp only [shift, Function.update_of_ne h] <;> exact hj
  · intro x hx
    rw [mem_gridPoints] at hx
    have hd := hx d
    have h0 : shift x d 0 = x := by simp [shift]
    by_cases h : x d = 0
    · simp only [h, if_true]
      have : (shift x d (np d - 1)) d = np d - 1 := by simp [shift, h]
      rw [if_pos this, shift_shift]; simpa using h0
    · simp only [h, if_false]
      have : ¬(shift x d (-1)) d = np d - 1 := by simp only [shift, Function.update_self]; omega
      rw [if_neg this, shift_shift]; simpa using h0
  · intro x hx
    rw [mem_gridPoints] at hx
    have hd := hx d
    have h0 : shift x d 0 = x := by simp [shift]
    by_cases h : x d = np d - 1
    · simp only [h, if_true]
      have : (shift x d (-(np d - 1))) d = 0 := by simp only [shift, Function.update_self]; omega
      rw [if_pos this, shift_shift]; simpa using h0
    · simp only [h, if_false]
      have : ¬(shift x d 1) d = 0 := by simp only [shift, Function.update_self]; omega
      rw [if_neg this, shift_shift]; simpa using h0
  · intro x hx
    rw [mem_gridPoints] at hx
    by_cases h : x d = 0
    · simp only [h, if_true]
      rw [hF _ (fun j hj => by simp only [shift, Function.update_of_ne hj]; exact hx j) (by simp [shift, h]), shift_shift, neg_add_eq_sub]
    · simp only [h, if_false]

theorem no_walls (S : Setup D) (hw : ∀ d, walls S d = (false, false)) (np : Fin D → ℤ) (x : P D) : wallControl (walls S) np x = 1 := by
  unfold wallControl
  have : ((List.finRange D).flatMap fun dir => (if (walls S dir).1 then [decide (x dir ≤ 5)] else []) ++ (if (walls S dir).2 then [decide (x dir ≥ np dir - 6)] else [])) = [] := by
    rw [List.flatMap_eq_nil_iff]
    intro d _
    rw [hw d]
    simp
  simp only [this]
  rfl

/-- C76: conservation. What is missing: varying sensors and wall zones, for which the fluxes are multiplied after the difference is taken. On a periodic uniform mesh without walls, with the constant sensor and without Mach number control, the filter preserves the sum of every conserved variable over the grid. -/
theorem C76_conserves_partial (S : Setup D) (N : Params D) (hN : Consistent S N) (ks : List (Ker D)) (h : program S = .ok ks) (hs : S.sensor = .constant) (hm : S.mach = false)
    (hw : ∀ d, walls S d = (false, false)) (hst : ∀ d x, N.stretch d x = 1) (s : Arrays D) (hq : Periodic S N.np s.q) (c : Fin (D+2)) :
    ∑ x ∈ gridPoints N.np, (runAll S N ks s).q x c = ∑ x ∈ gridPoints N.np, s.q x c := by
  obtain ⟨w, hwt⟩ := program_weights h
  have h1 : ∀ x ∈ gridPoints N.np, (runAll S N ks s).q x c = s.q x c + -(N.control * N.dt) * ∑ d, (filterFlux S N s.q d x c - filterFlux S N s.q d (shift x d (-1)) c) / N.delta d := fun x hx => by
    rw [C76_step_constant S N hN ks h hs s x c, if_pos ((mem_gridPoints N.np x).1 hx), filtered, no_walls S hw]
    simp only [hm, hst]
    push_cast
    simp only [one_mul, mul_one, if_false, Bool.false_eq_true]
    ring
  rw [Finset.sum_congr rfl h1, Finset.sum_add_distrib, ← Finset.mul_sum, Finset.sum_comm]
  have h2 : ∀ d ∈ (Finset.univ : Finset (Fin D)), ∑ x ∈ gridPoints N.np, (filterFlux S N s.q d x c - filterFlux S N s.q d (shift x d (-1)) c) / N.delta d = 0 := fun d _ => by
    rw [← Finset.sum_div, Finset.sum_sub_distrib, sum_shift N.np d (fun x => filterFlux S N s.q d x c) fun y hy hyd => periodic_flux S N w hwt hN s.q hq d y hy hyd c, sub_self, zero_div]
  rw [Finset.sum_eq_zero h2, mul_zero, add_zero]


/-! ## Reads of the sensor -/

/-- The central scheme of the given order away from boundaries, `Central.discretise` on the line through a point. -/
noncomputable def centralDerivative (order : ℕ) (delta : Fin D → ℝ) (j : Fin D) (a : P D → ℝ) (x : P D) : ℝ := Central.discretise order 1 (delta j) (fun p => a (shift x j p)) 0

/-- C76: the sensor sees velocities of the current solution only, if the central scheme reaches no further than the filter: half its order at most `k` (3 for a filter of order 5). -/
theorem C76_sensor_reads_inside (S : Setup D) (N : Params D) (order : ℕ) (hN : N.cd = centralDerivative order N.delta) (ho : order / 2 ≤ S.k) : DerivativesInside S N := by
  intro j a b x hx hab
  rw [hN]
  unfold centralDerivative Central.discretise
  congr 1
  refine Finset.sum_congr rfl fun p hp => ?_
  simp only [zero_add]
  rw [hab (shift x j p)]
  intro d
  have hd := hx d
  rw [Central.points, Finset.mem_Ico] at hp
  by_cases h : d = j
  · subst h; simp only [shift, Function.update_self]; omega
  · simp only [shift, Function.update_of_ne h]; omega

theorem central_reads (m : ℕ) (hm : m = 3 ∨ m = 4) : ∃ v : ℝ, v ≠ 0 ∧ ∀ f : ℤ → ℝ, (∀ p : ℤ, p ≠ -(m : ℤ) → f p = 0) → ∑ p ∈ Central.points (2 * m), Central.weight ℝ (2 * m) 1 p * f p = v * f (-(m : ℤ)) := by
  rcases hm with rfl | rfl
  · refine ⟨-1/60, by norm_num, fun f hf => ?_⟩
    rw [central6, hf (-2) (by norm_num), hf (-1) (by norm_num), hf 1 (by norm_num), hf 2 (by norm_num), hf 3 (by norm_num)]
    push_cast; ring
  · refine ⟨1/280, by norm_num, fun f hf => ?_⟩
    rw [central8, hf (-3) (by norm_num), hf (-2) (by norm_num), hf (-1) (by norm_num), hf 1 (by norm_num), hf 2 (by norm_num), hf 3 (by norm_num), hf 4 (by norm_num)]
    push_cast; ring

/-- C76, against the expectation: with a central scheme of order 6 or 8 and a filter of lower order (half the order of the scheme larger than `k`) the sensor at the first grid points reads velocities which the filter has not
evaluated; they are left from the last stage of the time step. -/
theorem C76_sensor_reads_stale (S : Setup D) (N : Params D) (m : ℕ) (hm : m = 3 ∨ m = 4) (hN : N.cd = centralDerivative (2 * m) N.delta) (hk : S.k < m) (j : Fin D) (hdel : N.delta j ≠ 0) (hnp : ∀ d, 0 < N.np d) :
    ¬DerivativesInside S N := by
  intro h
  obtain ⟨v, hv, hsum⟩ := central_reads m hm
  have h0 := h j (fun y => if y = shift (fun _ => 0) j (-(m : ℤ)) then 1 else 0) (fun _ => 0) (fun _ => 0) (fun d => ⟨le_rfl, hnp d⟩) fun y hy => by
    refine if_neg fun e => ?_
    have := hy j
    rw [e] at this
    simp only [shift, Function.update_self] at this
    omega
  rw [hN] at h0
  unfold centralDerivative Central.discretise at h0
  simp only [zero_add, mul_zero, Finset.sum_const_zero, zero_mul] at h0
  rw [hsum (fun p => if shift (fun _ => 0) j p = shift (fun _ => (0 : ℤ)) j (-(m : ℤ)) then 1 else 0) fun p hp => if_neg fun e => hp (by
    have := congrFun e j
    simpa [shift] using this)] at h0
  rw [if_pos rfl, mul_one] at h0
  exact absurd h0 (by simp [hv, hdel])

/-! ## Walls and metrics -/

/-- C76: the filter is switched off at the six points next to a side whose boundary condition is an adiabatic or isothermal wall, nowhere else; symmetry planes, inviscid walls, forcing strips and split conditions are
not taken for walls. -/
theorem C76_wall_zone (S : Setup D) (b : Fin D → Bc × Bc) (hb : S.boundaries = some b) (np : Fin D → ℤ) (x : P D) :
    wallControl (walls S) np x = if ∃ d, ((b d).1 ∈ [Bc.adiabaticWall, .adiabaticWallCarpenter, .isothermalWall] ∧ x d ≤ 5) ∨
      ((b d).2 ∈ [Bc.adiabaticWall, .adiabaticWallCarpenter, .isothermalWall] ∧ np d - 6 ≤ x d) then 0 else 1 := by
  have hi : ∀ c : Bc, c.isWall = true ↔ c ∈ [Bc.adiabaticWall, .adiabaticWallCarpenter, .isothermalWall] := by intro c; cases c <;> simp [Bc.isWall]
  have hw : ∀ d, walls S d = ((b d).1.isWall, (b d).2.isWall) := fun d => by rw [walls, hb]
  unfold wallControl
  simp only
  cases hf : (List.flatMap (fun dir => (if (walls S dir).1 = true then [decide (x dir ≤ 5)] else []) ++ if (walls S dir).2 = true then [decide (x dir ≥ np dir - 6)] else []) (List.finRange D)).find? (fun x => decide (x = true)) with
  | none =>
    rw [List.find?_eq_none] at hf
    simp only
    rw [if_neg]
    rintro ⟨d, ⟨h1, h2⟩ | ⟨h1, h2⟩⟩
    · refine hf true ?_ (by simp)
      rw [List.mem_flatMap]
      refine ⟨d, List.mem_finRange d, ?_⟩
      rw [hw d]
      simp [(hi _).2 h1, h2]
    · refine hf true ?_ (by simp)
      rw [List.mem_flatMap]
      refine ⟨d, List.mem_finRange d, ?_⟩
      rw [hw d]
      simp [(hi _).2 h1, h2]
  | some v =>
    simp only
    have hv : v = true := by simpa using List.find?_some hf
    have hm := List.mem_of_find?_eq_some hf
    subst hv
    rw [List.mem_flatMap] at hm
    obtain ⟨d, -, hd⟩ := hm
    rw [hw d] at hd
    rw [if_pos]
    refine ⟨d, ?_⟩
    rw [List.mem_append] at hd
    rcases hd with hd | hd
    · left
      by_cases hc : (b d).1.isWall = true
      · simp [hc] at hd; exact ⟨(hi _).1 hc, hd⟩
      · simp [hc] at hd
    · right
      by_cases hc : (b d).2.isWall = true
      · simp [hc] at hd; exact ⟨(hi _).1 hc, by omega⟩
      · simp [hc] at hd

/-- C76, against the expectation: the eigensystem uses the metrics only if exactly one metric class, not a stretching, is among the equations already set on the block. The filter is given its metrics separately and is made
before the equations are set: its eigensystem is then the Cartesian one whatever the metrics of its equations are. -/
theorem C76_eigensystem_metrics (classes : List EqClass) :
    (eigenUsesMetrics classes = some true ↔ classes.filter (· ≠ .other) = [.metrics false]) ∧ eigenUsesMetrics [] = some false := by
  refine ⟨?_, rfl⟩
  have hno : ∀ e ∈ classes.filter (· ≠ .other), e ≠ EqClass.other := fun e he => by simpa using (List.mem_filter.1 he).2
  unfold eigenUsesMetrics
  generalize classes.filter (· ≠ .other) = l at hno
  match l with
  | [] => simp
  | [.metrics d] => cases d <;> simp
  | [.other] => exact absurd rfl (hno .other (by simp))
  | a :: b :: l => simp

/-! ## A concrete case -/

/-- A two-dimensional filter of order 5 with Ducros sensor and `Central`, set up after boundary conditions with a wall at the bottom. -/
def exampleSetup : Setup 2 where
  order := 5
  sensor := .ducros
  mach := true
  boundaries := some ![(.periodic, .periodic), (.isothermalWall, .dirichlet)]
  start := 0
  sensorStart := 0
  storeSome := false
  listing := [(0, 0), (1, 1), (1, 0), (0, 1)]

/-- Its numbers: fourth order central derivatives, optimal weights, an eigensystem of unit matrices. -/
noncomputable def exampleParams : Params 2 where
  g := 7/5
  dt := 1/100
  control := 1
  delta := fun _ => 1/10
  np := ![64, 32]
  stretch := fun _ _ => 1
  eig := ⟨fun d u a i => u d + a * i, fun _ _ _ _ => 1, fun _ _ _ _ => 1⟩
  cd := centralDerivative 4 fun _ => 1/10
  dz := 1
  d := fun side => optimal side 3

theorem example_hypotheses : (∃ ks, program exampleSetup = .ok ks) ∧ Consistent exampleSetup exampleParams ∧ DerivativesInside exampleSetup exampleParams ∧
    (∀ ij, ij ∈ exampleSetup.listing) ∧ exampleSetup.listing.Nodup :=
  ⟨(C76_accepted_iff exampleSetup).2 ⟨by decide, by simp [exampleSetup], Or.inr ⟨rfl, Or.inl rfl⟩⟩, ⟨one_ne_zero, fun side => optimal_satisfies side 3⟩,
    C76_sensor_reads_inside _ _ 4 rfl (by decide), by decide, by decide⟩

/-- Its update at an interior point: the momentum component gets differences of `∂v/∂y`. -/
example (ks : List (Ker 2)) (h : program exampleSetup = .ok ks) (s : Arrays 2) :
    (runAll exampleSetup exampleParams ks s).q ![10, 12] 1 = s.q ![10, 12] 1 + (wallControl (walls exampleSetup) exampleParams.np ![10, 12] : ℝ) * 1 *
      kappaMax (sensorArray exampleSetup exampleParams s.q s.kappa) ![10, 12] * (1/100) *
      -(1 * ((exampleParams.cd 1 (fun y => s.q y 2 / s.q y 0) ![10, 12] - exampleParams.cd 1 (fun y => s.q y 2 / s.q y 0) (shift ![10, 12] 0 (-1))) / (1/10)) +
        1 * ((filterFlux exampleSetup exampleParams s.q 1 ![10, 12] 1 - filterFlux exampleSetup exampleParams s.q 1 (shift ![10, 12] 1 (-1)) 1) / (1/10))) :=
  C76_two_dimensional_defect exampleSetup exampleParams example_hypotheses.2.1 example_hypotheses.2.2.1 example_hypotheses.2.2.2.1 example_hypotheses.2.2.2.2 ks h rfl rfl rfl s ![10, 12] 1
    (fun d => by fin_cases d <;> decide) (by decide) (by decide)

end OpenSBLI.WenoFilter
