import Verif.Props.C77_Periodic

/-!
# C77: values on the grid of low storage schemes
-/
namespace OpenSBLI.Sim

variable {D n : ℕ}

/-- C77: as `C77_grid_values`, for low storage schemes with any number of stages. -/
theorem C77_grid_values_ls {np : Fin D → ℤ} {h : ℤ} (hh : 0 ≤ h) {B : Sol D n → Sol D n} (hB : FillsHalos np h B) (F : Sol D n → Sol D n) (dt : ℝ) (A C : List ℝ) (s0 : TState D n) (r0 : RK.LSState (GridSol np n))
    (hr0 : r0.u = restrict np s0.q) (ht0 : r0.tmp = restrict np s0.aux) (k : ℕ) :
    restrict np ((lsStep np F B dt (A.zip C))^[k] s0).q = (RK.lsRun A C (fun u => restrict np (F (complete np B s0.q u))) id dt k r0).u := by
  set G := fun u => restrict np (F (complete np B s0.q u)) with hG
  have hga : ∀ x, Grid np x → Allocated np h x := fun x hx d => by have := hx d; omega
  let Rel (s : TState D n) (r : RK.LSState (GridSol np n)) : Prop :=
    s.q = complete np B s0.q r.u ∧ restrict np s.q = r.u ∧ restrict np s.aux = r.tmp ∧ ∀ i x, ¬ Allocated np h x → s.q i x = s0.q i x
  have stage : ∀ (s : TState D n) (r : RK.LSState (GridSol np n)) (c : ℝ × ℝ), Rel s r → Rel (lsStage np F B dt s c) (RK.lsStage G id dt c r) := by
    rintro s r ⟨a, b⟩ ⟨h1, h2, h3, h4⟩
    have hF : ∀ i (x : {x : P D // Grid np x}), F s.q i x.1 = G r.u i x := fun i x => by rw [h1]; rfl
    set w : Sol D n := onGrid np (fun i x => s.q i x + b * (a * s.aux i x + dt * F s.q i x)) s.q with hw
    have hwo : ∀ i x, ¬ Allocated np h x → w i x = s0.q i x := by
      intro i x hx
      simp only [hw, onGrid]
      rw [if_neg fun hg => hx (hga x hg)]
      exact h4 i x hx
    have hwr : restrict np w = (RK.lsStage G id dt (a, b) r).u := by
      funext i x
      have : restrict np w i x = s.q i x.1 + b * (a * s.aux i x.1 + dt * F s.q i x.1) := by
        simp only [restrict, hw, onGrid]; rw [if_pos x.2]
      rw [this, hF, show s.aux i x.1 = r.tmp i x from congrFun (congrFun h3 i) x, show s.q i x.1 = r.u i x from congrFun (congrFun h2 i) x]
      rfl
    have hq : (lsStage np F B dt s (a, b)).q = B w := rfl
    refine ⟨?_, ?_, ?_, fun i x hx => ?_⟩
    · rw [hq, complete_eq hB s0.q w hwo, hwr]
    · rw [hq, restrict_bc hB, hwr]
    · funext i x
      have : restrict np (lsStage np F B dt s (a, b)).aux i x = a * s.aux i x.1 + dt * F s.q i x.1 := by
        simp only [restrict, lsStage, onGrid]; rw [if_pos x.2]
      rw [this, hF, show s.aux i x.1 = r.tmp i x from congrFun (congrFun h3 i) x]
      rfl
    · rw [hq, hB.outside _ _ _ hx]; exact hwo i x hx
  have stages : ∀ (l : List (ℝ × ℝ)) (s : TState D n) (r : RK.LSState (GridSol np n)), Rel s r → Rel (l.foldl (lsStage np F B dt) s) (l.foldl (fun s c => RK.lsStage G id dt c s) r) := by
    intro l
    induction l with
    | nil => exact fun _ _ h => h
    | cons c l ih => exact fun s r h => ih _ _ (stage s r c h)
  have step : ∀ (s : TState D n) (r : RK.LSState (GridSol np n)), restrict np s.q = r.u → restrict np s.aux = r.tmp → (∀ i x, ¬ Allocated np h x → s.q i x = s0.q i x) →
      Rel (lsStep np F B dt (A.zip C) s) (RK.lsStep A C G id dt r) := by
    intro s r h1 h2 h3
    refine stages _ _ _ ⟨?_, ?_, h2, fun i x hx => ?_⟩
    · change B s.q = complete np B s0.q r.u
      rw [complete_eq hB s0.q s.q h3, h1]
    · change restrict np (B s.q) = r.u
      rw [restrict_bc hB, h1]
    · change B s.q i x = _
      rw [hB.outside _ _ _ hx]; exact h3 i x hx
  have main : ∀ k, restrict np ((lsStep np F B dt (A.zip C))^[k] s0).q = (RK.lsRun A C G id dt k r0).u ∧ restrict np ((lsStep np F B dt (A.zip C))^[k] s0).aux = (RK.lsRun A C G id dt k r0).tmp ∧
      ∀ i x, ¬ Allocated np h x → ((lsStep np F B dt (A.zip C))^[k] s0).q i x = s0.q i x := by
    intro k
    induction k with
    | zero => exact ⟨hr0.symm, ht0.symm, fun _ _ _ => rfl⟩
    | succ k ih =>
      rw [Function.iterate_succ_apply', RK.lsRun_succ']
      obtain ⟨_, h2, h3, h4⟩ := step _ _ ih.1 ih.2.1 ih.2.2
      exact ⟨h2, h3, h4⟩
  exact (main k).1

end OpenSBLI.Sim
