import Verif.Lemmas.Contact
import Verif.Props.C78_Conservation

/-!
# C97: contact waves are carried by the scalar upwind scheme

States which differ by multiples of one eigenvector belonging to the velocity: for the Euler equations, states of the same velocity and pressure and any density.
-/
namespace OpenSBLI.Sim
open Matrix Spec

variable {D n : ℕ}

/-- Values on the grid, repeated in all directions. -/
def periodic (np : Fin D → ℤ) (ρ : Sol D 1) : Sol D 1 := fun i x => ρ i fun d => x d % np d

/-- The states `c + ρ r` with `ρ > 0` of a problem are carried with velocity `U`: at points with such states the fluxes are `U (c + ρ r) + w`, the eigenvalue number `k` is `U`; the left eigenvectors at averages of two such
states are dual to `r`, and inverse to the right ones. All coefficients are `-1` and there are no other terms. -/
structure Carries (C : Shock D n) (I : Interp D) (U : Fin D → ℝ) (r c : Fin n → ℝ) (w : Fin D → Fin n → ℝ) (k : Fin D → Fin n) : Prop where
  flux : ∀ {init q f}, ConsistentOn C.toSetup C.required I init q f → ∀ y ρ, 0 < ρ → (∀ i, q i y = c i + ρ * r i) → ∀ d ∈ C.dirs, ∀ i, (C.flux d i).eval I (memOf f) y = U d * (c i + ρ * r i) + w d i
  ev : ∀ {init q f}, ConsistentOn C.toSetup C.required I init q f → ∀ y ρ, 0 < ρ → (∀ i, q i y = c i + ρ * r i) → ∀ d ∈ C.dirs, (C.ev d (k d)).eval I (memOf f) y = U d
  vectors : ∀ {init q f}, ConsistentOn C.toSetup C.required I init q f → ∀ y z ρ ρ', 0 < ρ → 0 < ρ' → (∀ i, q i y = c i + ρ * r i) → (∀ i, q i z = c i + ρ' * r i) → ∀ d ∈ C.dirs, ∀ x,
    let mean := memOf fun t _ => C.avg (fun s => f s y) (fun s => f s z) t
    (Matrix.of fun i j => (C.lev d i j).eval I mean x) *ᵥ r = Pi.single (k d) 1 ∧ (Matrix.of fun i j => (C.rev d i j).eval I mean x) * (Matrix.of fun i j => (C.lev d i j).eval I mean x) = 1
  coef : ∀ d ∈ C.dirs, ∀ i m x, (C.coef d i).eval I m x = -1
  rhs : ∀ i m x, (C.rhs i).eval I m x = 0

section
variable {C : Shock D n} {I : Interp D} {U : Fin D → ℝ} {r c : Fin n → ℝ} {w : Fin D → Fin n → ℝ} {k : Fin D → Fin n}

theorem numericalFlux_contact (hC : C.Core) (hK : Carries C I U r c w k) {init : String → P D → ℝ} {q : Sol D n} {f : String → P D → ℝ} (hf : ConsistentOn C.toSetup C.required I init q f)
    {d : Fin D} (hd : d ∈ C.dirs) (x : P D) (ρ : P D → ℝ) (hq : ∀ p, 1 - schemeK C.scheme ≤ p → p ≤ schemeK C.scheme → 0 < ρ (shift x d p) ∧ ∀ i, q i (shift x d p) = c i + ρ (shift x d p) * r i) :
    numericalFlux C I f d x = fun i => U d * c i + w d i + upwind C.scheme (U d) (fun p => ρ (shift x d p)) * r i := by
  have hk := schemeK_pos hC.scheme
  have hst : ∀ p ∈ C.scheme.stencilPoints, 0 < ρ (shift x d p) ∧ ∀ i, q i (shift x d p) = c i + ρ (shift x d p) * r i := fun p hp => hq p (stencil_reach p hp).1 (stencil_reach p hp).2
  have hv := hK.vectors hf (shift x d 0) (shift x d (0 + 1)) _ _ (hq 0 (by omega) (by omega)).1 (hq (0 + 1) (by omega) (by omega)).1 (hq 0 (by omega) (by omega)).2 (hq (0 + 1) (by omega) (by omega)).2 d hd x
  unfold numericalFlux
  refine Llf.interfaceFlux_contact C.scheme hC.scheme _ 0 r c (w d) (U d) (k d) (fun p => ρ (shift x d p)) (fun p hp => ?_) (fun p hp => ?_) (fun p hp => ?_) hv.1 hv.2
  · funext i
    rw [zero_add, ← (hst p hp).2 i]
    exact congrFun (hf.sol i) _
  · funext i
    rw [zero_add]
    exact hK.flux hf _ _ (hst p hp).1 (hst p hp).2 d hd i
  · rw [zero_add]
    exact hK.ev hf _ _ (hst p hp).1 (hst p hp).2 d hd

/-- The right hand sides at such states are those of the scalar scheme, times the eigenvector. -/
theorem shockRhs_contact (hC : C.Core) (hK : Carries C I U r c w k) {init : String → P D → ℝ} {q : Sol D n} {f : String → P D → ℝ} (hf : ConsistentOn C.toSetup C.required I init q f)
    (ρ : P D → ℝ) (hq : ∀ y, Allocated C.np C.reach y → 0 < ρ y ∧ ∀ i, q i y = c i + ρ y * r i) (x : P D) (hx : Grid C.np x) (i : Fin n) :
    shockRhs C I f i x = advection C.scheme C.dirs U (fun d => I.const (C.spacing d)) ρ x * r i := by
  have hk := schemeK_pos hC.scheme
  unfold shockRhs advection
  rw [hK.rhs, add_zero, ← List.sum_map_mul_right]
  congr 1
  refine List.map_congr_left fun d hd => ?_
  have e1 := numericalFlux_contact hC hK hf hd x ρ fun p h1 h2 => hq _ (stencil_allocated hx (by omega) d (by omega) h2)
  have e2 := numericalFlux_contact hC hK hf hd (shift x d (-1)) ρ fun p h1 h2 => by
    rw [shift_shift]; exact hq _ (stencil_allocated hx (by omega) d (by omega) (by omega))
  rw [show Function.update x d (x d - 1) = shift x d (-1) from rfl, e1, e2, hK.coef d hd]
  have e3 : (fun p => ρ (shift (shift x d (-1)) d p)) = fun p => ρ (Function.update x d (x d - 1 + p)) := by
    funext p
    simp [shift, sub_eq_add_neg]
  rw [e3]
  unfold shift
  ring

/-- A solution on the grid made of the states of a scalar one. -/
def Like (np : Fin D → ℤ) (r c : Fin n → ℝ) (v : Sol D n) (ρ : Sol D 1) : Prop := ∀ i x, Grid np x → v i x = c i + ρ 0 x * r i

theorem onGrid_like {np : Fin D → ℤ} {new rest : Sol D n} {new' rest' : Sol D 1} {r c : Fin n → ℝ} (h : Like np r c new new') : Like np r c (onGrid np new rest) (onGrid np new' rest') := fun i x hx => by
  simp only [onGrid, if_pos hx]; exact h i x hx

theorem wrap_grid {np : Fin D → ℤ} (hpos : ∀ d, 0 < np d) (x : P D) : Grid np fun d => x d % np d := fun d => ⟨Int.emod_nonneg _ (hpos d).ne', Int.emod_lt_of_pos _ (hpos d)⟩

theorem periodic_keeps {np : Fin D → ℤ} (ρ : Sol D 1) (x : P D) (hx : Grid np x) : periodic np ρ 0 x = ρ 0 x :=
  congrArg (ρ 0) (funext fun d => Int.emod_eq_of_lt (hx d).1 (hx d).2)

/-- Right hand sides after the exchanges. -/
theorem exchanged_contact [NeZero D] (hC : C.Core) (hK : Carries C I U r c w k) (h0 : (0 : Fin D) ∈ C.dirs) (hn : ∀ d, C.reach ≤ C.np d) {init : String → P D → ℝ} {full : Sol D n → String → P D → ℝ}
    (hfull : ∀ q, ConsistentOn C.toSetup C.required I init q (full q)) (v : Sol D n) (ρ : Sol D 1) (hv : Like C.np r c v ρ) (hρ : ∀ x, Grid C.np x → 0 < ρ 0 x) (i : Fin n) (x : P D) (hx : Grid C.np x) :
    shockRhs C I (full (C.exchange v)) i x = advection C.scheme C.dirs U (fun d => I.const (C.spacing d)) (periodic C.np ρ 0) x * r i := by
  have hpos : ∀ d, 0 < C.np d := fun d => by have := hx d; omega
  refine shockRhs_contact hC hK (hfull _) _ (fun y hy => ⟨hρ _ (wrap_grid hpos y), fun j => ?_⟩) x hx i
  rw [shockExchange_image hC.scheme h0 hn v j y hy]
  exact hv j _ (wrap_grid hpos y)

end

/-! ## Steps -/

section
variable {np : Fin D → ℤ} {F B : Sol D n → Sol D n} {F' : Sol D 1 → Sol D 1} {r c : Fin n → ℝ}
  (hB : ∀ v i x, Grid np x → B v i x = v i x) (hF : ∀ v ρ, Like np r c v ρ → (∀ x, Grid np x → 0 < ρ 0 x) → ∀ i x, Grid np x → F (B v) i x = F' (periodic np ρ) 0 x * r i)
include hB hF

/-- A step of the whole system is a step of the scalar one, while the values of the stages are positive. -/
theorem rkStep_like (dt : ℝ) (coef : List (ℝ × ℝ)) (s : TState D n) (s' : TState D 1) (hs : Like np r c s.q s'.q)
    (hpos : ∀ l, l <+: coef → ∀ x, Grid np x → 0 < (rkStep np F' (periodic np) dt l s').q 0 x) :
    Like np r c (rkStep np F B dt coef s).q (rkStep np F' (periodic np) dt coef s').q := by
  suffices main : ∀ l, l <+: coef → ∃ v ρ, Like np r c v ρ ∧ (rkStep np F B dt l s).q = B v ∧ (rkStep np F' (periodic np) dt l s').q = periodic np ρ ∧
      Like np r c (rkStep np F B dt l s).aux (rkStep np F' (periodic np) dt l s').aux by
    obtain ⟨v, ρ, h, e1, e2, -⟩ := main coef (List.prefix_refl _)
    intro i x hx
    rw [e1, e2, hB v i x hx, periodic_keeps ρ x hx, h i x hx]
  intro l
  induction l using List.reverseRecOn with
  | nil =>
    intro _
    refine ⟨s.q, s'.q, hs, rfl, rfl, onGrid_like fun i x hx => ?_⟩
    change B s.q i x = c i + periodic np s'.q 0 x * r i
    rw [hB _ i x hx, periodic_keeps _ x hx]
    exact hs i x hx
  | append_singleton l a ih =>
    intro hl
    have hl' : l <+: coef := (List.prefix_append l [a]).trans hl
    obtain ⟨v, ρ, h, e1, e2, ha⟩ := ih hl'
    have hρ : ∀ x, Grid np x → 0 < ρ 0 x := fun x hx => by
      have := hpos l hl' x hx
      rwa [e2, periodic_keeps ρ x hx] at this
    have hFx := hF v ρ h hρ
    have step : ∀ (m : ℕ) (G K : Sol D m → Sol D m) (t : TState D m), rkStep np G K dt (l ++ [a]) t = rkStage np G K dt (rkStep np G K dt l t) a := fun m G K t => by
      unfold rkStep; rw [List.foldl_append]; rfl
    rw [step, step]
    refine ⟨onGrid np (fun i x => (rkStep np F B dt l s).aux i x + dt * a.1 * F (rkStep np F B dt l s).q i x) (rkStep np F B dt l s).q,
      onGrid np (fun i x => (rkStep np F' (periodic np) dt l s').aux i x + dt * a.1 * F' (rkStep np F' (periodic np) dt l s').q i x) (rkStep np F' (periodic np) dt l s').q, ?_, rfl, rfl, ?_⟩
    · refine onGrid_like fun i x hx => ?_
      rw [e1, e2, hFx i x hx, ha i x hx]; ring
    · refine onGrid_like fun i x hx => ?_
      rw [e1, e2, hFx i x hx, ha i x hx]; ring

/-- Steps of low storage schemes whose first coefficient is zero. -/
theorem lsStep_like (dt : ℝ) (coef : List (ℝ × ℝ)) (h1 : ∀ a ∈ coef.head?, a.1 = 0) (s : TState D n) (s' : TState D 1) (hs : Like np r c s.q s'.q)
    (hpos : ∀ l, l <+: coef → ∀ x, Grid np x → 0 < (lsStep np F' (periodic np) dt l s').q 0 x) :
    Like np r c (lsStep np F B dt coef s).q (lsStep np F' (periodic np) dt coef s').q := by
  suffices main : ∀ l, l <+: coef → ∃ v ρ, Like np r c v ρ ∧ (lsStep np F B dt l s).q = B v ∧ (lsStep np F' (periodic np) dt l s').q = periodic np ρ ∧
      (l ≠ [] → Like np r 0 (lsStep np F B dt l s).aux (lsStep np F' (periodic np) dt l s').aux) by
    obtain ⟨v, ρ, h, e1, e2, -⟩ := main coef (List.prefix_refl _)
    intro i x hx
    rw [e1, e2, hB v i x hx, periodic_keeps ρ x hx, h i x hx]
  intro l
  induction l using List.reverseRecOn with
  | nil => exact fun _ => ⟨s.q, s'.q, hs, rfl, rfl, fun h => absurd rfl h⟩
  | append_singleton l a ih =>
    intro hl
    have hl' : l <+: coef := (List.prefix_append l [a]).trans hl
    obtain ⟨v, ρ, h, e1, e2, ha⟩ := ih hl'
    have hρ : ∀ x, Grid np x → 0 < ρ 0 x := fun x hx => by
      have := hpos l hl' x hx
      rwa [e2, periodic_keeps ρ x hx] at this
    have hFx := hF v ρ h hρ
    have step : ∀ (m : ℕ) (G K : Sol D m → Sol D m) (t : TState D m), lsStep np G K dt (l ++ [a]) t = lsStage np G K dt (lsStep np G K dt l t) a := fun m G K t => by
      unfold lsStep; rw [List.foldl_append]; rfl
    have hax : ∀ i x, Grid np x → a.1 * (lsStep np F B dt l s).aux i x = a.1 * (lsStep np F' (periodic np) dt l s').aux 0 x * r i := by
      intro i x hx
      by_cases hnil : l = []
      · subst hnil
        obtain ⟨t, ht⟩ := hl
        rw [h1 a (by rw [← ht]; simp)]
        ring
      · rw [ha hnil i x hx]; simp; ring
    rw [step, step]
    refine ⟨onGrid np (fun i x => (lsStep np F B dt l s).q i x + a.2 * (a.1 * (lsStep np F B dt l s).aux i x + dt * F (lsStep np F B dt l s).q i x)) (lsStep np F B dt l s).q,
      onGrid np (fun i x => (lsStep np F' (periodic np) dt l s').q i x + a.2 * (a.1 * (lsStep np F' (periodic np) dt l s').aux i x + dt * F' (lsStep np F' (periodic np) dt l s').q i x)) (lsStep np F' (periodic np) dt l s').q, ?_, rfl, rfl, fun _ => ?_⟩
    · refine onGrid_like fun i x hx => ?_
      rw [e1, e2, hFx i x hx, hax i x hx, hB v i x hx, periodic_keeps ρ x hx, h i x hx]; ring
    · refine onGrid_like fun i x hx => ?_
      rw [e1, e2, hFx i x hx, hax i x hx]; simp; ring

end

/-! ## Programs -/

section
variable [NeZero D] {C : Shock D n} {I : Interp D} {U : Fin D → ℝ} {r c : Fin n → ℝ} {w : Fin D → Fin n → ℝ} {k : Fin D → Fin n}
  {pts : Ranges.Kernel D → List (P D)} {inp : Alg.Input (Call D)} {prg : List (Alg.Node (Call D))}

/-- The scalar upwind scheme for a problem: the right hand side. -/
noncomputable def Shock.advected (C : Shock D n) (I : Interp D) (U : Fin D → ℝ) (ρ : Sol D 1) : Sol D 1 := fun _ x => advection C.scheme C.dirs U (fun d => I.const (C.spacing d)) (ρ 0) x

/-- C97: the program of a shock capturing scheme, on a periodic box, for an initial state `c + ρ r` of a contact wave. At the end and in all files with a number the solution on the grid is again `c + ρ r`, and `ρ` has been advanced
by the scalar upwind scheme, with the same time stepping; while the stages of the scalar scheme are positive. Partial: for TENO of order 6 the data for which its weights divide by zero (`C13_six_zero_denominator`) are not told apart, in the model the quotient is zero. -/
theorem C97_contact_rk_partial (hP : ShockProgram C .rk I pts inp prg) (hK : Carries C I U r c w k) (h0 : (0 : Fin D) ∈ C.dirs) (hn : ∀ d, C.reach ≤ C.np d)
    (hst : inp.stages = 3) (hnew : I.table "rknew" = [2/3, 5/12, 3/5]) (hold : I.table "rkold" = [1/4, 3/20, 3/5]) (m : Mem D) (ρ : P D → ℝ)
    (hm : ∀ i x, Grid C.np x → atStart I pts C.sol C.exchange inp m (.data (C.sol i)) x = c i + ρ x * r i) :
    let scalar := fun l => rkStep C.np (C.advected I U) (periodic C.np) (I.const "dt") l
    let coef : List (ℝ × ℝ) := [(2/3, 1/4), (5/12, 3/20), (3/5, 3/5)]
    let s0 : TState D 1 := ⟨fun _ => ρ, fun _ => ρ⟩
    (∀ j < inp.niter.toNat, ∀ l, l <+: coef → ∀ x, Grid C.np x → 0 < (scalar l ((scalar coef)^[j] s0)).q 0 x) →
    (∀ i x, Grid C.np x → Alg.effect (exec I pts C.sol C.exchange) (Alg.runProgram prg) m (.data (C.sol i)) x = c i + ((scalar coef)^[inp.niter.toNat] s0).q 0 x * r i) ∧
    ∀ before after o k e, Alg.runProgram prg = before ++ .write o (some k) e :: after → ∃ j : ℕ, (j : ℤ) = k ∧ 1 ≤ j ∧ j ≤ inp.niter.toNat ∧
      ∀ i x, Grid C.np x → Alg.effect (exec I pts C.sol C.exchange) before m (.data (C.sol i)) x = c i + ((scalar coef)^[j] s0).q 0 x * r i := by
  intro scalar coef s0 hpos
  obtain ⟨cs, hcs, -⟩ := hP.items
  obtain ⟨full, hfull⟩ := shock_full hP.valid hcs fun s => atStart I pts C.sol C.exchange inp m (.data s)
  obtain ⟨p1, p2⟩ := C78_program_rk_partial hP hst hnew hold C.exchange m full hfull
  set step := rkStep C.np (fun q i x => shockRhs C I (full q) i x) C.exchange (I.const "dt") [(2/3, 1/4), (5/12, 3/20), (3/5, 3/5)]
  set t0 := stateOf C.toSetup (atStart I pts C.sol C.exchange inp m)
  have main : ∀ j, j ≤ inp.niter.toNat → Like C.np r c (step^[j] t0).q ((scalar coef)^[j] s0).q := by
    intro j
    induction j with
    | zero => exact fun _ i x hx => hm i x hx
    | succ j ih =>
      intro hj
      rw [Function.iterate_succ_apply', Function.iterate_succ_apply']
      exact rkStep_like (shockExchange_keeps hP.valid.scheme h0 hn) (fun v ρ hv hρ i x hx => exchanged_contact hP.valid.toCore hK h0 hn hfull v ρ hv hρ i x hx) _ _ _ _ (ih (by omega)) (hpos j (by omega))
  refine ⟨fun i x hx => ?_, fun before after o k e h => ?_⟩
  · rw [p1 i]; exact main _ le_rfl i x hx
  · obtain ⟨j, hj, h1, h2, h3⟩ := p2 before after o k e h
    exact ⟨j, hj, h1, h2, fun i x hx => by rw [h3 i]; exact main j h2 i x hx⟩

/-- C97: the program of a low storage scheme. -/
theorem C97_contact_ls_partial (hP : ShockProgram C .lowStorage I pts inp prg) (hK : Carries C I U r c w k) (h0 : (0 : Fin D) ∈ C.dirs) (hn : ∀ d, C.reach ≤ C.np d)
    (A L : List ℝ) (hAC : A.length = L.length) (hst : inp.stages = A.length) (hA : I.table "rkA" = A) (hL : I.table "rkB" = L) (hA0 : A.head? = some 0) (m : Mem D) (ρ : P D → ℝ)
    (hm : ∀ i x, Grid C.np x → atStart I pts C.sol C.exchange inp m (.data (C.sol i)) x = c i + ρ x * r i) :
    let scalar := fun l => lsStep C.np (C.advected I U) (periodic C.np) (I.const "dt") l
    let s0 : TState D 1 := ⟨fun _ => ρ, fun _ => ρ⟩
    (∀ j < inp.niter.toNat, ∀ l, l <+: A.zip L → ∀ x, Grid C.np x → 0 < (scalar l ((scalar (A.zip L))^[j] s0)).q 0 x) →
    (∀ i x, Grid C.np x → Alg.effect (exec I pts C.sol C.exchange) (Alg.runProgram prg) m (.data (C.sol i)) x = c i + ((scalar (A.zip L))^[inp.niter.toNat] s0).q 0 x * r i) ∧
    ∀ before after o k e, Alg.runProgram prg = before ++ .write o (some k) e :: after → ∃ j : ℕ, (j : ℤ) = k ∧ 1 ≤ j ∧ j ≤ inp.niter.toNat ∧
      ∀ i x, Grid C.np x → Alg.effect (exec I pts C.sol C.exchange) before m (.data (C.sol i)) x = c i + ((scalar (A.zip L))^[j] s0).q 0 x * r i := by
  intro scalar s0 hpos
  obtain ⟨cs, hcs, -⟩ := hP.items
  obtain ⟨full, hfull⟩ := shock_full hP.valid hcs fun s => atStart I pts C.sol C.exchange inp m (.data s)
  obtain ⟨p1, p2⟩ := C78_program_ls_partial hP A L hAC hst hA hL C.exchange m full hfull
  set step := lsStep C.np (fun q i x => shockRhs C I (full q) i x) C.exchange (I.const "dt") (A.zip L)
  set t0 := stateOf C.toSetup (atStart I pts C.sol C.exchange inp m)
  have hhead : ∀ a ∈ (A.zip L).head?, a.1 = 0 := by
    intro a ha
    cases A with
    | nil => simp at ha
    | cons b A =>
      simp only [List.head?_cons, Option.some.injEq] at hA0
      cases L with
      | nil => simp at ha
      | cons l L => simp at ha; rw [← ha]; exact hA0
  have main : ∀ j, j ≤ inp.niter.toNat → Like C.np r c (step^[j] t0).q ((scalar (A.zip L))^[j] s0).q := by
    intro j
    induction j with
    | zero => exact fun _ i x hx => hm i x hx
    | succ j ih =>
      intro hj
      rw [Function.iterate_succ_apply', Function.iterate_succ_apply']
      exact lsStep_like (shockExchange_keeps hP.valid.scheme h0 hn) (fun v ρ hv hρ i x hx => exchanged_contact hP.valid.toCore hK h0 hn hfull v ρ hv hρ i x hx) _ _ hhead _ _ (ih (by omega)) (hpos j (by omega))
  refine ⟨fun i x hx => ?_, fun before after o k e h => ?_⟩
  · rw [p1 i]; exact main _ le_rfl i x hx
  · obtain ⟨j, hj, h1, h2, h3⟩ := p2 before after o k e h
    exact ⟨j, hj, h1, h2, fun i x hx => by rw [h3 i]; exact main j h2 i x hx⟩

/-- C97: waves at rest. When the velocities are zero nothing changes at all, whatever the densities are, jumps included. -/
theorem C97_at_rest (hP : ShockProgram C .rk I pts inp prg) (hK : Carries C I 0 r c w k) (h0 : (0 : Fin D) ∈ C.dirs) (hn : ∀ d, C.reach ≤ C.np d)
    (hst : inp.stages = 3) (hnew : I.table "rknew" = [2/3, 5/12, 3/5]) (hold : I.table "rkold" = [1/4, 3/20, 3/5]) (m : Mem D) (ρ : P D → ℝ) (hρ : ∀ x, Grid C.np x → 0 < ρ x)
    (hm : ∀ i x, Grid C.np x → atStart I pts C.sol C.exchange inp m (.data (C.sol i)) x = c i + ρ x * r i) (i : Fin n) (x : P D) (hx : Grid C.np x) :
    Alg.effect (exec I pts C.sol C.exchange) (Alg.runProgram prg) m (.data (C.sol i)) x = c i + ρ x * r i := by
  have hup : ∀ ρ : ℤ → ℝ, upwind C.scheme 0 ρ = 0 := fun ρ => by
    unfold upwind
    rw [if_pos le_rfl]
    simp only [zero_mul]
    exact Llf.recon_const _ hP.valid.scheme _ 0
  have hadv : ∀ ρ : Sol D 1, C.advected I 0 ρ = 0 := fun ρ => by
    funext i x
    unfold Shock.advected advection
    simp [hup]
  have hpos : ∀ d, 0 < C.np d := fun d => by have := hx d; omega
  have hstep : ∀ l (s : TState D 1), (∀ y, Grid C.np y → s.q 0 y = ρ y) → ∀ y, Grid C.np y → (rkStep C.np (C.advected I 0) (periodic C.np) (I.const "dt") l s).q 0 y = ρ y := by
    intro l s hs
    suffices h : (∀ y, Grid C.np y → (rkStep C.np (C.advected I 0) (periodic C.np) (I.const "dt") l s).q 0 y = ρ y) ∧ ∀ y, Grid C.np y → (rkStep C.np (C.advected I 0) (periodic C.np) (I.const "dt") l s).aux 0 y = ρ y from h.1
    induction l using List.reverseRecOn with
    | nil =>
      refine ⟨fun y hy => ?_, fun y hy => ?_⟩
      · exact (periodic_keeps _ y hy).trans (hs y hy)
      · simp only [rkStep, List.foldl_nil, onGrid, if_pos hy]
        exact (periodic_keeps _ y hy).trans (hs y hy)
    | append_singleton l a ih =>
      have step : rkStep C.np (C.advected I 0) (periodic C.np) (I.const "dt") (l ++ [a]) s = rkStage C.np (C.advected I 0) (periodic C.np) (I.const "dt") (rkStep C.np (C.advected I 0) (periodic C.np) (I.const "dt") l s) a := by
        unfold rkStep; rw [List.foldl_append]; rfl
      rw [step]
      refine ⟨fun y hy => ?_, fun y hy => ?_⟩
      · simp only [rkStage]
        rw [periodic_keeps _ y hy]
        simp only [onGrid, if_pos hy, hadv]
        rw [ih.2 y hy]; simp
      · simp only [rkStage, onGrid, if_pos hy, hadv]
        rw [ih.2 y hy]; simp
  have hiter : ∀ j y, Grid C.np y → (((rkStep C.np (C.advected I 0) (periodic C.np) (I.const "dt") [(2/3, 1/4), (5/12, 3/20), (3/5, 3/5)])^[j]) ⟨fun _ => ρ, fun _ => ρ⟩).q 0 y = ρ y := by
    intro j
    induction j with
    | zero => exact fun y _ => rfl
    | succ j ih =>
      rw [Function.iterate_succ_apply']
      exact hstep _ _ ih
  rw [(C97_contact_rk_partial hP hK h0 hn hst hnew hold m ρ hm fun j _ l _ y hy => by rw [hstep l _ (hiter j) y hy]; exact hρ y hy).1 i x hx]
  rw [hiter _ x hx]

/-- C97: waves at rest, low storage schemes. -/
theorem C97_at_rest_ls (hP : ShockProgram C .lowStorage I pts inp prg) (hK : Carries C I 0 r c w k) (h0 : (0 : Fin D) ∈ C.dirs) (hn : ∀ d, C.reach ≤ C.np d)
    (A L : List ℝ) (hAC : A.length = L.length) (hst : inp.stages = A.length) (hA : I.table "rkA" = A) (hL : I.table "rkB" = L) (hA0 : A.head? = some 0) (m : Mem D) (ρ : P D → ℝ) (hρ : ∀ x, Grid C.np x → 0 < ρ x)
    (hm : ∀ i x, Grid C.np x → atStart I pts C.sol C.exchange inp m (.data (C.sol i)) x = c i + ρ x * r i) (i : Fin n) (x : P D) (hx : Grid C.np x) :
    Alg.effect (exec I pts C.sol C.exchange) (Alg.runProgram prg) m (.data (C.sol i)) x = c i + ρ x * r i := by
  have hup : ∀ ρ : ℤ → ℝ, upwind C.scheme 0 ρ = 0 := fun ρ => by
    unfold upwind
    rw [if_pos le_rfl]
    simp only [zero_mul]
    exact Llf.recon_const _ hP.valid.scheme _ 0
  have hadv : ∀ ρ : Sol D 1, C.advected I 0 ρ = 0 := fun ρ => by
    funext i x
    unfold Shock.advected advection
    simp [hup]
  have hhead : ∀ l : List (ℝ × ℝ), l <+: A.zip L → ∀ a ∈ l.head?, a.1 = 0 := by
    rintro l ⟨t, ht⟩ a ha
    cases l with
    | nil => simp at ha
    | cons a' l =>
      cases A with
      | nil => simp at ht
      | cons b A =>
        cases L with
        | nil => simp at ht
        | cons b' L =>
          simp at ht ha hA0
          rw [← ha, ht.1]; exact hA0
  have hstep : ∀ l, (∀ a ∈ l.head?, a.1 = 0) → ∀ (s : TState D 1), (∀ y, Grid C.np y → s.q 0 y = ρ y) → ∀ y, Grid C.np y → (lsStep C.np (C.advected I 0) (periodic C.np) (I.const "dt") l s).q 0 y = ρ y := by
    intro l hl s hs
    suffices h : (∀ y, Grid C.np y → (lsStep C.np (C.advected I 0) (periodic C.np) (I.const "dt") l s).q 0 y = ρ y) ∧ (l ≠ [] → ∀ y, Grid C.np y → (lsStep C.np (C.advected I 0) (periodic C.np) (I.const "dt") l s).aux 0 y = 0) from h.1
    induction l using List.reverseRecOn with
    | nil => exact ⟨fun y hy => (periodic_keeps _ y hy).trans (hs y hy), fun h => absurd rfl h⟩
    | append_singleton l a ih =>
      have step : lsStep C.np (C.advected I 0) (periodic C.np) (I.const "dt") (l ++ [a]) s = lsStage C.np (C.advected I 0) (periodic C.np) (I.const "dt") (lsStep C.np (C.advected I 0) (periodic C.np) (I.const "dt") l s) a := by
        unfold lsStep; rw [List.foldl_append]; rfl
      obtain ⟨i1, i2⟩ := ih fun b hb => hl b (by cases l with | nil => simp at hb | cons => simpa using hb)
      have hz : ∀ y, Grid C.np y → a.1 * (lsStep C.np (C.advected I 0) (periodic C.np) (I.const "dt") l s).aux 0 y = 0 := fun y hy => by
        by_cases h : l = []
        · subst h
          rw [hl a (by simp), zero_mul]
        · rw [i2 h y hy, mul_zero]
      rw [step]
      refine ⟨fun y hy => ?_, fun _ y hy => ?_⟩
      · simp only [lsStage]
        rw [periodic_keeps _ y hy]
        simp only [onGrid, if_pos hy, hadv]
        rw [hz y hy, i1 y hy]; simp
      · simp only [lsStage, onGrid, if_pos hy, hadv]
        rw [hz y hy]; simp
  have hiter : ∀ j y, Grid C.np y → (((lsStep C.np (C.advected I 0) (periodic C.np) (I.const "dt") (A.zip L))^[j]) ⟨fun _ => ρ, fun _ => ρ⟩).q 0 y = ρ y := by
    intro j
    induction j with
    | zero => exact fun y _ => rfl
    | succ j ih =>
      rw [Function.iterate_succ_apply']
      exact hstep _ (hhead _ (List.prefix_refl _)) _ ih
  rw [(C97_contact_ls_partial hP hK h0 hn A L hAC hst hA hL hA0 m ρ hm fun j _ l hl y hy => by rw [hstep l (hhead l hl) _ (hiter j) y hy]; exact hρ y hy).1 i x hx]
  rw [hiter _ x hx]

end

end OpenSBLI.Sim
