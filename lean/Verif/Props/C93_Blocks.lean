import Verif.Model.SimulationMB
import Verif.Spec.SimulationMB
import Verif.Props.C73_MultiBlock
import Verif.Props.C77_Program

/-!
# C93: what the program of a simulation on several blocks computes
-/
namespace OpenSBLI.Sim
open MultiBlock (Link)

variable {D n Nb : ℕ}

theorem sized_valid {S : Setup D n} (hS : S.Valid) (np : Fin D → ℤ) : (S.sized np).Valid :=
  ⟨⟨hS.1.1, hS.1.2, hS.1.3, hS.1.4, hS.1.5, hS.1.6, hS.1.7, hS.1.8, hS.1.9⟩, hS.2, hS.3, hS.4, hS.5, hS.6, hS.7, hS.8, hS.9, hS.10, hS.11, hS.12, hS.13⟩

/-- The boundary conditions of all blocks and the interfaces between them, as a function of the solutions: `boundaryPhase` on points carrying all components. -/
def exchanges (np : Fin Nb → Fin D → ℤ) (h : ℤ) (own : Fin Nb → Sol D n → Sol D n) (links : Fin Nb → List (Link D Nb)) (q : Fin Nb → Sol D n) : Fin Nb → Sol D n := fun b i x =>
  MultiBlock.boundaryPhase (α := Fin n → ℝ) np h (fun b f x i => own b (fun i x => f x i) i x) links (fun b x i => q b i x) b x i

/-- What the theorems assume: equations the code accepts, one simulation on each block, with interfaces `links`, all other equations placed before the time loop. -/
structure ProgramMB (S : Setup D n) (np : Fin Nb → Fin D → ℤ) (t : Temporal) (I : Fin Nb → Interp D) (pts : Ranges.Kernel D → List (P D)) (links : Fin Nb → List (Link D Nb)) (stages niter : ℤ)
    (blocks : List (Alg.BlockMB (CallMB D Nb))) (prg : List (Alg.Node (CallMB D Nb))) : Prop where
  valid : S.Valid
  loops : Enumerates pts
  reach : ∀ b, Local (I b) (np b) S.h
  items : ∃ ks : Fin Nb → List (Ker D), (∀ b, (S.sized (np b)).spatial = .ok (ks b)) ∧
    ∃ (name : String) (pre post : Fin Nb → List (Alg.ItemMB (CallMB D Nb))) (ios : Fin Nb → List Alg.IO),
      (∀ b, ∀ i ∈ pre b ++ post b, ∀ s f k c sp, i ≠ .plain (.simulation s f k c sp)) ∧
      blocks = (List.finRange Nb).map fun b => ⟨[⟨name, stages, niter, pre b ++ (S.sized (np b)).itemMB t b (links b) (ks b) :: post b⟩], ios b⟩
  others : ∀ o places k, (o, places, k) ∈ Alg.othersMB blocks → ∀ p ∈ places, p = .before
  generated : Alg.generateMB blocks = .ok prg

section
variable {S : Setup D n} {np : Fin Nb → Fin D → ℤ} {t : Temporal} {I : Fin Nb → Interp D} {pts : Ranges.Kernel D → List (P D)} {links : Fin Nb → List (Link D Nb)} {stages niter : ℤ}
  {blocks : List (Alg.BlockMB (CallMB D Nb))} {prg : List (Alg.Node (CallMB D Nb))} (own : Fin Nb → Sol D n → Sol D n)

/-- The arrays at the beginning of the time loop, after the kernels placed before it and those of the metrics. -/
def atStartMB (I : Fin Nb → Interp D) (pts : Ranges.Kernel D → List (P D)) (np : Fin Nb → Fin D → ℤ) (h : ℤ) (sol : Fin n → String) (own : Fin Nb → Sol D n → Sol D n)
    (blocks : List (Alg.BlockMB (CallMB D Nb))) (m : Fin Nb → Mem D) : Fin Nb → Mem D :=
  Alg.effect (execMB I pts np h sol own) (Alg.calls (Alg.placedAt (Alg.sortByOrder (Alg.othersMB blocks)) .before) Alg.outside ++
    Alg.calls ((Alg.metricsMB blocks).flatMap Prod.fst) Alg.outside ++ Alg.calls ((Alg.metricsMB blocks).flatMap Prod.snd) Alg.outside) m

/-! ## Kernels of all blocks -/

theorem effect_on (np : Fin Nb → Fin D → ℤ) (h : ℤ) (sol : Fin n → String) (b : Fin Nb) (ks : List (Ker D)) (e : Alg.Env) (m : Fin Nb → Mem D) :
    Alg.effect (execMB I pts np h sol own) (Alg.calls (ks.map fun k => .on b (.comp k)) e) m = Function.update m b (runKers { I b with stage := e.stage.getD 0 } pts ks (m b)) := by
  induction ks generalizing m with
  | nil => simp [Alg.effect, Alg.calls, runKers]
  | cons k ks ih =>
    have : Alg.effect (execMB I pts np h sol own) (Alg.calls ((k :: ks).map fun k => .on b (.comp k)) e) m =
      Alg.effect (execMB I pts np h sol own) (Alg.calls (ks.map fun k => .on b (.comp k)) e) (Function.update m b (runKer { I b with stage := e.stage.getD 0 } pts k (m b))) := rfl
    rw [this, ih]
    simp [runKers]

/-- The kernels of all blocks, one block after another, are the kernels of each block on its arrays. -/
theorem effect_all (np : Fin Nb → Fin D → ℤ) (h : ℤ) (sol : Fin n → String) (f : Fin Nb → List (Ker D)) (e : Alg.Env) (m : Fin Nb → Mem D) :
    Alg.effect (execMB I pts np h sol own) (Alg.calls ((List.finRange Nb).flatMap fun b => (f b).map fun k => .on b (.comp k)) e) m =
      fun b => runKers { I b with stage := e.stage.getD 0 } pts (f b) (m b) := by
  have main : ∀ l : List (Fin Nb), l.Nodup → ∀ m : Fin Nb → Mem D, ∀ b,
      Alg.effect (execMB I pts np h sol own) (Alg.calls (l.flatMap fun b => (f b).map fun k => .on b (.comp k)) e) m b = if b ∈ l then runKers { I b with stage := e.stage.getD 0 } pts (f b) (m b) else m b := by
    intro l
    induction l with
    | nil => intro _ m b; simp [Alg.effect, Alg.calls]
    | cons c l ih =>
      intro hn m b
      rw [List.nodup_cons] at hn
      rw [List.flatMap_cons]
      have hc : ∀ a b : List (CallMB D Nb), Alg.calls (a ++ b) e = Alg.calls a e ++ Alg.calls b e := fun a b => by simp [Alg.calls]
      rw [hc, Alg.effect_append, effect_on, ih hn.2]
      by_cases hbc : b = c
      · subst hbc
        simp [hn.1]
      · simp [hbc]
  funext b
  rw [main _ (List.nodup_finRange Nb) m b, if_pos (List.mem_finRange b)]

/-! ## The boundary kernels of all blocks -/

theorem find_sol {sol : Fin n → String} (hinj : Function.Injective sol) (i : Fin n) : ((List.finRange n).find? fun j : Fin n => sol j = sol i) = some i := by
  have : ∃ j, ((List.finRange n).find? fun j : Fin n => sol j = sol i) = some j := by
    rw [← Option.isSome_iff_exists, List.find?_isSome]
    exact ⟨i, List.mem_finRange i, by simp⟩
  obtain ⟨j, hj⟩ := this
  have := List.find?_some hj
  simp only [decide_eq_true_eq] at this
  rw [hj, hinj this]

theorem runBc_sol {sol : Fin n → String} (hinj : Function.Injective sol) (f : Sol D n → Sol D n) (m : Mem D) (i : Fin n) : runBc sol f m (.data (sol i)) = f (fun j => m (.data (sol j))) i := by
  simp only [runBc]; rw [find_sol hinj]

theorem runBc_rest {sol : Fin n → String} (f : Sol D n → Sol D n) (m : Mem D) (a : Arr) (ha : ∀ i, a ≠ .data (sol i)) : runBc sol f m a = m a := by
  cases a with
  | data s =>
    have hf : ((List.finRange n).find? fun j : Fin n => sol j = s) = none := by
      rw [List.find?_eq_none]
      intro j _ h
      simp only [decide_eq_true_eq] at h
      exact ha j (by rw [h])
    simp only [runBc]; rw [hf]
  | _ => rfl

/-- Exchanges of points carrying all components are exchanges of the components. -/
theorem run_component (np : Fin Nb → Fin D → ℤ) (h : ℤ) (l : Link D Nb) (st : Fin Nb → P D → Fin n → ℝ) (b : Fin Nb) (x : P D) (i : Fin n) :
    l.run np h st b x i = l.run np h (fun c x => st c x i) b x := by
  unfold Link.run
  by_cases hb : b = l.dst
  · subst hb
    simp only [Function.update_self]
    unfold MultiBlock.transfer
    split <;> rfl
  · simp only [Function.update_of_ne hb]

/-- The solutions of all blocks at their points. -/
def pointsOf (sol : Fin n → String) (m : Fin Nb → Mem D) : Fin Nb → P D → Fin n → ℝ := fun b x i => m b (.data (sol i)) x

/-- The boundary kernels change the solution arrays only, by the conditions and exchanges. -/
theorem effect_bcs (np : Fin Nb → Fin D → ℤ) (h : ℤ) {sol : Fin n → String} (hinj : Function.Injective sol) (links : Fin Nb → List (Link D Nb)) (e : Alg.Env) (m : Fin Nb → Mem D) :
    let m' := Alg.effect (execMB I pts np h sol own) (Alg.calls ((List.finRange Nb).flatMap fun b => .on b .bc :: (links b).map .link) e) m
    (∀ b i, m' b (.data (sol i)) = exchanges np h own links (fun b i => m b (.data (sol i))) b i) ∧ ∀ b a, (∀ i, a ≠ .data (sol i)) → m' b a = m b a := by
  intro m'
  let stepCall : MultiBlock.Step D Nb → CallMB D Nb := fun | .own b => .on b .bc | .link l => .link l
  have hsteps : ((List.finRange Nb).flatMap fun b => (.on b .bc :: (links b).map .link : List (CallMB D Nb))) = (MultiBlock.stepsOf links (List.finRange Nb)).map stepCall := by
    simp [MultiBlock.stepsOf, List.map_flatMap, Function.comp_def, stepCall]
  let own' : Fin Nb → (P D → Fin n → ℝ) → P D → Fin n → ℝ := fun b f x i => own b (fun i x => f x i) i x
  have hone : ∀ (s : MultiBlock.Step D Nb) (m : Fin Nb → Mem D),
      pointsOf sol (execMB I pts np h sol own (.call (stepCall s) e) m) = MultiBlock.Step.run np h own' (pointsOf sol m) s ∧
      ∀ b a, (∀ i, a ≠ .data (sol i)) → execMB I pts np h sol own (.call (stepCall s) e) m b a = m b a := by
    intro s m
    cases s with
    | own c =>
      refine ⟨?_, fun b a ha => ?_⟩
      · funext b x i
        simp only [stepCall, execMB, exec, pointsOf, MultiBlock.Step.run]
        by_cases hb : b = c
        · subst hb
          simp only [Function.update_self, own']
          rw [runBc_sol hinj]
          rfl
        · simp only [Function.update_of_ne hb]; rfl
      · simp only [stepCall, execMB, exec]
        by_cases hb : b = c
        · subst hb
          simp only [Function.update_self]
          exact runBc_rest _ _ _ ha
        · simp only [Function.update_of_ne hb]
    | link l =>
      refine ⟨?_, fun b a ha => runBc_rest (fun _ i => l.run np h (fun c => m c (.data (sol i))) b) (m b) a ha⟩
      funext b x i
      simp only [stepCall, execMB, runLink, pointsOf, MultiBlock.Step.run]
      rw [runBc_sol hinj, run_component]
      rfl
  have main : ∀ (l : List (MultiBlock.Step D Nb)) (m : Fin Nb → Mem D),
      pointsOf sol (Alg.effect (execMB I pts np h sol own) (Alg.calls (l.map stepCall) e) m) = l.foldl (MultiBlock.Step.run np h own') (pointsOf sol m) ∧
      ∀ b a, (∀ i, a ≠ .data (sol i)) → Alg.effect (execMB I pts np h sol own) (Alg.calls (l.map stepCall) e) m b a = m b a := by
    intro l
    induction l with
    | nil => exact fun m => ⟨rfl, fun _ _ _ => rfl⟩
    | cons s l ih =>
      intro m
      have hcons : Alg.effect (execMB I pts np h sol own) (Alg.calls ((s :: l).map stepCall) e) m =
          Alg.effect (execMB I pts np h sol own) (Alg.calls (l.map stepCall) e) (execMB I pts np h sol own (.call (stepCall s) e) m) := rfl
      obtain ⟨h1, h2⟩ := ih (execMB I pts np h sol own (.call (stepCall s) e) m)
      obtain ⟨h3, h4⟩ := hone s m
      rw [hcons]
      exact ⟨by rw [h1, h3]; rfl, fun b a ha => (h2 b a ha).trans (h4 b a ha)⟩
  have hm' : m' = Alg.effect (execMB I pts np h sol own) (Alg.calls ((MultiBlock.stepsOf links (List.finRange Nb)).map stepCall) e) m := by rw [← hsteps]
  obtain ⟨h1, h2⟩ := main (MultiBlock.stepsOf links (List.finRange Nb)) m
  rw [← hm'] at h1 h2
  refine ⟨fun b i => ?_, h2⟩
  funext x
  have h3 := congrFun (congrFun (congrFun h1 b) x) i
  rw [← MultiBlock.phase_steps] at h3
  exact h3

/-! ## States of all blocks -/

/-- The arrays of all blocks hold a state of the time integration. -/
def RepMB (S : Setup D n) (np : Fin Nb → Fin D → ℤ) (init : Fin Nb → String → P D → ℝ) (m : Fin Nb → Mem D) (s : Fin Nb → TState D n) : Prop := ∀ b, Rep (S.sized (np b)) (init b) (m b) (s b)

variable {init : Fin Nb → String → P D → ℝ}

theorem repMB_bc (hS : S.Valid) {m : Fin Nb → Mem D} {s : Fin Nb → TState D n} (h : RepMB S np init m s) (e : Alg.Env) :
    RepMB S np init (Alg.effect (execMB I pts np S.h S.sol own) (Alg.calls ((List.finRange Nb).flatMap fun b => .on b .bc :: (links b).map .link) e) m)
      fun b => { s b with q := exchanges np S.h own links (fun b => (s b).q) b } := by
  obtain ⟨h1, h2⟩ := effect_bcs (I := I) (pts := pts) own np S.h hS.solInj links e m
  have hq : (fun b i => m b (.data (S.sol i))) = fun b => (s b).q := funext fun b => funext fun i => (h b).q i
  rw [hq] at h1
  exact fun b => ⟨fun i => h1 b i, fun i => (h2 b (.reg i) (by simp)).trans ((h b).aux i), fun u hu hne => (h2 b (.data u) (fun i h => hne i (by injection h))).trans ((h b).rest u hu hne)⟩

/-- Consistent datasets of every block. -/
abbrev ConsistentMB (S : Setup D n) (np : Fin Nb → Fin D → ℤ) (I : Fin Nb → Interp D) (init : Fin Nb → String → P D → ℝ) (full : Fin Nb → Sol D n → String → P D → ℝ) : Prop :=
  ∀ b q, Consistent (S.sized (np b)) (I b) (init b) q (full b q)

theorem repMB_rkStage (hS : S.Valid) (hp : Enumerates pts) (hl : ∀ b, Local (I b) (np b) S.h) {full : Fin Nb → Sol D n → String → P D → ℝ} (hfull : ConsistentMB S np I init full)
    {ks : Fin Nb → List (Ker D)} (hks : ∀ b, (S.sized (np b)).spatial = .ok (ks b)) {dt : ℝ} (hdt : ∀ b, (I b).const "dt" = dt) {new old : List ℝ} (hnew : ∀ b, (I b).table "rknew" = new)
    (hold : ∀ b, (I b).table "rkold" = old) {m : Fin Nb → Mem D} {s : Fin Nb → TState D n} (h : RepMB S np init m s) (i z : ℕ) :
    RepMB S np init (Alg.effect (execMB I pts np S.h S.sol own)
      (Alg.calls ((List.finRange Nb).flatMap fun b => (ks b).map fun k => .on b (.comp k)) (Alg.inStage i z) ++
       Alg.calls ((List.finRange Nb).flatMap fun b => ((S.sized (np b)).advanceKernels .rk).map fun k => .on b (.comp k)) (Alg.inStage i z) ++
       Alg.calls ((List.finRange Nb).flatMap fun b => .on b .bc :: (links b).map .link) (Alg.inStage i z)) m)
      (rkStageMB np (fun b q i x => (S.rhs i).eval (I b) (memOf (full b q)) x) (exchanges np S.h own links) dt s (new.getD z 0, old.getD z 0)) := by
  rw [Alg.effect_append, Alg.effect_append, effect_all, effect_all]
  have h2 : RepMB S np init (fun b => runKers { I b with stage := (Alg.inStage i z).stage.getD 0 } pts ((S.sized (np b)).advanceKernels .rk)
      (runKers { I b with stage := (Alg.inStage i z).stage.getD 0 } pts (ks b) (m b)))
      fun b => { q := onGrid (np b) (fun i x => (s b).aux i x + dt * new.getD z 0 * (S.rhs i).eval (I b) (memOf (full b (s b).q)) x) (s b).q
                 aux := onGrid (np b) (fun i x => (s b).aux i x + dt * old.getD z 0 * (S.rhs i).eval (I b) (memOf (full b (s b).q)) x) (s b).aux } := by
    intro b
    obtain ⟨r1, r2⟩ := rep_spatial (sized_valid hS (np b)) hp (hl b) (hfull b) (ks b) (hks b) (h b) z
    have := rep_advance (S := S.sized (np b)) (I := I b) hS.solInj hp r1 _ r2 z
    rw [hdt b, hnew b, hold b] at this
    exact this
  exact repMB_bc own hS h2 (Alg.inStage i z)

theorem repMB_lsStage (hS : S.Valid) (hp : Enumerates pts) (hl : ∀ b, Local (I b) (np b) S.h) {full : Fin Nb → Sol D n → String → P D → ℝ} (hfull : ConsistentMB S np I init full)
    {ks : Fin Nb → List (Ker D)} (hks : ∀ b, (S.sized (np b)).spatial = .ok (ks b)) {dt : ℝ} (hdt : ∀ b, (I b).const "dt" = dt) {A C : List ℝ} (hA : ∀ b, (I b).table "rkA" = A)
    (hC : ∀ b, (I b).table "rkB" = C) {m : Fin Nb → Mem D} {s : Fin Nb → TState D n} (h : RepMB S np init m s) (i z : ℕ) :
    RepMB S np init (Alg.effect (execMB I pts np S.h S.sol own)
      (Alg.calls ((List.finRange Nb).flatMap fun b => (ks b).map fun k => .on b (.comp k)) (Alg.inStage i z) ++
       Alg.calls ((List.finRange Nb).flatMap fun b => ((S.sized (np b)).advanceKernels .lowStorage).map fun k => .on b (.comp k)) (Alg.inStage i z) ++
       Alg.calls ((List.finRange Nb).flatMap fun b => .on b .bc :: (links b).map .link) (Alg.inStage i z)) m)
      (lsStageMB np (fun b q i x => (S.rhs i).eval (I b) (memOf (full b q)) x) (exchanges np S.h own links) dt s (A.getD z 0, C.getD z 0)) := by
  rw [Alg.effect_append, Alg.effect_append, effect_all, effect_all]
  have h2 : RepMB S np init (fun b => runKers { I b with stage := (Alg.inStage i z).stage.getD 0 } pts ((S.sized (np b)).advanceKernels .lowStorage)
      (runKers { I b with stage := (Alg.inStage i z).stage.getD 0 } pts (ks b) (m b)))
      fun b => { q := onGrid (np b) (fun i x => (s b).q i x + C.getD z 0 * (A.getD z 0 * (s b).aux i x + dt * (S.rhs i).eval (I b) (memOf (full b (s b).q)) x)) (s b).q
                 aux := onGrid (np b) (fun i x => A.getD z 0 * (s b).aux i x + dt * (S.rhs i).eval (I b) (memOf (full b (s b).q)) x) (s b).aux } := by
    intro b
    obtain ⟨r1, r2⟩ := rep_spatial (sized_valid hS (np b)) hp (hl b) (hfull b) (ks b) (hks b) (h b) z
    have := rep_lsAdvance (S := S.sized (np b)) (I := I b) hS.solInj hp r1 _ r2 z
    rw [hdt b, hA b, hC b] at this
    exact this
  exact repMB_bc own hS h2 (Alg.inStage i z)

theorem repMB_stages (f : (Fin Nb → TState D n) → ℝ × ℝ → Fin Nb → TState D n) (ev : ℕ → List (Alg.Event (CallMB D Nb))) (c : ℕ → ℝ × ℝ)
    (hstage : ∀ z m s, RepMB S np init m s → RepMB S np init (Alg.effect (execMB I pts np S.h S.sol own) (ev z) m) (f s (c z)))
    (l : List ℕ) {m : Fin Nb → Mem D} {s : Fin Nb → TState D n} (h : RepMB S np init m s) :
    RepMB S np init (Alg.effect (execMB I pts np S.h S.sol own) (l.flatMap ev) m) ((l.map c).foldl f s) := by
  induction l generalizing m s with
  | nil => exact h
  | cons z l ih =>
    rw [List.flatMap_cons, Alg.effect_append, List.map_cons, List.foldl_cons]
    exact ih (hstage z _ _ h)

theorem effect_idleMB (evs : List (Alg.Event (CallMB D Nb))) (h : ∀ v ∈ evs, ∀ k e, v ≠ .call k e) (m : Fin Nb → Mem D) : Alg.effect (execMB I pts np S.h S.sol own) evs m = m := by
  induction evs generalizing m with
  | nil => rfl
  | cons v evs ih =>
    have hv := h v (List.mem_cons_self ..)
    change Alg.effect _ evs (execMB I pts np S.h S.sol own v m) = m
    rw [ih fun v hv => h v (List.mem_cons_of_mem _ hv)]
    cases v with
    | call k e => exact absurd rfl (hv k e)
    | write => rfl
    | monitor => rfl

/-! ## The program -/

/-- The order of the calls (C73) for blocks with one simulation each. -/
theorem programMB_events (hP : ProgramMB S np t I pts links stages niter blocks prg) (hNb : 0 < Nb) :
    ∃ ks : Fin Nb → List (Ker D), (∀ b, (S.sized (np b)).spatial = .ok (ks b)) ∧ Alg.runProgram prg =
      (Alg.calls (Alg.placedAt (Alg.sortByOrder (Alg.othersMB blocks)) .before) Alg.outside ++ Alg.calls ((Alg.metricsMB blocks).flatMap Prod.fst) Alg.outside ++
        Alg.calls ((Alg.metricsMB blocks).flatMap Prod.snd) Alg.outside) ++ Alg.writesAt (blocks.flatMap Alg.BlockMB.ios) .before ++
      ((List.range niter.toNat).flatMap fun i =>
        (Alg.calls ((List.finRange Nb).flatMap fun b => .on b .bc :: (links b).map .link) (Alg.inStep i) ++
         Alg.calls ((List.finRange Nb).flatMap fun b => ((S.sized (np b)).startKernels t).map fun k => .on b (.comp k)) (Alg.inStep i) ++
         ((List.range stages.toNat).flatMap fun z => Alg.calls ((List.finRange Nb).flatMap fun b => (ks b).map fun k => .on b (.comp k)) (Alg.inStage i z) ++
           Alg.calls ((List.finRange Nb).flatMap fun b => ((S.sized (np b)).advanceKernels t).map fun k => .on b (.comp k)) (Alg.inStage i z) ++
           Alg.calls ((List.finRange Nb).flatMap fun b => .on b .bc :: (links b).map .link) (Alg.inStage i z))) ++
        Alg.periodicWrites (blocks.flatMap Alg.BlockMB.ios) i) ++
      Alg.writesAt (blocks.flatMap Alg.BlockMB.ios) .after := by
  obtain ⟨ks, hks, name, pre, post, ios, hno, hb⟩ := hP.items
  obtain ⟨st, ni, hall, hrun⟩ := Alg.C73_run blocks prg hP.generated
  have hsn : stages = st ∧ niter = ni := hall _ (by rw [hb]; exact List.mem_map.2 ⟨⟨0, hNb⟩, List.mem_finRange _, rfl⟩) _ (List.mem_cons_self ..)
  obtain ⟨rfl, rfl⟩ := hsn
  have hnone : ∀ p, p ≠ .before → Alg.placedAt (Alg.sortByOrder (Alg.othersMB blocks)) p = [] := by
    intro p hp
    unfold Alg.placedAt
    rw [List.flatMap_eq_nil_iff]
    intro x hx
    rw [(Alg.C42_sorted _).1.mem_iff] at hx
    rw [List.flatMap_eq_nil_iff]
    intro q hq
    rw [hP.others x.1 x.2.1 x.2.2 hx q hq, if_neg fun h => hp h.symm]
  have hfilter : ∀ (l : List (Alg.ItemMB (CallMB D Nb))) (g : Alg.ItemMB (CallMB D Nb) → Option (List (CallMB D Nb) × List (CallMB D Nb) × List (CallMB D Nb) × List (CallMB D Nb) × List (CallMB D Nb))),
      (∀ i ∈ l, ∀ s f k c sp, i ≠ .plain (.simulation s f k c sp)) → (∀ i, (∀ s f k c sp, i ≠ .plain (.simulation s f k c sp)) → g i = none) → l.filterMap g = [] := by
    intro l g hl hg
    rw [List.filterMap_eq_nil_iff]
    exact fun i hi => hg i (hl i hi)
  have hsim : Alg.simulations blocks = (List.finRange Nb).map fun b =>
      ((((S.sized (np b)).startKernels t).map fun k => (.on b (.comp k) : CallMB D Nb)), [], (((S.sized (np b)).advanceKernels t).map fun k => .on b (.comp k)), .on b .bc :: (links b).map .link,
        ((ks b).map fun k => .on b (.comp k))) := by
    rw [hb]
    simp only [Alg.simulations, List.flatMap_map, List.flatMap_cons, List.flatMap_nil, List.append_nil]
    rw [← List.flatMap_singleton' (List.map _ _), List.flatMap_map]
    congr 1
    funext b
    rw [List.filterMap_append, List.filterMap_cons, hfilter (pre b) _ (fun i hi => hno b i (List.mem_append_left _ hi))]
    · simp only [Setup.itemMB, List.nil_append]
      rw [hfilter (post b) _ (fun i hi => hno b i (List.mem_append_right _ hi))]
      intro i hi
      cases i with
      | metrics _ _ => rfl
      | plain i =>
        cases i with
        | simulation s f k c sp => exact absurd rfl (hi s f k c sp)
        | _ => rfl
    · intro i hi
      cases i with
      | metrics _ _ => rfl
      | plain i =>
        cases i with
        | simulation s f k c sp => exact absurd rfl (hi s f k c sp)
        | _ => rfl
  refine ⟨ks, hks, ?_⟩
  rw [hrun, hsim, hnone (.inTheSimulation 0) (by simp), hnone .after (by simp)]
  have hnil : ((List.finRange Nb).flatMap fun _ => ([] : List (CallMB D Nb))) = [] := by rw [List.flatMap_eq_nil_iff]; intro b _; rfl
  simp [Alg.calls, List.flatMap_map, hnil]

/-- Final and saved states of the program, for a scheme whose stages follow `step`. -/
theorem programMB_states (hP : ProgramMB S np t I pts links stages niter blocks prg) (hNb : 0 < Nb) (m : Fin Nb → Mem D) (step : (Fin Nb → TState D n) → Fin Nb → TState D n)
    (hcore : ∀ ks : Fin Nb → List (Ker D), (∀ b, (S.sized (np b)).spatial = .ok (ks b)) → ∀ i m' s, RepMB S np (fun b s => atStartMB I pts np S.h S.sol own blocks m b (.data s)) m' s →
      RepMB S np (fun b s => atStartMB I pts np S.h S.sol own blocks m b (.data s)) (Alg.effect (execMB I pts np S.h S.sol own)
        (Alg.calls ((List.finRange Nb).flatMap fun b => .on b .bc :: (links b).map .link) (Alg.inStep i) ++
         Alg.calls ((List.finRange Nb).flatMap fun b => ((S.sized (np b)).startKernels t).map fun k => .on b (.comp k)) (Alg.inStep i) ++
         ((List.range stages.toNat).flatMap fun z => Alg.calls ((List.finRange Nb).flatMap fun b => (ks b).map fun k => .on b (.comp k)) (Alg.inStage i z) ++
           Alg.calls ((List.finRange Nb).flatMap fun b => ((S.sized (np b)).advanceKernels t).map fun k => .on b (.comp k)) (Alg.inStage i z) ++
           Alg.calls ((List.finRange Nb).flatMap fun b => .on b .bc :: (links b).map .link) (Alg.inStage i z))) m') (step s)) :
    let s0 := fun b => stateOf S (atStartMB I pts np S.h S.sol own blocks m b)
    (∀ b, ∀ i : Fin n, Alg.effect (execMB I pts np S.h S.sol own) (Alg.runProgram prg) m b (.data (S.sol i)) = (step^[niter.toNat] s0 b).q i) ∧
    ∀ before after o k e, Alg.runProgram prg = before ++ .write o (some k) e :: after → ∃ j : ℕ, (j : ℤ) = k ∧ 1 ≤ j ∧ j ≤ niter.toNat ∧
      ∀ b, ∀ i : Fin n, Alg.effect (execMB I pts np S.h S.sol own) before m b (.data (S.sol i)) = (step^[j] s0 b).q i := by
  intro s0
  obtain ⟨ks, hks, hrun⟩ := programMB_events hP hNb
  have hcore := hcore ks hks
  set m1 := atStartMB I pts np S.h S.sol own blocks m with hm1
  have h0 : RepMB S np (fun b s => m1 b (.data s)) m1 s0 := fun b => ⟨fun _ => rfl, fun _ => rfl, fun _ _ _ => rfl⟩
  have idleW : ∀ p, ∀ v ∈ (Alg.writesAt (blocks.flatMap Alg.BlockMB.ios) p : List (Alg.Event (CallMB D Nb))), ∀ k e, v ≠ .call k e := by
    intro p v hv k e
    simp only [Alg.writesAt, List.mem_flatMap] at hv
    obtain ⟨o, _, q, _, hv⟩ := hv
    split at hv <;> simp at hv
    rw [hv]; simp
  set pref : List (Alg.Event (CallMB D Nb)) := Alg.calls (Alg.placedAt (Alg.sortByOrder (Alg.othersMB blocks)) .before) Alg.outside ++ Alg.calls ((Alg.metricsMB blocks).flatMap Prod.fst) Alg.outside ++
        Alg.calls ((Alg.metricsMB blocks).flatMap Prod.snd) Alg.outside with hpref
  have hbefore : ∀ evs, Alg.effect (execMB I pts np S.h S.sol own) (pref ++ Alg.writesAt (blocks.flatMap Alg.BlockMB.ios) .before ++ evs) m = Alg.effect (execMB I pts np S.h S.sol own) evs m1 := by
    intro evs
    rw [Alg.effect_append, Alg.effect_append, effect_idleMB own _ (idleW _)]
    rfl
  set core : ℕ → List (Alg.Event (CallMB D Nb)) := fun i => Alg.calls ((List.finRange Nb).flatMap fun b => .on b .bc :: (links b).map .link) (Alg.inStep i) ++
         Alg.calls ((List.finRange Nb).flatMap fun b => ((S.sized (np b)).startKernels t).map fun k => .on b (.comp k)) (Alg.inStep i) ++
         ((List.range stages.toNat).flatMap fun z => Alg.calls ((List.finRange Nb).flatMap fun b => (ks b).map fun k => .on b (.comp k)) (Alg.inStage i z) ++
           Alg.calls ((List.finRange Nb).flatMap fun b => ((S.sized (np b)).advanceKernels t).map fun k => .on b (.comp k)) (Alg.inStage i z) ++
           Alg.calls ((List.finRange Nb).flatMap fun b => .on b .bc :: (links b).map .link) (Alg.inStage i z)) with hcoredef
  set tail : ℕ → List (Alg.Event (CallMB D Nb)) := fun i => Alg.periodicWrites (blocks.flatMap Alg.BlockMB.ios) i with htaildef
  have htail : ∀ i, ∀ v ∈ tail i, ∀ k e, v ≠ .call k e := by
    intro i v hv k e
    simp only [htaildef, Alg.periodicWrites, List.mem_flatMap] at hv
    obtain ⟨o, _, q, _, hv⟩ := hv
    cases q <;> simp only [List.not_mem_nil] at hv
    split at hv
    · rw [List.mem_singleton] at hv; rw [hv]; simp
    · simp at hv
  have hsteps : ∀ k, RepMB S np (fun b s => m1 b (.data s)) (Alg.effect (execMB I pts np S.h S.sol own) ((List.range k).flatMap fun i => core i ++ tail i) m1) (step^[k] s0) := by
    intro k
    induction k with
    | zero => exact h0
    | succ k ih =>
      rw [List.range_succ, List.flatMap_append, Alg.effect_append, List.flatMap_cons, List.flatMap_nil, List.append_nil, Alg.effect_append, effect_idleMB own (tail k) (htail k),
        Function.iterate_succ_apply']
      exact hcore k _ _ ih
  refine ⟨fun b i => ?_, fun before after o k e hsplit => ?_⟩
  · rw [hrun, List.append_assoc, hbefore, Alg.effect_append, effect_idleMB own _ (idleW _)]
    exact (hsteps _ b).q i
  · rw [hrun, List.append_assoc] at hsplit
    rcases split_append hsplit with ⟨b', hb⟩ | ⟨a', ha, hb⟩
    · exfalso
      have hmem : (.write o (some k) e : Alg.Event (CallMB D Nb)) ∈ pref ++ Alg.writesAt (blocks.flatMap Alg.BlockMB.ios) .before := by rw [hb]; simp
      rcases List.mem_append.1 hmem with h | h
      · simp [hpref, Alg.calls] at h
      · simp only [Alg.writesAt, List.mem_flatMap] at h
        obtain ⟨o', _, q, _, h⟩ := h
        split at h <;> simp at h
    · rcases split_append hb with ⟨b', hb⟩ | ⟨a'', _, hb⟩
      · obtain ⟨i, a1, b1, hi, hf, ha1⟩ := split_flatMap _ _ hb
        rcases split_append hf with ⟨b2, hb2⟩ | ⟨a2, ha2, hb2⟩
        · exfalso
          have hmem : (.write o (some k) e : Alg.Event (CallMB D Nb)) ∈ core i := by
            have : core i = a1 ++ .write o (some k) e :: b2 := hb2
            rw [this]; simp
          simp [hcoredef, Alg.calls] at hmem
        · have htl : tail i = a2 ++ .write o (some k) e :: b1 := hb2
          have hidle : ∀ v ∈ a2, ∀ k e, v ≠ .call k e := fun v hv => htail i v (by rw [htl]; exact List.mem_append_left _ hv)
          have hk : k = i + 1 := by
            have hmem : (.write o (some k) e : Alg.Event (CallMB D Nb)) ∈ tail i := by rw [htl]; simp
            simp only [htaildef, Alg.periodicWrites, List.mem_flatMap] at hmem
            obtain ⟨o', _, q, _, h⟩ := hmem
            cases q <;> simp only [List.not_mem_nil] at h
            split at h
            · simp only [List.mem_singleton, Alg.Event.write.injEq, Option.some.injEq] at h
              exact h.2.1
            · simp at h
          refine ⟨i + 1, by push_cast; exact hk.symm, by omega, by omega, fun b c => ?_⟩
          rw [ha, hbefore, ha1, ha2]
          have hcollect : (List.range i).flatMap (fun i => core i ++ tail i) ++ (core i ++ a2) = ((List.range i).flatMap (fun i => core i ++ tail i) ++ core i) ++ a2 := by simp
          rw [hcollect, Alg.effect_append, effect_idleMB own a2 hidle, Alg.effect_append, Function.iterate_succ_apply']
          exact (hcore i _ _ (hsteps i) b).q c
      · exfalso
        have hmem : (.write o (some k) e : Alg.Event (CallMB D Nb)) ∈ (Alg.writesAt (blocks.flatMap Alg.BlockMB.ios) .after : List (Alg.Event (CallMB D Nb))) := by rw [hb]; simp
        simp only [Alg.writesAt, List.mem_flatMap] at hmem
        obtain ⟨o', _, q, _, h⟩ := hmem
        split at h <;> simp at h

/-- **C93, the program on several blocks, three stage scheme.** Blocks of any number and sizes with copies of the same equations, own grid spacings, own boundary conditions `own` which may be any functions of the solution
of the block, and any interfaces `links` between them. After the program the solution arrays of every block hold the solution of *all blocks together* advanced by `niter` Runge-Kutta steps: in every stage the right hand side of every
block is evaluated from the solutions the last boundary phase of all blocks has left, all blocks advance, and then the conditions and exchanges of all blocks follow. Every numbered file holds, when written, the solution after that number
of steps. Missing for a full account: as in C77, central schemes and monitors outside the loop only. -/
theorem C93_program_rk_partial (hP : ProgramMB S np .rk I pts links stages niter blocks prg) (hNb : 0 < Nb) (hst : stages = 3) {dt : ℝ} (hdt : ∀ b, (I b).const "dt" = dt)
    (hnew : ∀ b, (I b).table "rknew" = [2/3, 5/12, 3/5]) (hold : ∀ b, (I b).table "rkold" = [1/4, 3/20, 3/5]) (m : Fin Nb → Mem D) (full : Fin Nb → Sol D n → String → P D → ℝ)
    (hfull : ConsistentMB S np I (fun b s => atStartMB I pts np S.h S.sol own blocks m b (.data s)) full) :
    let step := rkStepMB np (fun b q i x => (S.rhs i).eval (I b) (memOf (full b q)) x) (exchanges np S.h own links) dt [(2/3, 1/4), (5/12, 3/20), (3/5, 3/5)]
    let s0 := fun b => stateOf S (atStartMB I pts np S.h S.sol own blocks m b)
    (∀ b, ∀ i : Fin n, Alg.effect (execMB I pts np S.h S.sol own) (Alg.runProgram prg) m b (.data (S.sol i)) = (step^[niter.toNat] s0 b).q i) ∧
    ∀ before after o k e, Alg.runProgram prg = before ++ .write o (some k) e :: after → ∃ j : ℕ, (j : ℤ) = k ∧ 1 ≤ j ∧ j ≤ niter.toNat ∧
      ∀ b, ∀ i : Fin n, Alg.effect (execMB I pts np S.h S.sol own) before m b (.data (S.sol i)) = (step^[j] s0 b).q i := by
  refine programMB_states own hP hNb m _ fun ks hks i m' s h => ?_
  rw [Alg.effect_append, Alg.effect_append]
  have h1 := repMB_bc (I := I) (pts := pts) (links := links) own hP.valid h (Alg.inStep i)
  set mb := Alg.effect (execMB I pts np S.h S.sol own) (Alg.calls ((List.finRange Nb).flatMap fun b => .on b .bc :: (links b).map .link) (Alg.inStep i)) m'
  rw [effect_all]
  have h2 : RepMB S np (fun b s => atStartMB I pts np S.h S.sol own blocks m b (.data s))
      (fun b => runKers { I b with stage := (Alg.inStep i).stage.getD 0 } pts ((S.sized (np b)).startKernels .rk) (mb b))
      fun b => { q := exchanges np S.h own links (fun b => (s b).q) b, aux := onGrid (np b) (exchanges np S.h own links (fun b => (s b).q) b) (s b).aux } := by
    intro b
    have := rep_start (S := S.sized (np b)) (I := I b) (B := own b) hP.loops (h1 b) (Alg.inStep i)
    rw [effect_comp] at this
    exact this
  have h3 := repMB_stages (I := I) (pts := pts) own (rkStageMB np (fun b q i x => (S.rhs i).eval (I b) (memOf (full b q)) x) (exchanges np S.h own links) dt) _ _
    (fun z m s h => repMB_rkStage (I := I) (links := links) own hP.valid hP.loops hP.reach hfull hks hdt hnew hold h i z) (List.range stages.toNat) h2
  have hz : ((List.range stages.toNat).map fun z => (([2/3, 5/12, 3/5] : List ℝ).getD z 0, ([1/4, 3/20, 3/5] : List ℝ).getD z 0)) = [(2/3, 1/4), (5/12, 3/20), (3/5, 3/5)] := by
    rw [hst]; rfl
  rw [hz] at h3
  exact h3

/-- **C93, low storage schemes** with coefficients of any number of stages. -/
theorem C93_program_ls_partial (hP : ProgramMB S np .lowStorage I pts links stages niter blocks prg) (hNb : 0 < Nb) (A C : List ℝ) (hAC : A.length = C.length) (hst : stages = A.length) {dt : ℝ}
    (hdt : ∀ b, (I b).const "dt" = dt) (hA : ∀ b, (I b).table "rkA" = A) (hC : ∀ b, (I b).table "rkB" = C) (m : Fin Nb → Mem D) (full : Fin Nb → Sol D n → String → P D → ℝ)
    (hfull : ConsistentMB S np I (fun b s => atStartMB I pts np S.h S.sol own blocks m b (.data s)) full) :
    let step := lsStepMB np (fun b q i x => (S.rhs i).eval (I b) (memOf (full b q)) x) (exchanges np S.h own links) dt (A.zip C)
    let s0 := fun b => stateOf S (atStartMB I pts np S.h S.sol own blocks m b)
    (∀ b, ∀ i : Fin n, Alg.effect (execMB I pts np S.h S.sol own) (Alg.runProgram prg) m b (.data (S.sol i)) = (step^[niter.toNat] s0 b).q i) ∧
    ∀ before after o k e, Alg.runProgram prg = before ++ .write o (some k) e :: after → ∃ j : ℕ, (j : ℤ) = k ∧ 1 ≤ j ∧ j ≤ niter.toNat ∧
      ∀ b, ∀ i : Fin n, Alg.effect (execMB I pts np S.h S.sol own) before m b (.data (S.sol i)) = (step^[j] s0 b).q i := by
  refine programMB_states own hP hNb m _ fun ks hks i m' s h => ?_
  rw [Alg.effect_append, Alg.effect_append]
  have h1 := repMB_bc (I := I) (pts := pts) (links := links) own hP.valid h (Alg.inStep i)
  have hstart : ((List.finRange Nb).flatMap fun b => ((S.sized (np b)).startKernels .lowStorage).map fun k => (.on b (.comp k) : CallMB D Nb)) = [] := by
    rw [List.flatMap_eq_nil_iff]; intro b _; rfl
  rw [hstart]
  have h3 := repMB_stages (I := I) (pts := pts) own (lsStageMB np (fun b q i x => (S.rhs i).eval (I b) (memOf (full b q)) x) (exchanges np S.h own links) dt) _ _
    (fun z m s h => repMB_lsStage (I := I) (links := links) own hP.valid hP.loops hP.reach hfull hks hdt hA hC h i z) (List.range stages.toNat) h1
  have hz : ((List.range stages.toNat).map fun z => (A.getD z 0, C.getD z 0)) = A.zip C := by
    rw [hst]
    exact zip_range A C hAC
  rw [hz] at h3
  exact h3

end

end OpenSBLI.Sim
