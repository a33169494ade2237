import Verif.Lemmas.SimulationTime

/-!
# C77: what the program of a central-difference simulation computes

`S.spatial` are the spatial kernels the code generates from the equations and relations, `Alg.generate` assembles the program with the kernels of the Runge-Kutta scheme, and `exec` runs it on the arrays,
kernel by kernel and point by point, in any order of the points of a kernel. The theorems compare the arrays with the steps of `Spec/Simulation.lean`, which know neither kernels nor work arrays.
-/
namespace OpenSBLI.Sim

variable {D n : ℕ}

/-! ## Values of the datasets -/

theorem datasets_exist {S : Setup D n} {req : String → Prop} (hS : S.Relations req) (I : Interp D) (order : List String) (hord : S.relOrder = .ok order) (init : String → P D → ℝ) (q : Sol D n) :
    ∃ f, ConsistentOn S req I init q f := by
  obtain ⟨known, hk, hnd, hmem, hdep⟩ := rel_order hS order hord
  classical
  set f0 : String → P D → ℝ := fun s => if h : ∃ i, s = S.sol i then q h.choose else init s with hf0
  have h0 : ∀ i, f0 (S.sol i) = q i := by
    intro i
    have hex : ∃ j, S.sol i = S.sol j := ⟨i, rfl⟩
    simp only [hf0]
    rw [dif_pos hex]
    exact congrArg q (hS.solInj hex.choose_spec).symm
  -- the relations, one after another, on all points
  have main : ∀ order : List String, order.Nodup → (∀ s ∈ order, s ∈ S.keys ∧ (S.relation s).isSome) →
      Spec.RespectsDeps known (S.keys.filterMap fun s => (S.relation s).map fun e => (s, e.datas)) order →
      ∃ f : String → P D → ℝ, (∀ s, s ∉ order → f s = f0 s) ∧ ∀ s ∈ order, ∀ e, S.relation s = some e → ∀ x, f s x = e.eval I (memOf f) x := by
    intro order
    induction order using List.reverseRecOn with
    | nil => exact fun _ _ _ => ⟨f0, fun _ _ => rfl, fun s hs => by simp at hs⟩
    | append_singleton pre s ih =>
      intro hnd hord hdep
      rw [List.nodup_append] at hnd
      obtain ⟨f, f1, f2⟩ := ih hnd.1 (fun t ht => hord t (List.mem_append_left _ ht)) fun p x r he => hdep p x (r ++ [s]) (by rw [he]; simp)
      obtain ⟨hkey, hsome⟩ := hord s (by simp)
      obtain ⟨e, he⟩ := Option.isSome_iff_exists.1 hsome
      have hspre : s ∉ pre := fun h => hnd.2.2 s h s (by simp) rfl
      -- nothing evaluated so far reads `s`
      have hread : ∀ t e', t ∈ pre ++ [s] → S.relation t = some e' → s ∉ e'.datas := by
        intro t e' ht he' hs
        obtain ⟨p, r, hpr⟩ := List.append_of_mem ht
        have := hdep p t r hpr e'.datas (List.mem_filterMap.2 ⟨t, (hord t ht).1, by rw [he']; rfl⟩) s hs
        rcases this with h | h
        · rw [hk s h] at he; cases he
        · -- `s` would come before the last place
          rcases List.eq_nil_or_concat r with rfl | ⟨r', z, rfl⟩
          · have := List.append_inj' hpr rfl
            rw [← this.1] at h
            exact hspre h
          · rw [List.concat_eq_append] at hpr
            have hpr' : pre ++ [s] = (p ++ t :: r') ++ [z] := by rw [hpr]; simp
            have := List.append_inj' hpr' rfl
            rw [this.1] at hspre
            exact hspre (List.mem_append_left _ h)
      refine ⟨Function.update f s (e.eval I (memOf f)), fun t ht => ?_, fun t ht e' he' x => ?_⟩
      · simp only [List.mem_append, List.mem_singleton, not_or] at ht
        rw [Function.update_of_ne ht.2, f1 t ht.1]
      · have heval : e'.eval I (memOf (Function.update f s (e.eval I (memOf f)))) = e'.eval I (memOf f) := by
          refine eval_congr e' fun a ha => ?_
          obtain ⟨u, rfl⟩ := (hS.relPlain t e' he').2.1 a ha
          have hus : u ≠ s := fun h => hread t e' ht he' (h ▸ (mem_datas e' u).2 ha)
          simp only [memOf, Function.update_of_ne hus]
        rw [heval]
        by_cases hts : t = s
        · subst hts
          rw [he] at he'
          injection he' with he'
          subst he'
          rw [Function.update_self]
        · rw [Function.update_of_ne hts]
          exact f2 t (by simpa [hts] using ht) e' he' x
  obtain ⟨f, f1, f2⟩ := main order hnd (fun s hs => (hmem s).1 hs) hdep
  have hnone : ∀ s, S.relation s = none → s ∉ order := fun s hs h => by have := ((hmem s).1 h).2; rw [hs] at this; cases this
  refine ⟨f, fun i => (f1 _ (hnone _ (hS.relSol i))).trans (h0 i), fun s e hreq he x => ?_, fun s hs hne => (f1 s (hnone s ?_)).trans ?_⟩
  · replace he := (relation_iff hS.relNodup s e).2 he
    exact f2 s ((hmem s).2 ⟨(hS.keysMem s).2 hreq, by rw [he]; rfl⟩) e he x
  · rw [Option.eq_none_iff_forall_ne_some]
    exact fun e he => hs e ((relation_iff hS.relNodup s e).1 he)
  · simp only [hf0]
    rw [dif_neg]
    push Not
    exact hne

/-- C77: when the relations can be sorted, every solution has values of the datasets belonging to it. -/
theorem C77_datasets_exist {S : Setup D n} (hS : S.Valid) (I : Interp D) (ks : List (Ker D)) (hks : S.spatial = .ok ks) (init : String → P D → ℝ) (q : Sol D n) :
    ∃ f, Consistent S I init q f := by
  obtain ⟨order, hord⟩ := spatial_order hks
  exact datasets_exist hS.relations I order hord init q

/-! ## One evaluation -/

/-- C77: run on arrays whose solution, halo points included, is `q`, the spatial kernels of any setup the code accepts leave in each residual array, on the grid, the right hand side of its equation: the derivatives of the
right hand side applied to the exact values of the datasets belonging to `q`, however the derivatives were grouped, stored in work arrays, nested or split into convective and viscous terms. They leave the solution unchanged. -/
theorem C77_residual_partial {S : Setup D n} (hS : S.Valid) {I : Interp D} {pts : Ranges.Kernel D → List (P D)} (hp : Enumerates pts) (hl : Local I S.np S.h)
    (ks : List (Ker D)) (hks : S.spatial = .ok ks) (m : Mem D) (f : String → P D → ℝ) (hf : Consistent S I (fun s => m (.data s)) (fun i => m (.data (S.sol i))) f) :
    (∀ i : Fin n, ∀ x, Grid S.np x → (ks.foldl (fun m k => runKer I pts k m) m) (.res i) x = (S.rhs i).eval I (memOf f) x) ∧
    ∀ i : Fin n, (ks.foldl (fun m k => runKer I pts k m) m) (.data (S.sol i)) = m (.data (S.sol i)) := by
  obtain ⟨s1, s2, _⟩ := spatial_phase (full := f) hS hp hl (fun t ht e he x => hf.rel t e ((hS.listed.keysMem t).1 ht) ((relation_iff hS.relNodup t e).1 he) x) ks hks m (fun t ht x => by
    by_cases hi : ∃ i, t = S.sol i
    · obtain ⟨i, rfl⟩ := hi
      rw [hf.sol i]
    · push Not at hi
      rw [hf.rest t (relation_none hS.relNodup ht) hi])
  exact ⟨fun i x hx => s1 i x ((box_nil _ _ _).2 hx), fun i => s2 _ (hS.relSol i)⟩

/-! ## The program -/

/-- What the theorems on programs assume: a problem the code accepts, one simulation item, all other equations placed before the time loop. -/
structure Program (S : Setup D n) (t : Temporal) (I : Interp D) (pts : Ranges.Kernel D → List (P D)) (inp : Alg.Input (Call D)) (prg : List (Alg.Node (Call D))) : Prop where
  valid : S.Valid
  loops : Enumerates pts
  reach : Local I S.np S.h
  items : ∃ pre post ks, S.spatial = .ok ks ∧ inp.items = pre ++ S.item t ks :: post ∧ (∀ i ∈ pre, i.isSimulation = false) ∧ ∀ i ∈ post, i.isSimulation = false
  others : ∀ o places k, .nonSimulation o places k ∈ inp.items → ∀ p ∈ places, p = .before
  generated : Alg.generate inp = .ok prg

/-- The arrays at the beginning of the time loop, after the kernels placed before it. -/
def atStart (I : Interp D) (pts : Ranges.Kernel D → List (P D)) (sol : Fin n → String) (B : Sol D n → Sol D n) (inp : Alg.Input (Call D)) (m : Mem D) : Mem D :=
  Alg.effect (exec I pts sol B) (Alg.calls (Alg.placedAt (Alg.sortByOrder (Alg.others inp.items)) .before) Alg.outside) m

/-- The state of the time integration in the arrays. -/
def stateOf (S : Setup D n) (m : Mem D) : TState D n where
  q := fun i => m (.data (S.sol i))
  aux := fun i => m (.reg i)

theorem placed_none {inp : Alg.Input (Call D)} (h : ∀ o places k, .nonSimulation o places k ∈ inp.items → ∀ p ∈ places, p = .before) (p : Alg.Place) (hp : p ≠ .before) :
    Alg.placedAt (Alg.sortByOrder (Alg.others inp.items)) p = [] := by
  unfold Alg.placedAt
  rw [List.flatMap_eq_nil_iff]
  intro x hx
  rw [(Alg.C42_sorted _).1.mem_iff, Alg.others, List.mem_filterMap] at hx
  obtain ⟨i, hi, hx⟩ := hx
  rw [List.flatMap_eq_nil_iff]
  intro q hq
  cases i <;> simp only [Option.some.injEq, reduceCtorEq] at hx
  subst hx
  rw [if_neg]
  intro hqp
  exact hp (hqp ▸ h _ _ _ hi q hq)

/-- A program with one simulation item, whose spatial kernels are `cs`, and all other equations placed before the time loop. -/
structure Assembled (S : Setup D n) (t : Temporal) (cs : List (Call D)) (inp : Alg.Input (Call D)) (prg : List (Alg.Node (Call D))) : Prop where
  items : ∃ pre post, inp.items = pre ++ .simulation ((S.startKernels t).map .comp) [] ((S.advanceKernels t).map .comp) [.bc] cs :: post ∧ (∀ i ∈ pre, i.isSimulation = false) ∧ ∀ i ∈ post, i.isSimulation = false
  others : ∀ o places k, .nonSimulation o places k ∈ inp.items → ∀ p ∈ places, p = .before
  generated : Alg.generate inp = .ok prg

theorem Program.assembled {S : Setup D n} {t : Temporal} {I : Interp D} {pts : Ranges.Kernel D → List (P D)} {inp : Alg.Input (Call D)} {prg : List (Alg.Node (Call D))}
    (hP : Program S t I pts inp prg) : ∃ ks, S.spatial = .ok ks ∧ Assembled S t (ks.map .comp) inp prg := by
  obtain ⟨pre, post, ks, hks, hit, hpre, hpost⟩ := hP.items
  exact ⟨ks, hks, ⟨pre, post, hit, hpre, hpost⟩, hP.others, hP.generated⟩

/-- Events of the time loop: the kernels of a step, then monitor and output. -/
theorem program_events {S : Setup D n} {t : Temporal} {cs : List (Call D)} {inp : Alg.Input (Call D)} {prg : List (Alg.Node (Call D))}
    (hP : Assembled S t cs inp prg) : Alg.runProgram prg =
      Alg.calls (Alg.placedAt (Alg.sortByOrder (Alg.others inp.items)) .before) Alg.outside ++ Alg.writesAt inp.ios .before ++
      ((List.range inp.niter.toNat).flatMap fun i =>
        (Alg.calls [.bc] (Alg.inStep i) ++ Alg.calls ((S.startKernels t).map .comp) (Alg.inStep i) ++
        ((List.range inp.stages.toNat).flatMap fun st => Alg.calls cs (Alg.inStage i st) ++ Alg.calls ((S.advanceKernels t).map .comp) (Alg.inStage i st) ++ Alg.calls [.bc] (Alg.inStage i st))) ++
        (Alg.monitorRuns inp.monitorFrequency i ++ Alg.periodicWrites inp.ios i)) ++
      Alg.writesAt inp.ios .after := by
  obtain ⟨pre, post, hit, hpre, hpost⟩ := hP.items
  rw [Alg.C42_run_partial inp prg pre post _ _ _ _ _ hit hpre hpost hP.generated, placed_none hP.others .after (by simp), placed_none hP.others (.inTheSimulation 0) (by simp)]
  simp only [Alg.calls, List.map_nil, List.append_nil, List.append_assoc]

theorem idle_writesAt (ios : List Alg.IO) (p : Alg.Place) : ∀ v ∈ (Alg.writesAt ios p : List (Alg.Event (Call D))), ∀ k e, v ≠ .call k e := by
  intro v hv k e h
  subst h
  simp only [Alg.writesAt, List.mem_flatMap] at hv
  obtain ⟨o, _, q, _, hv⟩ := hv
  split at hv <;> simp at hv

theorem idle_tail (f : Option ℕ) (ios : List Alg.IO) (i : ℕ) : ∀ v ∈ (Alg.monitorRuns f i ++ Alg.periodicWrites ios i : List (Alg.Event (Call D))), ∀ k e, v ≠ .call k e := by
  intro v hv k e h
  subst h
  rcases List.mem_append.1 hv with hv | hv
  · cases f with
    | none => simp [Alg.monitorRuns] at hv
    | some f =>
      simp only [Alg.monitorRuns] at hv
      split at hv <;> simp at hv
  · simp only [Alg.periodicWrites, List.mem_flatMap] at hv
    obtain ⟨o, _, q, _, hv⟩ := hv
    cases q <;> simp only [List.not_mem_nil] at hv
    split at hv <;> simp at hv

section
variable {S : Setup D n} {t : Temporal} {cs : List (Call D)} {I : Interp D} {pts : Ranges.Kernel D → List (P D)} {inp : Alg.Input (Call D)} {prg : List (Alg.Node (Call D))}

/-- Steps of the program against steps of a specification. -/
theorem program_steps {B : Sol D n → Sol D n} {init : String → P D → ℝ} (core tail : ℕ → List (Alg.Event (Call D))) (step : TState D n → TState D n)
    (hcore : ∀ i m s, Rep S init m s → Rep S init (Alg.effect (exec I pts S.sol B) (core i) m) (step s)) (htail : ∀ i, ∀ v ∈ tail i, ∀ k e, v ≠ .call k e)
    (k : ℕ) {m : Mem D} {s : TState D n} (h : Rep S init m s) :
    Rep S init (Alg.effect (exec I pts S.sol B) ((List.range k).flatMap fun i => core i ++ tail i) m) (step^[k] s) := by
  induction k with
  | zero => exact h
  | succ k ih =>
    rw [List.range_succ, List.flatMap_append, Alg.effect_append, List.flatMap_cons, List.flatMap_nil, List.append_nil, Alg.effect_append, effect_idle (S := S) (tail k) (htail k),
      Function.iterate_succ_apply']
    exact hcore k _ _ ih

theorem split_append {E : Type} {x y a b : List E} {w : E} (h : x ++ y = a ++ w :: b) : (∃ b', x = a ++ w :: b') ∨ ∃ a', a = x ++ a' ∧ y = a' ++ w :: b := by
  rcases List.append_eq_append_iff.1 h with ⟨c, h1, h2⟩ | ⟨c, h1, h2⟩
  · exact .inr ⟨c, h1, h2⟩
  · cases c with
    | nil => simp only [List.nil_append] at h2; exact .inr ⟨[], by simpa using h1.symm, by simpa using h2.symm⟩
    | cons z c =>
      rw [List.cons_append] at h2
      injection h2 with h2 h3
      subst h2
      exact .inl ⟨c, h1⟩

theorem split_flatMap {E : Type} (k : ℕ) (f : ℕ → List E) {a b : List E} {w : E} (h : (List.range k).flatMap f = a ++ w :: b) :
    ∃ i a' b', i < k ∧ f i = a' ++ w :: b' ∧ a = (List.range i).flatMap f ++ a' := by
  induction k generalizing b with
  | zero => simp at h
  | succ k ih =>
    rw [List.range_succ, List.flatMap_append, List.flatMap_cons, List.flatMap_nil, List.append_nil] at h
    rcases split_append h with ⟨b', h⟩ | ⟨a', h1, h2⟩
    · obtain ⟨i, a', b'', hi, h1, h2⟩ := ih h
      exact ⟨i, a', b'', by omega, h1, h2⟩
    · exact ⟨k, a', b, by omega, h2, h1⟩

/-- Final and saved states of a program, for a scheme whose stages follow `step`. -/
theorem program_states (hP : Assembled S t cs inp prg) (B : Sol D n → Sol D n) (m : Mem D) (step : TState D n → TState D n)
    (hcore : ∀ i m' s, Rep S (fun s => atStart I pts S.sol B inp m (.data s)) m' s →
      Rep S (fun s => atStart I pts S.sol B inp m (.data s)) (Alg.effect (exec I pts S.sol B) (Alg.calls [.bc] (Alg.inStep i) ++ Alg.calls ((S.startKernels t).map .comp) (Alg.inStep i) ++
        ((List.range inp.stages.toNat).flatMap fun st => Alg.calls cs (Alg.inStage i st) ++ Alg.calls ((S.advanceKernels t).map .comp) (Alg.inStage i st) ++ Alg.calls [.bc] (Alg.inStage i st))) m') (step s)) :
    (∀ i : Fin n, Alg.effect (exec I pts S.sol B) (Alg.runProgram prg) m (.data (S.sol i)) = (step^[inp.niter.toNat] (stateOf S (atStart I pts S.sol B inp m))).q i) ∧
    ∀ before after o k e, Alg.runProgram prg = before ++ .write o (some k) e :: after → ∃ j : ℕ, (j : ℤ) = k ∧ 1 ≤ j ∧ j ≤ inp.niter.toNat ∧
      ∀ i : Fin n, Alg.effect (exec I pts S.sol B) before m (.data (S.sol i)) = (step^[j] (stateOf S (atStart I pts S.sol B inp m))).q i := by
  have hrun := program_events hP
  set m1 := atStart I pts S.sol B inp m with hm1
  have h0 : Rep S (fun s => m1 (.data s)) m1 (stateOf S m1) := ⟨fun _ => rfl, fun _ => rfl, fun _ _ _ => rfl⟩
  have hbefore : ∀ evs, Alg.effect (exec I pts S.sol B) (Alg.calls (Alg.placedAt (Alg.sortByOrder (Alg.others inp.items)) .before) Alg.outside ++ Alg.writesAt inp.ios .before ++ evs) m =
      Alg.effect (exec I pts S.sol B) evs m1 := by
    intro evs
    rw [Alg.effect_append, Alg.effect_append, effect_idle (S := S) _ (idle_writesAt _ _)]
    rfl
  set core : ℕ → List (Alg.Event (Call D)) := fun i => Alg.calls [.bc] (Alg.inStep i) ++ Alg.calls ((S.startKernels t).map .comp) (Alg.inStep i) ++
        ((List.range inp.stages.toNat).flatMap fun st => Alg.calls cs (Alg.inStage i st) ++ Alg.calls ((S.advanceKernels t).map .comp) (Alg.inStage i st) ++ Alg.calls [.bc] (Alg.inStage i st)) with hcoredef
  set tail : ℕ → List (Alg.Event (Call D)) := fun i => Alg.monitorRuns inp.monitorFrequency i ++ Alg.periodicWrites inp.ios i with htaildef
  have htail : ∀ i, ∀ v ∈ tail i, ∀ k e, v ≠ .call k e := fun i => idle_tail _ _ i
  have hsteps := fun k => program_steps (S := S) (I := I) (pts := pts) (B := B) core tail step hcore htail k h0
  refine ⟨fun i => ?_, fun before after o k e hsplit => ?_⟩
  · rw [hrun, List.append_assoc, hbefore, Alg.effect_append, effect_idle (S := S) _ (idle_writesAt _ _)]
    exact (hsteps _).q i
  · rw [hrun, List.append_assoc] at hsplit
    rcases split_append hsplit with ⟨b', hb⟩ | ⟨a', ha, hb⟩
    · exfalso
      have hmem : (.write o (some k) e : Alg.Event (Call D)) ∈ Alg.calls (Alg.placedAt (Alg.sortByOrder (Alg.others inp.items)) .before) Alg.outside ++ Alg.writesAt inp.ios .before := by rw [hb]; simp
      rcases List.mem_append.1 hmem with h | h
      · simp [Alg.calls] at h
      · simp only [Alg.writesAt, List.mem_flatMap] at h
        obtain ⟨o', _, q, _, h⟩ := h
        split at h <;> simp at h
    · rcases split_append hb with ⟨b', hb⟩ | ⟨a'', _, hb⟩
      · obtain ⟨i, a1, b1, hi, hf, ha1⟩ := split_flatMap _ _ hb
        rcases split_append hf with ⟨b2, hb2⟩ | ⟨a2, ha2, hb2⟩
        · exfalso
          have hmem : (.write o (some k) e : Alg.Event (Call D)) ∈ core i := by
            have : core i = a1 ++ .write o (some k) e :: b2 := hb2
            rw [this]; simp
          simp [hcoredef, Alg.calls] at hmem
        · have htl : tail i = a2 ++ .write o (some k) e :: b1 := hb2
          have hidle : ∀ v ∈ a2, ∀ k e, v ≠ .call k e := fun v hv => htail i v (by rw [htl]; exact List.mem_append_left _ hv)
          have hk : k = i + 1 := by
            have hmem : (.write o (some k) e : Alg.Event (Call D)) ∈ tail i := by rw [htl]; simp
            rcases List.mem_append.1 hmem with h | h
            · cases hfq : inp.monitorFrequency with
              | none => rw [hfq] at h; simp [Alg.monitorRuns] at h
              | some f =>
                rw [hfq] at h
                simp only [Alg.monitorRuns] at h
                split at h <;> simp at h
            · simp only [Alg.periodicWrites, List.mem_flatMap] at h
              obtain ⟨o', _, q, _, h⟩ := h
              cases q <;> simp only [List.not_mem_nil] at h
              split at h
              · simp only [List.mem_singleton, Alg.Event.write.injEq, Option.some.injEq] at h
                exact h.2.1
              · simp at h
          refine ⟨i + 1, by push_cast; exact hk.symm, by omega, by omega, fun c => ?_⟩
          rw [ha, hbefore, ha1, ha2]
          have hcollect : (List.range i).flatMap (fun i => core i ++ tail i) ++ (core i ++ a2) = ((List.range i).flatMap (fun i => core i ++ tail i) ++ core i) ++ a2 := by simp
          rw [hcollect, Alg.effect_append, effect_idle (S := S) a2 hidle, Alg.effect_append, Function.iterate_succ_apply']
          exact (hcore i _ _ (hsteps i)).q c
      · exfalso
        have hmem : (.write o (some k) e : Alg.Event (Call D)) ∈ (Alg.writesAt inp.ios .after : List (Alg.Event (Call D))) := by rw [hb]; simp
        simp only [Alg.writesAt, List.mem_flatMap] at hmem
        obtain ⟨o', _, q, _, h⟩ := hmem
        split at h <;> simp at h

/-- The program of the three stage scheme, for spatial kernels evaluating `F`. -/
theorem assembled_rk (hP : Assembled S .rk cs inp prg) (hinj : Function.Injective S.sol) (hp : Enumerates pts) (hst : inp.stages = 3) (hnew : I.table "rknew" = [2/3, 5/12, 3/5])
    (hold : I.table "rkold" = [1/4, 3/20, 3/5]) (B F : Sol D n → Sol D n) (m : Mem D) (hF : Evaluates S I pts B (fun s => atStart I pts S.sol B inp m (.data s)) cs F) :
    let step := rkStep S.np F B (I.const "dt") [(2/3, 1/4), (5/12, 3/20), (3/5, 3/5)]
    let s0 := stateOf S (atStart I pts S.sol B inp m)
    (∀ i : Fin n, Alg.effect (exec I pts S.sol B) (Alg.runProgram prg) m (.data (S.sol i)) = (step^[inp.niter.toNat] s0).q i) ∧
    ∀ before after o k e, Alg.runProgram prg = before ++ .write o (some k) e :: after → ∃ j : ℕ, (j : ℤ) = k ∧ 1 ≤ j ∧ j ≤ inp.niter.toNat ∧
      ∀ i : Fin n, Alg.effect (exec I pts S.sol B) before m (.data (S.sol i)) = (step^[j] s0).q i := by
  refine program_states hP B m _ fun i m' s h => ?_
  rw [Alg.effect_append, Alg.effect_append]
  have h1 := rep_start hp (I := I) (B := B) (rep_bc hinj (I := I) (pts := pts) (B := B) h (Alg.inStep i)) (Alg.inStep i)
  have h2 := rep_stages (I := I) (pts := pts) (B := B) (rkStage S.np F B (I.const "dt")) _ _
    (fun z m s h => rep_stage hinj hp hF h i z) (List.range inp.stages.toNat) h1
  have hz : ((List.range inp.stages.toNat).map fun z => ((I.table "rknew").getD z 0, (I.table "rkold").getD z 0)) = [(2/3, 1/4), (5/12, 3/20), (3/5, 3/5)] := by
    rw [hst, hnew, hold]; rfl
  rw [hz] at h2
  exact h2

/-- The program of a low storage scheme, for spatial kernels evaluating `F`. -/
theorem assembled_ls (hP : Assembled S .lowStorage cs inp prg) (hinj : Function.Injective S.sol) (hp : Enumerates pts) (A C : List ℝ) (hAC : A.length = C.length) (hst : inp.stages = A.length)
    (hA : I.table "rkA" = A) (hC : I.table "rkB" = C) (B F : Sol D n → Sol D n) (m : Mem D) (hF : Evaluates S I pts B (fun s => atStart I pts S.sol B inp m (.data s)) cs F) :
    let step := lsStep S.np F B (I.const "dt") (A.zip C)
    let s0 := stateOf S (atStart I pts S.sol B inp m)
    (∀ i : Fin n, Alg.effect (exec I pts S.sol B) (Alg.runProgram prg) m (.data (S.sol i)) = (step^[inp.niter.toNat] s0).q i) ∧
    ∀ before after o k e, Alg.runProgram prg = before ++ .write o (some k) e :: after → ∃ j : ℕ, (j : ℤ) = k ∧ 1 ≤ j ∧ j ≤ inp.niter.toNat ∧
      ∀ i : Fin n, Alg.effect (exec I pts S.sol B) before m (.data (S.sol i)) = (step^[j] s0).q i := by
  refine program_states hP B m _ fun i m' s h => ?_
  rw [Alg.effect_append, Alg.effect_append]
  have h1 := rep_bc hinj (I := I) (pts := pts) (B := B) h (Alg.inStep i)
  have h2 := rep_stages (I := I) (pts := pts) (B := B) (lsStage S.np F B (I.const "dt")) _ _
    (fun z m s h => rep_lsStage hinj hp hF h i z) (List.range inp.stages.toNat) h1
  have hz : ((List.range inp.stages.toNat).map fun z => ((I.table "rkA").getD z 0, (I.table "rkB").getD z 0)) = A.zip C := by
    rw [hst, hA, hC]
    exact zip_range A C hAC
  rw [hz] at h2
  exact h2

/-- C77: the program of the three stage scheme. After the program the solution arrays hold the solution advanced by `niter` Runge-Kutta steps of the right hand sides of the equations; every file with a number holds, when written,
the solution advanced by that number of steps. The boundary conditions may be any function of the solution arrays. -/
theorem C77_program_rk_partial (hP : Program S .rk I pts inp prg) (hst : inp.stages = 3) (hnew : I.table "rknew" = [2/3, 5/12, 3/5]) (hold : I.table "rkold" = [1/4, 3/20, 3/5])
    (B : Sol D n → Sol D n) (m : Mem D) (full : Sol D n → String → P D → ℝ) (hfull : ∀ q, Consistent S I (fun s => atStart I pts S.sol B inp m (.data s)) q (full q)) :
    let step := rkStep S.np (fun q i x => (S.rhs i).eval I (memOf (full q)) x) B (I.const "dt") [(2/3, 1/4), (5/12, 3/20), (3/5, 3/5)]
    let s0 := stateOf S (atStart I pts S.sol B inp m)
    (∀ i : Fin n, Alg.effect (exec I pts S.sol B) (Alg.runProgram prg) m (.data (S.sol i)) = (step^[inp.niter.toNat] s0).q i) ∧
    ∀ before after o k e, Alg.runProgram prg = before ++ .write o (some k) e :: after → ∃ j : ℕ, (j : ℤ) = k ∧ 1 ≤ j ∧ j ≤ inp.niter.toNat ∧
      ∀ i : Fin n, Alg.effect (exec I pts S.sol B) before m (.data (S.sol i)) = (step^[j] s0).q i := by
  obtain ⟨ks, hks, hA⟩ := hP.assembled
  exact assembled_rk hA hP.valid.solInj hP.loops hst hnew hold B _ m (spatial_evaluates hP.valid hP.loops hP.reach hfull ks hks)

/-- C77: the program of a low storage scheme, with coefficients `A` and `B` of any number of stages. -/
theorem C77_program_ls_partial (hP : Program S .lowStorage I pts inp prg) (A C : List ℝ) (hAC : A.length = C.length) (hst : inp.stages = A.length) (hA : I.table "rkA" = A) (hC : I.table "rkB" = C)
    (B : Sol D n → Sol D n) (m : Mem D) (full : Sol D n → String → P D → ℝ) (hfull : ∀ q, Consistent S I (fun s => atStart I pts S.sol B inp m (.data s)) q (full q)) :
    let step := lsStep S.np (fun q i x => (S.rhs i).eval I (memOf (full q)) x) B (I.const "dt") (A.zip C)
    let s0 := stateOf S (atStart I pts S.sol B inp m)
    (∀ i : Fin n, Alg.effect (exec I pts S.sol B) (Alg.runProgram prg) m (.data (S.sol i)) = (step^[inp.niter.toNat] s0).q i) ∧
    ∀ before after o k e, Alg.runProgram prg = before ++ .write o (some k) e :: after → ∃ j : ℕ, (j : ℤ) = k ∧ 1 ≤ j ∧ j ≤ inp.niter.toNat ∧
      ∀ i : Fin n, Alg.effect (exec I pts S.sol B) before m (.data (S.sol i)) = (step^[j] s0).q i := by
  obtain ⟨ks, hks, hAs⟩ := hP.assembled
  exact assembled_ls hAs hP.valid.solInj hP.loops A C hAC hst hA hC B _ m (spatial_evaluates hP.valid hP.loops hP.reach hfull ks hks)

end

end OpenSBLI.Sim
