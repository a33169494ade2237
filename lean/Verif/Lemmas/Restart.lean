import Verif.Model.Restart
import Verif.Props.C78_Program

/-!
# Files of a run, and states at the writes

Lemmas for C96.
-/
namespace OpenSBLI.Restart
open OpenSBLI.Sim

variable {D n : ℕ}

/-! ## The files of a run -/

theorem runFiles_fst (exec : Alg.Event (Call D) → Mem D → Mem D) (arrays : ℕ → List String) (evs : List (Alg.Event (Call D))) (st : Mem D × Files D) :
    (runFiles exec arrays evs st).1 = Alg.effect exec evs st.1 := by
  induction evs generalizing st with
  | nil => rfl
  | cons v vs ih => exact ih _

theorem runFiles_append (exec : Alg.Event (Call D) → Mem D → Mem D) (arrays : ℕ → List String) (a b : List (Alg.Event (Call D))) (st : Mem D × Files D) :
    runFiles exec arrays (a ++ b) st = runFiles exec arrays b (runFiles exec arrays a st) := List.foldl_append ..

/-- An array in a file has the value it had at every write to this file, if that is the same at all of them. -/
theorem runFiles_value (exec : Alg.Event (Call D) → Mem D → Mem D) (arrays : ℕ → List String) (evs : List (Alg.Event (Call D))) (m : Mem D) (fs : Files D) (f s : String) (v : P D → ℝ)
    (hex : ∃ o k e, .write o k e ∈ evs ∧ target o k = f ∧ s ∈ arrays o.id)
    (hall : ∀ before after o k e, evs = before ++ .write o k e :: after → target o k = f → s ∈ arrays o.id → Alg.effect exec before m (.data s) = v) :
    (runFiles exec arrays evs (m, fs)).2 f s = some v := by
  induction evs using List.reverseRecOn with
  | nil => obtain ⟨o, k, e, h, _⟩ := hex; cases h
  | append_singleton evs w ih =>
    rw [runFiles_append]
    have hprev : (∃ o k e, .write o k e ∈ evs ∧ target o k = f ∧ s ∈ arrays o.id) → (runFiles exec arrays evs (m, fs)).2 f s = some v := fun h =>
      ih h fun before after o k e he => hall before (after ++ [w]) o k e (by rw [he]; simp)
    have hold : (∀ o k e, w = .write o k e → target o k = f → s ∉ arrays o.id) → (runFiles exec arrays evs (m, fs)).2 f s = some v := by
      intro hw
      obtain ⟨o, k, e, h, ht, hs⟩ := hex
      rcases List.mem_append.1 h with h | h
      · exact hprev ⟨o, k, e, h, ht, hs⟩
      · rw [List.mem_singleton] at h
        exact absurd hs (hw o k e h.symm ht)
    cases w with
    | call k e => exact hold fun o k e h => by cases h
    | monitor e => exact hold fun o k e h => by cases h
    | write o k e =>
      change store (arrays o.id) (target o k) (runFiles exec arrays evs (m, fs)).1 (runFiles exec arrays evs (m, fs)).2 f s = some v
      unfold store
      by_cases h : f = target o k ∧ s ∈ arrays o.id
      · rw [if_pos h, runFiles_fst, hall evs [] o k e rfl h.1.symm h.2]
      · rw [if_neg h]
        refine hold fun o' k' e' h' ht hs => h ?_
        injection h' with h1 h2 h3
        subst h1; subst h2
        exact ⟨ht.symm, hs⟩

/-! ## States at the writes -/

/-- The program follows the steps: at the end, at every write with a number, and at the writes without. -/
structure Follows (S : Setup D n) (I : Interp D) (pts : Ranges.Kernel D → List (P D)) (B : Sol D n → Sol D n) (inp : Alg.Input (Call D)) (prg : List (Alg.Node (Call D))) (m : Mem D) (step : TState D n → TState D n) : Prop where
  final : Rep S (fun s => atStart I pts S.sol B inp m (.data s)) (Alg.effect (exec I pts S.sol B) (Alg.runProgram prg) m) (step^[inp.niter.toNat] (stateOf S (atStart I pts S.sol B inp m)))
  write : ∀ before after o k e, Alg.runProgram prg = before ++ .write o k e :: after → ∃ j : ℕ, j ≤ inp.niter.toNat ∧ ((k = some (j : ℤ) ∧ 1 ≤ j) ∨ (k = none ∧ j = inp.niter.toNat)) ∧
    Rep S (fun s => atStart I pts S.sol B inp m (.data s)) (Alg.effect (exec I pts S.sol B) before m) (step^[j] (stateOf S (atStart I pts S.sol B inp m)))

section
variable {S : Setup D n} {t : Temporal} {cs : List (Call D)} {I : Interp D} {pts : Ranges.Kernel D → List (P D)} {inp : Alg.Input (Call D)} {prg : List (Alg.Node (Call D))}

theorem program_follows (hP : Assembled S t cs inp prg) (hio : ∀ o ∈ inp.ios, o.write = true → .before ∉ o.places) (B : Sol D n → Sol D n) (m : Mem D) (step : TState D n → TState D n)
    (hcore : ∀ i m' s, Rep S (fun s => atStart I pts S.sol B inp m (.data s)) m' s →
      Rep S (fun s => atStart I pts S.sol B inp m (.data s)) (Alg.effect (exec I pts S.sol B) (Alg.calls [.bc] (Alg.inStep i) ++ Alg.calls ((S.startKernels t).map .comp) (Alg.inStep i) ++
        ((List.range inp.stages.toNat).flatMap fun st => Alg.calls cs (Alg.inStage i st) ++ Alg.calls ((S.advanceKernels t).map .comp) (Alg.inStage i st) ++ Alg.calls [.bc] (Alg.inStage i st))) m') (step s)) :
    Follows S I pts B inp prg m step := by
  have hrun := program_events hP
  set m1 := atStart I pts S.sol B inp m with hm1
  have h0 : Rep S (fun s => m1 (.data s)) m1 (stateOf S m1) := ⟨fun _ => rfl, fun _ => rfl, fun _ _ _ => rfl⟩
  have hnone : (Alg.writesAt inp.ios .before : List (Alg.Event (Call D))) = [] := by
    simp only [Alg.writesAt, List.flatMap_eq_nil_iff]
    intro o ho q hq
    rw [if_neg]
    rintro ⟨rfl, hw⟩
    exact hio o ho hw hq
  rw [hnone, List.append_nil] at hrun
  have hbefore : ∀ evs, Alg.effect (exec I pts S.sol B) (Alg.calls (Alg.placedAt (Alg.sortByOrder (Alg.others inp.items)) .before) Alg.outside ++ evs) m =
      Alg.effect (exec I pts S.sol B) evs m1 := fun evs => by rw [Alg.effect_append]; rfl
  set core : ℕ → List (Alg.Event (Call D)) := fun i => Alg.calls [.bc] (Alg.inStep i) ++ Alg.calls ((S.startKernels t).map .comp) (Alg.inStep i) ++
        ((List.range inp.stages.toNat).flatMap fun st => Alg.calls cs (Alg.inStage i st) ++ Alg.calls ((S.advanceKernels t).map .comp) (Alg.inStage i st) ++ Alg.calls [.bc] (Alg.inStage i st)) with hcoredef
  set tail : ℕ → List (Alg.Event (Call D)) := fun i => Alg.monitorRuns inp.monitorFrequency i ++ Alg.periodicWrites inp.ios i with htaildef
  have htail : ∀ i, ∀ v ∈ tail i, ∀ k e, v ≠ .call k e := fun i => idle_tail _ _ i
  have hsteps := fun k => program_steps (S := S) (I := I) (pts := pts) (B := B) core tail step hcore htail k h0
  have hlast := hsteps inp.niter.toNat
  refine ⟨?_, fun before after o k e hsplit => ?_⟩
  · rw [hrun, List.append_assoc, hbefore, Alg.effect_append, effect_idle (S := S) _ (idle_writesAt _ _)]
    exact hlast
  · rw [hrun, List.append_assoc] at hsplit
    rcases split_append hsplit with ⟨b', hb⟩ | ⟨a', ha, hb⟩
    · exfalso
      have hmem : (.write o k e : Alg.Event (Call D)) ∈ Alg.calls (Alg.placedAt (Alg.sortByOrder (Alg.others inp.items)) .before) Alg.outside := by rw [hb]; simp
      simp [Alg.calls] at hmem
    · rcases split_append hb with ⟨b', hb⟩ | ⟨a'', ha'', hb⟩
      · obtain ⟨i, a1, b1, hi, hf, ha1⟩ := split_flatMap _ _ hb
        rcases split_append hf with ⟨b2, hb2⟩ | ⟨a2, ha2, hb2⟩
        · exfalso
          have hmem : (.write o k e : Alg.Event (Call D)) ∈ core i := by
            have : core i = a1 ++ .write o k e :: b2 := hb2
            rw [this]; simp
          simp [hcoredef, Alg.calls] at hmem
        · have htl : tail i = a2 ++ .write o k e :: b1 := hb2
          have hidle : ∀ v ∈ a2, ∀ k e, v ≠ .call k e := fun v hv => htail i v (by rw [htl]; exact List.mem_append_left _ hv)
          have hk : k = some ((i : ℤ) + 1) := by
            have hmem : (.write o k e : Alg.Event (Call D)) ∈ tail i := by rw [htl]; simp
            rcases List.mem_append.1 hmem with h | h
            · cases hfq : inp.monitorFrequency with
              | none => rw [hfq] at h; simp [Alg.monitorRuns] at h
              | some f =>
                rw [hfq] at h
                simp only [Alg.monitorRuns] at h
                split at h <;> simp at h
            · simp only [Alg.periodicWrites, List.mem_flatMap] at h
              obtain ⟨o', _, q, _, h⟩ := h
              cases q <;> simp only [List.not_mem_nil] at h
              split at h
              · simp only [List.mem_singleton, Alg.Event.write.injEq] at h
                exact h.2.1
              · simp at h
          refine ⟨i + 1, by omega, .inl ⟨by rw [hk]; push_cast; rfl, by omega⟩, ?_⟩
          rw [ha, hbefore, ha1, ha2]
          have hcollect : (List.range i).flatMap (fun i => core i ++ tail i) ++ (core i ++ a2) = ((List.range i).flatMap (fun i => core i ++ tail i) ++ core i) ++ a2 := by simp
          rw [hcollect, Alg.effect_append, effect_idle (S := S) a2 hidle, Alg.effect_append, Function.iterate_succ_apply']
          exact hcore i _ _ (hsteps i)
      · have hmem : (.write o k e : Alg.Event (Call D)) ∈ (Alg.writesAt inp.ios .after : List (Alg.Event (Call D))) := by rw [hb]; simp
        have hk : k = none := by
          simp only [Alg.writesAt, List.mem_flatMap] at hmem
          obtain ⟨o', _, q, _, h⟩ := hmem
          split at h
          · simp only [List.mem_singleton, Alg.Event.write.injEq] at h
            exact h.2.1
          · simp at h
        have hidle : ∀ v ∈ a'', ∀ k e, v ≠ .call k e := fun v hv => idle_writesAt inp.ios .after v (by rw [hb]; exact List.mem_append_left _ hv)
        refine ⟨inp.niter.toNat, le_rfl, .inr ⟨hk, rfl⟩, ?_⟩
        rw [ha, hbefore, ha'', Alg.effect_append, effect_idle (S := S) a'' hidle]
        exact hlast

theorem follows_rk (hP : Assembled S .rk cs inp prg) (hio : ∀ o ∈ inp.ios, o.write = true → .before ∉ o.places) (hinj : Function.Injective S.sol) (hp : Enumerates pts) (hst : inp.stages = 3)
    (hnew : I.table "rknew" = [2/3, 5/12, 3/5]) (hold : I.table "rkold" = [1/4, 3/20, 3/5]) (B F : Sol D n → Sol D n) (m : Mem D)
    (hF : Evaluates S I pts B (fun s => atStart I pts S.sol B inp m (.data s)) cs F) :
    Follows S I pts B inp prg m (rkStep S.np F B (I.const "dt") [(2/3, 1/4), (5/12, 3/20), (3/5, 3/5)]) := by
  refine program_follows hP hio B m _ fun i m' s h => ?_
  rw [Alg.effect_append, Alg.effect_append]
  have h1 := rep_start hp (I := I) (B := B) (rep_bc hinj (I := I) (pts := pts) (B := B) h (Alg.inStep i)) (Alg.inStep i)
  have h2 := rep_stages (I := I) (pts := pts) (B := B) (rkStage S.np F B (I.const "dt")) _ _
    (fun z m s h => rep_stage hinj hp hF h i z) (List.range inp.stages.toNat) h1
  have hz : ((List.range inp.stages.toNat).map fun z => ((I.table "rknew").getD z 0, (I.table "rkold").getD z 0)) = [(2/3, 1/4), (5/12, 3/20), (3/5, 3/5)] := by
    rw [hst, hnew, hold]; rfl
  rw [hz] at h2
  exact h2

theorem follows_ls (hP : Assembled S .lowStorage cs inp prg) (hio : ∀ o ∈ inp.ios, o.write = true → .before ∉ o.places) (hinj : Function.Injective S.sol) (hp : Enumerates pts) (A C : List ℝ)
    (hAC : A.length = C.length) (hst : inp.stages = A.length) (hA : I.table "rkA" = A) (hC : I.table "rkB" = C) (B F : Sol D n → Sol D n) (m : Mem D)
    (hF : Evaluates S I pts B (fun s => atStart I pts S.sol B inp m (.data s)) cs F) : Follows S I pts B inp prg m (lsStep S.np F B (I.const "dt") (A.zip C)) := by
  refine program_follows hP hio B m _ fun i m' s h => ?_
  rw [Alg.effect_append, Alg.effect_append]
  have h1 := rep_bc hinj (I := I) (pts := pts) (B := B) h (Alg.inStep i)
  have h2 := rep_stages (I := I) (pts := pts) (B := B) (lsStage S.np F B (I.const "dt")) _ _
    (fun z m s h => rep_lsStage hinj hp hF h i z) (List.range inp.stages.toNat) h1
  have hz : ((List.range inp.stages.toNat).map fun z => ((I.table "rkA").getD z 0, (I.table "rkB").getD z 0)) = A.zip C := by
    rw [hst, hA, hC]
    exact zip_range A C hAC
  rw [hz] at h2
  exact h2

end

/-! ## Steps depend on the solution only -/

/-- What a step makes of the solution does not depend on the second register. -/
def Memoryless (step : TState D n → TState D n) : Prop := ∀ s s' : TState D n, s.q = s'.q → (step s).q = (step s').q

theorem Memoryless.iterate {step : TState D n → TState D n} (h : Memoryless step) (k : ℕ) : Memoryless step^[k] := by
  induction k with
  | zero => exact fun s s' h => h
  | succ k ih => intro s s' hs; rw [Function.iterate_succ_apply', Function.iterate_succ_apply']; exact h _ _ (ih s s' hs)

theorem onGrid_congr {np : Fin D → ℤ} {a b a' b' : Sol D n} (h : ∀ i x, Grid np x → a i x = a' i x) (hr : ∀ i x, ¬ Grid np x → b i x = b' i x) : onGrid np a b = onGrid np a' b' := by
  funext i x
  unfold onGrid
  split
  · exact h i x ‹_›
  · exact hr i x ‹_›

theorem rkStep_memoryless (np : Fin D → ℤ) (F B : Sol D n → Sol D n) (dt : ℝ) (coef : List (ℝ × ℝ)) : Memoryless (rkStep np F B dt coef) := by
  intro s s' h
  unfold rkStep
  have main : ∀ (coef : List (ℝ × ℝ)) (s s' : TState D n), s.q = s'.q → (∀ i x, Grid np x → s.aux i x = s'.aux i x) → (coef.foldl (rkStage np F B dt) s).q = (coef.foldl (rkStage np F B dt) s').q := by
    intro coef
    induction coef with
    | nil => exact fun s s' h _ => h
    | cons c coef ih =>
      intro s s' h ha
      refine ih _ _ ?_ ?_
      · simp only [rkStage, h]
        rw [onGrid_congr (a := fun i x => s.aux i x + dt * c.1 * F s'.q i x) (a' := fun i x => s'.aux i x + dt * c.1 * F s'.q i x) (fun i x hx => by rw [ha i x hx]) fun _ _ _ => rfl]
      · intro i x hx
        simp only [rkStage, onGrid, if_pos hx, h, ha i x hx]
  refine main coef _ _ (by simp only [h]) fun i x hx => ?_
  simp only [onGrid, if_pos hx, h]

theorem lsStep_memoryless (np : Fin D → ℤ) (F B : Sol D n → Sol D n) (dt : ℝ) (A C : List ℝ) (hA : A.head? = some 0) : Memoryless (lsStep np F B dt (A.zip C)) := by
  intro s s' h
  unfold lsStep
  have main : ∀ (coef : List (ℝ × ℝ)) (s s' : TState D n), s.q = s'.q → (∀ i x, Grid np x → s.aux i x = s'.aux i x) → (coef.foldl (lsStage np F B dt) s).q = (coef.foldl (lsStage np F B dt) s').q := by
    intro coef
    induction coef with
    | nil => exact fun s s' h _ => h
    | cons c coef ih =>
      intro s s' h ha
      refine ih _ _ ?_ ?_
      · simp only [lsStage, h]
        rw [onGrid_congr (a := fun i x => s'.q i x + c.2 * (c.1 * s.aux i x + dt * F s'.q i x)) (a' := fun i x => s'.q i x + c.2 * (c.1 * s'.aux i x + dt * F s'.q i x)) (fun i x hx => by rw [ha i x hx]) fun _ _ _ => rfl]
      · intro i x hx
        simp only [lsStage, onGrid, if_pos hx, h, ha i x hx]
  cases A with
  | nil => cases hA
  | cons a A =>
    simp only [List.head?_cons, Option.some.injEq] at hA
    subst hA
    cases C with
    | nil => simp only [List.zip_nil_right, List.foldl_nil, h]
    | cons c C =>
      simp only [List.zip_cons_cons, List.foldl_cons]
      refine main _ _ _ ?_ ?_
      · simp only [lsStage, h, zero_mul, zero_add]
      · intro i x hx
        simp only [lsStage, onGrid, if_pos hx, h, zero_mul, zero_add]

end OpenSBLI.Restart
