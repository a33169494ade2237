import Verif.Model.Algorithm
import Verif.Props.C46_Names
import Mathlib.Data.List.Basic
import Mathlib.Data.List.Nodup
import Mathlib.Tactic.Common
import Mathlib.Order.Interval.Finset.Nat
import Mathlib.Data.Nat.Factorization.Basic

/-!
# C42 order of execution, C43 periodic output, C44 emitted kernels
-/
namespace OpenSBLI.Alg

variable {K : Type}

/-! ## Meaning of lists of components -/

theorem runAll_append (e : Env) (a b : List (Node K)) : runAll e (a ++ b) = runAll e a ++ runAll e b := by
  induction a with
  | nil => rfl
  | cons n a ih => simp only [List.cons_append, runAll, ih, List.append_assoc]

/-- Kernels called one after the other. -/
def calls (k : List K) (e : Env) : List (Event K) := k.map fun x => .call x e

theorem runAll_kernels (e : Env) (k : List K) : runAll e (k.map Node.kernel) = calls k e := by
  induction k with
  | nil => rfl
  | cons x k ih => simp only [List.map_cons, runAll, ih, Node.run]; rfl

theorem calls_append (a b : List K) (e : Env) : calls (a ++ b) e = calls a e ++ calls b e := by simp [calls]

/-- The C loop visits `0, ..., n-1` in order. -/
theorem cFor_eq {E : Type} (body : ℤ → List E) (n : ℕ) (x : ℤ) :
    cFor body x (x + n - 1) = (List.range n).flatMap fun i : ℕ => body (x + i) := by
  induction n generalizing x with
  | zero => rw [cFor, if_neg (by push_cast; omega)]; rfl
  | succ n ih =>
    rw [cFor, if_pos (by omega), show x + ((n + 1 : ℕ) : ℤ) - 1 = (x + 1) + n - 1 by push_cast; omega, ih]
    rw [List.range_succ_eq_map, List.flatMap_cons, List.flatMap_map]
    congr 1
    · simp
    · congr 1; funext i; congr 1; push_cast; omega

theorem cFor_zero {E : Type} (body : ℤ → List E) (n : ℤ) :
    cFor body 0 (n - 1) = (List.range n.toNat).flatMap fun i : ℕ => body i := by
  by_cases hn : 0 ≤ n
  · have := cFor_eq body n.toNat 0
    rw [Int.toNat_of_nonneg hn] at this
    simpa using this
  · rw [cFor, if_neg (by omega), Int.toNat_of_nonpos (by omega)]; rfl

/-! ## The assembly -/

/-- The equation classes other than the simulation equations, in the order of registration. -/
def others (items : List (Item K)) : List (ℤ × List Place × List K) :=
  items.filterMap fun
    | .nonSimulation o p k => some (o, p, k)
    | _ => none

def Item.isSimulation : Item K → Bool
  | .simulation .. => true
  | _ => false

theorem foldlM_noSim (items : List (Item K)) (h : ∀ i ∈ items, i.isSimulation = false) (a a' : Acc K)
    (ha : items.foldlM Acc.add a = .ok a') : a' = { a with nonSim := a.nonSim ++ others items } := by
  induction items generalizing a with
  | nil => simp only [List.foldlM_nil] at ha; cases ha; simp [others]
  | cons i is ih =>
    rw [List.foldlM_cons] at ha
    have his := fun x hx => h x (List.mem_cons_of_mem _ hx)
    cases i with
    | simulation => simpa [Item.isSimulation] using h _ (List.mem_cons_self ..)
    | nonSimulation o p k =>
      have := ih his _ ha
      rw [this]; simp [others]
    | constituent =>
      have := ih his _ ha
      rw [this]; simp [others]
    | other => cases ha

theorem foldlM_oneSim (pre post : List (Item K)) (s f k b sp : List K) (hpre : ∀ i ∈ pre, i.isSimulation = false)
    (hpost : ∀ i ∈ post, i.isSimulation = false) (a' : Acc K)
    (ha : (pre ++ .simulation s f k b sp :: post).foldlM Acc.add ({} : Acc K) = .ok a') :
    a' = { bc := b, advance := k, start := s, finish := f, spatial := sp, nonSim := others (pre ++ .simulation s f k b sp :: post) } := by
  rw [List.foldlM_append] at ha
  cases h1 : pre.foldlM Acc.add ({} : Acc K) with
  | error e => rw [h1] at ha; cases ha
  | ok a1 =>
    rw [h1] at ha
    have e1 := foldlM_noSim pre hpre _ _ h1
    have e2 := foldlM_noSim post hpost _ _ ha
    rw [e2, e1]
    simp [others, List.filterMap_append]

/-- Kernels of the given equation classes that are placed at `p`, by class and then by place. -/
def placedAt (eqs : List (ℤ × List Place × List K)) (p : Place) : List K :=
  eqs.flatMap fun x => x.2.1.flatMap fun q => if q = p then x.2.2 else []

theorem addKernels_places (k : List K) (places : List Place) (a a' : Placed K) (h : places.foldlM (Placed.addKernels k) a = .ok a') :
    a' = { before := a.before ++ (places.flatMap fun q => if q = .before then k else []).map .kernel
           inTime := a.inTime ++ (places.flatMap fun q => if q = .inTheSimulation 0 then k else []).map .kernel
           after := a.after ++ (places.flatMap fun q => if q = .after then k else []).map .kernel } := by
  induction places generalizing a with
  | nil => simp only [List.foldlM_nil] at h; cases h; simp
  | cons p ps ih =>
    rw [List.foldlM_cons] at h
    cases p with
    | before => rw [ih _ h]; simp
    | after => rw [ih _ h]; simp
    | inTheSimulation f =>
      by_cases hf : f = 0
      · subst hf
        have h' : ps.foldlM (Placed.addKernels k) { a with inTime := a.inTime ++ k.map .kernel } = .ok a' := h
        rw [ih _ h']; simp
      · simp only [Placed.addKernels, hf, ne_eq, not_false_eq_true, if_true] at h
        cases h

theorem addKernels_eqs (eqs : List (ℤ × List Place × List K)) (a a' : Placed K)
    (h : eqs.foldlM (fun p (x : ℤ × List Place × List K) => x.2.1.foldlM (Placed.addKernels x.2.2) p) a = .ok a') :
    a' = { before := a.before ++ (placedAt eqs .before).map .kernel
           inTime := a.inTime ++ (placedAt eqs (.inTheSimulation 0)).map .kernel
           after := a.after ++ (placedAt eqs .after).map .kernel } := by
  induction eqs generalizing a with
  | nil => simp only [List.foldlM_nil] at h; cases h; simp [placedAt]
  | cons x xs ih =>
    rw [List.foldlM_cons] at h
    cases h1 : x.2.1.foldlM (Placed.addKernels x.2.2) a with
    | error e => rw [h1] at h; cases h
    | ok a1 =>
      rw [h1] at h
      rw [ih _ h, addKernels_places _ _ _ _ h1]
      simp [placedAt]

/-- The output components: for each object, for each of its places. -/
def ioAt (ios : List IO) (sel : IO → Place → List (Node K)) : List (Node K) := ios.flatMap fun o => o.places.flatMap (sel o)

def selBefore (o : IO) : Place → List (Node K)
  | .before => [.io o false]
  | _ => []

def selAfter (o : IO) : Place → List (Node K)
  | .after => [.io o false]
  | _ => []

def selIn (o : IO) : Place → List (Node K)
  | .inTheSimulation f => [.cond (.every f) [.io o true]]
  | _ => []

theorem addIO_all (ios : List IO) (a : Placed K) :
    ios.foldl (fun p o => o.places.foldl (Placed.addIO o) p) a =
      { before := a.before ++ ioAt ios selBefore, inTime := a.inTime ++ ioAt ios selIn, after := a.after ++ ioAt ios selAfter } := by
  induction ios generalizing a with
  | nil => simp [ioAt]
  | cons o os ih =>
    rw [List.foldl_cons, ih]
    have : ∀ (ps : List Place) (a : Placed K), ps.foldl (Placed.addIO o) a =
        { before := a.before ++ ps.flatMap (selBefore o), inTime := a.inTime ++ ps.flatMap (selIn o), after := a.after ++ ps.flatMap (selAfter o) } := by
      intro ps
      induction ps with
      | nil => intro a; simp
      | cons p ps ih =>
        intro a
        rw [List.foldl_cons, ih]
        cases p <;> simp [Placed.addIO, selBefore, selIn, selAfter]
    rw [this]
    simp [ioAt]

/-! ## C42 -/

/-- Outside all loops. -/
def outside : Env := { iter := none, stage := none }

/-- In time step `i` (from 0), outside the stage loop. -/
def inStep (i : ℕ) : Env := { iter := some i, stage := none }

/-- In stage `s` of time step `i`. -/
def inStage (i s : ℕ) : Env := { iter := some i, stage := some s }

/-- Outputs of a program outside the time loop: one write for each place of each writing object. -/
def writesAt (ios : List IO) (p : Place) : List (Event K) :=
  ios.flatMap fun o => o.places.flatMap fun q => if q = p ∧ o.write = true then [.write o none outside] else []

/-- Periodic outputs at the end of time step `i`, i.e. when `i + 1` steps have been made. -/
def periodicWrites (ios : List IO) (i : ℕ) : List (Event K) :=
  ios.flatMap fun o => o.places.flatMap fun
    | .inTheSimulation f => if f ∣ i + 1 ∧ o.write = true then [.write o (some (i + 1)) (inStep i)] else []
    | _ => []

/-- Runs of the monitor at the end of time step `i`: the first step and then every `f` steps. -/
def monitorRuns (frequency : Option ℕ) (i : ℕ) : List (Event K) :=
  match frequency with
  | some f => if f ∣ i + 1 ∨ i = 0 then [.monitor (inStep i)] else []
  | none => []

theorem runAll_ioAt (e : Env) (ios : List IO) (sel : IO → Place → List (Node K)) :
    runAll e (ioAt ios sel) = ios.flatMap fun o => o.places.flatMap fun p => runAll e (sel o p) := by
  have hflat : ∀ {A : Type} (l : List A) (f : A → List (Node K)), runAll e (l.flatMap f) = l.flatMap fun x => runAll e (f x) := by
    intro A l f
    induction l with
    | nil => rfl
    | cons x l ih => rw [List.flatMap_cons, runAll_append, ih, List.flatMap_cons]
  rw [ioAt, hflat]
  simp only [hflat]

theorem tmod_eq_zero (i f : ℕ) : (((i : ℤ) + 1).tmod f == 0) = decide (f ∣ i + 1) := by
  rw [Bool.eq_iff_iff, beq_iff_eq, decide_eq_true_iff, ← Int.dvd_iff_tmod_eq_zero, show ((i : ℤ) + 1) = ((i + 1 : ℕ) : ℤ) by push_cast; rfl]
  exact Int.natCast_dvd_natCast

theorem run_writes (ios : List IO) (i : ℕ) :
    runAll (inStep i) (ioAt ios selIn : List (Node K)) = periodicWrites ios i := by
  rw [runAll_ioAt, periodicWrites]
  congr 1; funext o; congr 1; funext p
  cases p with
  | inTheSimulation f =>
    simp only [selIn, runAll, Node.run, List.append_nil, Cond.holds, inStep, tmod_eq_zero, decide_eq_true_eq]
    by_cases h1 : f ∣ i + 1 <;> by_cases h2 : o.write = true <;> simp [h1, h2]
  | before => rfl
  | after => rfl

theorem run_assemble (inp : Input K) (a : Acc K) (p : Placed K) :
    runProgram (assemble inp a p) =
      runAll outside p.before ++ writesAt inp.ios .before ++
      ((List.range inp.niter.toNat).flatMap fun i =>
        calls a.bc (inStep i) ++ calls a.start (inStep i) ++
        ((List.range inp.stages.toNat).flatMap fun st =>
          calls a.spatial (inStage i st) ++ calls a.advance (inStage i st) ++ calls a.bc (inStage i st)) ++
        runAll (inStep i) p.inTime ++
        monitorRuns inp.monitorFrequency i ++ periodicWrites inp.ios i ++
        calls a.finish (inStep i)) ++
      runAll outside p.after ++ writesAt inp.ios .after := by
  have hb : runAll outside (ioAt inp.ios selBefore : List (Node K)) = writesAt inp.ios .before := by
    rw [runAll_ioAt, writesAt]
    congr 1; funext o; congr 1; funext q
    cases q <;> simp [selBefore, runAll, Node.run]
  have ha : runAll outside (ioAt inp.ios selAfter : List (Node K)) = writesAt inp.ios .after := by
    rw [runAll_ioAt, writesAt]
    congr 1; funext o; congr 1; funext q
    cases q <;> simp [selAfter, runAll, Node.run]
  have hm : ∀ i : ℕ, runAll (inStep i) (monitorNodes inp.monitorFrequency : List (Node K)) = monitorRuns inp.monitorFrequency i := by
    intro i
    cases inp.monitorFrequency with
    | none => rfl
    | some f =>
      simp only [monitorNodes, monitorRuns, runAll, Node.run, List.append_nil, Cond.holds, inStep, tmod_eq_zero]
      by_cases h1 : f ∣ i + 1 <;> by_cases h2 : i = 0 <;> simp [h1, h2]
  have hloop : ∀ i : ℕ, runAll (inStep i) [(.loop .stage inp.stages ((a.spatial ++ a.advance ++ a.bc).map .kernel) : Node K)] =
      (List.range inp.stages.toNat).flatMap fun st : ℕ =>
          calls a.spatial (inStage i st) ++ calls a.advance (inStage i st) ++ calls a.bc (inStage i st) := by
    intro i
    simp only [runAll, Node.run, List.append_nil, cFor_zero, runAll_kernels, calls_append]
    rfl
  have hstep : ∀ i : ℕ, runAll (inStep i) ((a.bc ++ a.start).map Node.kernel ++
        [.loop .stage inp.stages ((a.spatial ++ a.advance ++ a.bc).map .kernel)] ++
        (p.inTime ++ monitorNodes inp.monitorFrequency ++ ioAt inp.ios selIn) ++ a.finish.map Node.kernel) =
      calls a.bc (inStep i) ++ calls a.start (inStep i) ++
        ((List.range inp.stages.toNat).flatMap fun st =>
          calls a.spatial (inStage i st) ++ calls a.advance (inStage i st) ++ calls a.bc (inStage i st)) ++
        runAll (inStep i) p.inTime ++
        monitorRuns inp.monitorFrequency i ++ periodicWrites inp.ios i ++
        calls a.finish (inStep i) := by
    intro i
    simp only [runAll_append, hloop, runAll_kernels, hm, run_writes, calls_append]
    simp only [List.append_assoc]
  have htime : ∀ body : List (Node K), runAll outside [Node.timers [Node.loop .iter inp.niter body]] =
      (List.range inp.niter.toNat).flatMap fun i : ℕ => runAll (inStep i) body := by
    intro body
    simp only [runAll, Node.run, List.append_nil, cFor_zero]
    rfl
  rw [assemble, runProgram]
  have e0 : ({ iter := none, stage := none } : Env) = outside := rfl
  rw [e0]
  simp only [addIO_all]
  rw [runAll_append, runAll_append, htime, runAll_append, runAll_append, hb, ha]
  simp only [hstep]
  simp only [List.append_assoc]

/-- C42: whenever generation succeeds for a block with one system of simulation equations, the generated program runs

* the kernels of the other equation classes placed before the simulation, ordered by their `order`;
* exactly `niter` time steps, each of which applies the boundary conditions, then the start-of-step kernels, then for every stage the spatial
  kernels, the advancement kernels and the boundary conditions, in this order, then the kernels placed in the simulation, the monitor and the
  periodic outputs, then the end-of-step kernels;
* the kernels placed after the simulation and the final outputs;

and nothing else. All numbers of steps and stages, all lists of kernels. -/
theorem C42_run_partial (inp : Input K) (prg : List (Node K)) (pre post : List (Item K)) (s f k b sp : List K)
    (hitems : inp.items = pre ++ .simulation s f k b sp :: post) (hpre : ∀ i ∈ pre, i.isSimulation = false)
    (hpost : ∀ i ∈ post, i.isSimulation = false) (h : generate inp = .ok prg) :
    runProgram prg =
      calls (placedAt (sortByOrder (others inp.items)) .before) outside ++ writesAt inp.ios .before ++
      ((List.range inp.niter.toNat).flatMap fun i =>
        calls b (inStep i) ++ calls s (inStep i) ++
        ((List.range inp.stages.toNat).flatMap fun st => calls sp (inStage i st) ++ calls k (inStage i st) ++ calls b (inStage i st)) ++
        calls (placedAt (sortByOrder (others inp.items)) (.inTheSimulation 0)) (inStep i) ++
        monitorRuns inp.monitorFrequency i ++ periodicWrites inp.ios i ++
        calls f (inStep i)) ++
      calls (placedAt (sortByOrder (others inp.items)) .after) outside ++ writesAt inp.ios .after := by
  unfold generate at h
  split at h
  · cases h
  split at h
  · cases h
  rename_i a h1
  rw [hitems] at h1
  have ea := foldlM_oneSim pre post s f k b sp hpre hpost a h1
  rw [← hitems] at ea
  subst ea
  split at h
  · cases h
  rename_i p h2
  split at h
  · cases h
  have ep := addKernels_eqs _ _ _ h2
  subst ep
  cases h
  rw [run_assemble]
  simp only [runAll_kernels, List.nil_append]

/-- C42: the equation classes are used in the order of their `order` attribute, none lost or repeated. -/
theorem C42_sorted (l : List (ℤ × List Place × List K)) :
    (sortByOrder l).Perm l ∧ (sortByOrder l).Pairwise fun a b => a.1 ≤ b.1 := by
  refine ⟨List.mergeSort_perm _ _, ?_⟩
  have := List.pairwise_mergeSort (le := fun a b : ℤ × List Place × List K => decide (a.1 ≤ b.1))
    (by intro a b c; simp only [decide_eq_true_eq]; omega) (by intro a b; simp only [Bool.or_eq_true, decide_eq_true_eq]; omega) l
  rw [sortByOrder]
  simpa only [decide_eq_true_eq] using this

/-- C42: equation classes of the same `order` keep their order of registration. -/
theorem C42_sort_stable (l : List (ℤ × List Place × List K)) (a b : ℤ × List Place × List K) (h : [a, b].Sublist l) (hab : a.1 ≤ b.1) :
    [a, b].Sublist (sortByOrder l) :=
  List.pair_sublist_mergeSort (by intro a b c; simp only [decide_eq_true_eq]; omega)
    (by intro a b; simp only [Bool.or_eq_true, decide_eq_true_eq]; omega) (by simpa using hab) h

theorem foldlM_add_ok (items : List (Item K)) (a : Acc K) :
    (∃ a', items.foldlM Acc.add a = .ok a') ↔ ∀ i ∈ items, i ≠ .other := by
  induction items generalizing a with
  | nil => simp only [List.foldlM_nil]; exact ⟨fun _ i hi => by simp at hi, fun _ => ⟨a, rfl⟩⟩
  | cons i is ih =>
    rw [List.foldlM_cons]
    cases i with
    | other =>
      refine ⟨?_, fun h => absurd rfl (h .other (List.mem_cons_self ..))⟩
      rintro ⟨a', h⟩; cases h
    | simulation s f k b sp => exact (ih _).trans (by simp)
    | nonSimulation o p k => exact (ih _).trans (by simp)
    | constituent => exact (ih _).trans (by simp)

theorem foldlM_add_nonSim (items : List (Item K)) (a a' : Acc K) (h : items.foldlM Acc.add a = .ok a') :
    a'.nonSim = a.nonSim ++ others items := by
  induction items generalizing a with
  | nil => simp only [List.foldlM_nil] at h; cases h; simp [others]
  | cons i is ih =>
    rw [List.foldlM_cons] at h
    cases i with
    | other => cases h
    | simulation s f k b sp => have := ih _ h; rw [this]; simp [others]
    | nonSimulation o p k => have := ih _ h; rw [this]; simp [others]
    | constituent => have := ih _ h; rw [this]; simp [others]

theorem addKernels_places_ok (k : List K) (places : List Place) (a : Placed K) :
    (∃ a', places.foldlM (Placed.addKernels k) a = .ok a') ↔ ∀ f, .inTheSimulation f ∈ places → f = 0 := by
  induction places generalizing a with
  | nil => simp only [List.foldlM_nil]; exact ⟨fun _ f hf => by simp at hf, fun _ => ⟨a, rfl⟩⟩
  | cons p ps ih =>
    rw [List.foldlM_cons]
    cases p with
    | before => exact (ih _).trans (by simp)
    | after => exact (ih _).trans (by simp)
    | inTheSimulation f =>
      by_cases hf : f = 0
      · subst hf
        refine Iff.trans (b := ∃ a', ps.foldlM (Placed.addKernels k) { a with inTime := a.inTime ++ k.map .kernel } = .ok a') Iff.rfl ?_
        rw [ih]
        constructor
        · intro h g hg
          rcases List.mem_cons.1 hg with e | e
          · cases e; rfl
          · exact h g e
        · intro h g hg; exact h g (List.mem_cons_of_mem _ hg)
      · simp only [Placed.addKernels, hf, ne_eq, not_false_eq_true, if_true]
        refine ⟨?_, fun h => absurd (h f (List.mem_cons_self ..)) hf⟩
        rintro ⟨a', h⟩; cases h

theorem addKernels_eqs_ok (eqs : List (ℤ × List Place × List K)) (a : Placed K) :
    (∃ a', eqs.foldlM (fun p (x : ℤ × List Place × List K) => x.2.1.foldlM (Placed.addKernels x.2.2) p) a = .ok a') ↔
      ∀ x ∈ eqs, ∀ f, .inTheSimulation f ∈ x.2.1 → f = 0 := by
  induction eqs generalizing a with
  | nil => simp only [List.foldlM_nil]; exact ⟨fun _ x hx => by simp at hx, fun _ => ⟨a, rfl⟩⟩
  | cons x xs ih =>
    rw [List.foldlM_cons]
    have hx := addKernels_places_ok x.2.2 x.2.1 a
    cases h1 : x.2.1.foldlM (Placed.addKernels x.2.2) a with
    | error e =>
      have : ¬ ∀ f, .inTheSimulation f ∈ x.2.1 → f = 0 := by
        intro h
        obtain ⟨a', h'⟩ := hx.2 h
        rw [h1] at h'; cases h'
      refine ⟨?_, fun h => absurd (h x (List.mem_cons_self ..)) this⟩
      rintro ⟨a', h⟩; cases h
    | ok a1 =>
      have h0 := hx.1 ⟨a1, h1⟩
      refine (ih a1).trans ⟨fun h y hy => ?_, fun h y hy => h y (List.mem_cons_of_mem _ hy)⟩
      rcases List.mem_cons.1 hy with rfl | hy
      · exact h0
      · exact h y hy

/-- C42: exactly which blocks a program is generated for: one temporal scheme, every equation class classified, and no equation class asks to be
evaluated at a frequency. -/
theorem C42_generation_succeeds_iff (inp : Input K) :
    (∃ prg, generate inp = .ok prg) ↔
      inp.temporalSchemes = 1 ∧ (∀ i ∈ inp.items, i ≠ .other) ∧
        ∀ o places k, .nonSimulation o places k ∈ inp.items → ∀ f, .inTheSimulation f ∈ places → f = 0 := by
  have hmem : ∀ x : ℤ × List Place × List K, x ∈ sortByOrder (others inp.items) ↔ .nonSimulation x.1 x.2.1 x.2.2 ∈ inp.items := by
    intro x
    rw [(C42_sorted _).1.mem_iff, others, List.mem_filterMap]
    constructor
    · rintro ⟨i, hi, h⟩
      cases i <;> simp only [Option.some.injEq, reduceCtorEq] at h
      subst h; exact hi
    · intro h; exact ⟨_, h, rfl⟩
  have hiff : (∀ x ∈ sortByOrder (others inp.items), ∀ f, .inTheSimulation f ∈ x.2.1 → f = 0) ↔
      ∀ o places k, .nonSimulation o places k ∈ inp.items → ∀ f, .inTheSimulation f ∈ places → f = 0 := by
    constructor
    · intro h o p k hk; exact h (o, p, k) ((hmem _).2 hk)
    · intro h x hx; exact h _ _ _ ((hmem _).1 hx)
  unfold generate
  constructor
  · rintro ⟨prg, h⟩
    split at h
    · cases h
    split at h
    · cases h
    rename_i a h1
    split at h
    · cases h
    rename_i p h2
    split at h
    · cases h
    refine ⟨by omega, (foldlM_add_ok _ _).1 ⟨a, h1⟩, hiff.1 ?_⟩
    have := foldlM_add_nonSim _ _ _ h1
    rw [this] at h2
    exact (addKernels_eqs_ok _ _).1 ⟨p, h2⟩
  · rintro ⟨ht, h1, h2⟩
    obtain ⟨a, ha⟩ := (foldlM_add_ok inp.items {}).2 h1
    have e := foldlM_add_nonSim _ _ _ ha
    obtain ⟨p, hp⟩ := (addKernels_eqs_ok _ {}).2 (hiff.2 h2)
    rw [if_neg (by omega), ha]
    simp only
    rw [e]
    have hp' : List.foldlM (fun p (x : ℤ × List Place × List K) => x.2.1.foldlM (Placed.addKernels x.2.2) p) ({} : Placed K)
      (sortByOrder (({} : Acc K).nonSim ++ others inp.items)) = .ok p := hp
    rw [hp']
    simp only
    rw [if_neg (by omega)]
    exact ⟨_, rfl⟩

/-- States of the computation along a list of events, given the effect of every event. -/
def effect {S : Type} (exec : Event K → S → S) (evs : List (Event K)) (x : S) : S := evs.foldl (fun x e => exec e x) x

theorem effect_append {S : Type} (exec : Event K → S → S) (a b : List (Event K)) (x : S) :
    effect exec (a ++ b) x = effect exec b (effect exec a x) := List.foldl_append ..

theorem regroup {A : Type} (p q f bs r x y z t c1 c2 c3 c4 g u v : List A) :
    p ++ q ++ (f ++ (bs ++ (r ++ (x ++ y ++ z ++ t)) ++ c1 ++ c2 ++ c3 ++ c4 ++ g)) ++ u ++ v =
      ((p ++ q ++ f) ++ (bs ++ r)) ++ x ++ (y ++ z ++ t ++ c1 ++ c2 ++ c3 ++ c4 ++ g ++ u ++ v) := by
  simp only [List.append_assoc]

/-- C42: boundary values are up to date at every evaluation of the spatial terms. `Fresh` is any property of states which applying all boundary
kernels establishes, from any state, and which the start-of-step kernels do not destroy; no assumption is made on any other kernel, on outputs or on
the initial state. Then at every stage of every step the state in which the spatial kernels start is fresh. -/
theorem C42_boundary_values_fresh (inp : Input K) (prg : List (Node K)) (pre post : List (Item K)) (s f k b sp : List K)
    (hitems : inp.items = pre ++ .simulation s f k b sp :: post) (hpre : ∀ i ∈ pre, i.isSimulation = false)
    (hpost : ∀ i ∈ post, i.isSimulation = false) (h : generate inp = .ok prg)
    {S : Type} (exec : Event K → S → S) (Fresh : S → Prop)
    (hbc : ∀ e x, Fresh (effect exec (calls b e) x)) (hstart : ∀ e x, Fresh x → Fresh (effect exec (calls s e) x))
    (i st : ℕ) (hi : i < inp.niter.toNat) (hst : st < inp.stages.toNat) :
    ∃ before after, runProgram prg = before ++ calls sp (inStage i st) ++ after ∧ ∀ x, Fresh (effect exec before x) := by
  have hr := C42_run_partial inp prg pre post s f k b sp hitems hpre hpost h
  have hsplit : ∀ n j : ℕ, j < n → List.range n = List.range j ++ j :: (List.range (n - (j + 1))).map (fun x => (j + 1) + x) := by
    intro n j hj
    conv_lhs => rw [show n = (j + 1) + (n - (j + 1)) by omega, List.range_add, List.range_succ]
    simp
  set stg : ℕ → List (Event K) := fun st => calls sp (inStage i st) ++ calls k (inStage i st) ++ calls b (inStage i st) with hstg
  have hstages : (List.range inp.stages.toNat).flatMap stg =
      (List.range st).flatMap stg ++ (stg st ++ ((List.range (inp.stages.toNat - (st + 1))).map (fun x => (st + 1) + x)).flatMap stg) := by
    rw [hsplit _ st hst, List.flatMap_append, List.flatMap_cons]
  rw [hsplit _ i hi, List.flatMap_append, List.flatMap_cons, hstages] at hr
  have hfresh : ∀ x, Fresh (effect exec ((calls b (inStep i) ++ calls s (inStep i)) ++ (List.range st).flatMap stg) x) := by
    intro x
    cases st with
    | zero =>
      rw [List.range_zero, List.flatMap_nil, List.append_nil, effect_append]
      exact hstart _ _ (hbc _ _)
    | succ st =>
      rw [List.range_succ, List.flatMap_append, List.flatMap_cons, List.flatMap_nil, List.append_nil, effect_append, effect_append, hstg,
        effect_append]
      exact hbc _ _
  refine ⟨_, _, hr.trans (regroup ..), ?_⟩
  intro x
  rw [effect_append]
  exact hfresh _

/-- C42, negative: with two systems of simulation equations on a block the advancement kernels of both run, but the spatial and boundary kernels of
the first are lost, whatever the numbers of steps and stages. -/
theorem C42_two_systems_lose_kernels (adv1 adv2 bc1 bc2 sp1 sp2 : K) (h1 : sp1 ∉ [adv1, adv2, bc2, sp2]) (h2 : bc1 ∉ [adv1, adv2, bc2, sp2])
    (niter stages : ℤ) (hn : 1 ≤ niter) (hs : 1 ≤ stages) :
    let inp : Input K := { temporalSchemes := 1, niter := niter, stages := stages, monitorFrequency := none, ios := []
                           items := [.simulation [] [] [adv1] [bc1] [sp1], .simulation [] [] [adv2] [bc2] [sp2]] }
    ∃ prg, generate inp = .ok prg ∧
      (∃ e, .call adv1 e ∈ runProgram prg) ∧ (∀ e, .call sp1 e ∉ runProgram prg) ∧ ∀ e, .call bc1 e ∉ runProgram prg := by
  intro inp
  refine ⟨assemble inp { bc := [bc2], advance := [adv1, adv2], start := [], finish := [], spatial := [sp2], nonSim := [] } {}, ?_, ?_⟩
  · rw [generate, if_neg (by simp [inp])]
    have : sortByOrder ([] : List (ℤ × List Place × List K)) = [] := by simp [sortByOrder]
    simp only [List.foldlM_cons, List.foldlM_nil, Acc.add, bind, Except.bind, pure, inp, Except.pure, List.append_nil, List.nil_append, this]
    rfl
  rw [run_assemble]
  simp only [List.mem_cons, List.not_mem_nil, or_false, not_or] at h1 h2
  refine ⟨⟨inStage 0 0, ?_⟩, ?_, ?_⟩
  · simp only [calls, List.mem_append, List.mem_flatMap, List.mem_range, List.map_cons, List.map_nil]
    refine Or.inl (Or.inl (Or.inr ⟨0, by simp only [inp]; omega, ?_⟩))
    refine Or.inl (Or.inl (Or.inl (Or.inl (Or.inr ⟨0, by simp only [inp]; omega, ?_⟩))))
    simp
  · intro e he
    simp [calls, writesAt, periodicWrites, monitorRuns, runAll, inp, h1] at he
  · intro e he
    simp [calls, writesAt, periodicWrites, monitorRuns, runAll, inp, h2] at he

/-- Two steps of a two-stage scheme, with one equation class before the simulation and output after every second step. -/
def sample : Input String where
  temporalSchemes := 1
  items := [.nonSimulation 0 [.before] ["init"], .simulation ["save"] [] ["advance"] ["bc"] ["rhs"]]
  stages := 2
  niter := 2
  monitorFrequency := none
  ios := [.new 0 true none 2]

example : (generate sample).toOption.map (fun prg => (runProgram prg).filterMap fun
      | .call k _ => some k
      | .write _ (some m) _ => some s!"out{m}"
      | .write _ none _ => some "out"
      | .monitor _ => none) =
    some ["init", "bc", "save", "rhs", "advance", "bc", "rhs", "advance", "bc", "bc", "save", "rhs", "advance", "bc", "rhs", "advance", "bc", "out2",
      "out"] := by
  decide +kernel

/-! ## C43 -/

/-- The outputs of the object with number `id` during a run. -/
def outputsOf (id : ℕ) (evs : List (Event K)) : List (Option ℤ) :=
  evs.filterMap fun
    | .write o n _ => if o.id = id then some n else none
    | _ => none

theorem outputsOf_append (id : ℕ) (a b : List (Event K)) : outputsOf id (a ++ b) = outputsOf id a ++ outputsOf id b := by
  simp [outputsOf]

theorem outputsOf_calls (id : ℕ) (k : List K) (e : Env) : outputsOf id (calls k e) = [] := by
  simp [outputsOf, calls]

theorem outputsOf_flatMap {A : Type} (id : ℕ) (l : List A) (f : A → List (Event K)) :
    outputsOf id (l.flatMap f) = l.flatMap fun x => outputsOf id (f x) := by
  induction l with
  | nil => rfl
  | cons x l ih => rw [List.flatMap_cons, outputsOf_append, ih, List.flatMap_cons]

theorem outputsOf_monitor (id : ℕ) (f : Option ℕ) (i : ℕ) : outputsOf id (monitorRuns f i : List (Event K)) = [] := by
  cases f with
  | none => rfl
  | some f => simp only [monitorRuns]; split <;> rfl

/-- A generated program is assembled from kernels and the given outputs. -/
theorem generate_ok (inp : Input K) (prg : List (Node K)) (h : generate inp = .ok prg) :
    ∃ (a : Acc K) (kb ki ka : List K), prg = assemble inp a { before := kb.map .kernel, inTime := ki.map .kernel, after := ka.map .kernel } := by
  unfold generate at h
  split at h
  · cases h
  split at h
  · cases h
  rename_i a h1
  split at h
  · cases h
  rename_i p h2
  split at h
  · cases h
  have ep := addKernels_eqs _ _ _ h2
  subst ep
  cases h
  exact ⟨a, _, _, _, rfl⟩

theorem outputs_run (inp : Input K) (prg : List (Node K)) (h : generate inp = .ok prg) (id : ℕ) :
    outputsOf id (runProgram prg) = outputsOf id (writesAt inp.ios .before : List (Event K)) ++
      ((List.range inp.niter.toNat).flatMap fun i => outputsOf id (periodicWrites inp.ios i : List (Event K))) ++
      outputsOf id (writesAt inp.ios .after : List (Event K)) := by
  obtain ⟨a, kb, ki, ka, rfl⟩ := generate_ok inp prg h
  rw [run_assemble]
  simp only [outputsOf_append, outputsOf_flatMap, runAll_kernels, outputsOf_calls, outputsOf_monitor, List.nil_append, List.append_nil]
  have h0 : ∀ n : ℕ, (List.range n).flatMap (fun _ => ([] : List (Option ℤ))) = [] := fun n => by rw [List.flatMap_eq_nil_iff]; simp
  simp only [h0, List.nil_append]

theorem flatMap_unique {A B : Type} (l : List A) (key : A → ℕ) (hl : (l.map key).Nodup) (a : A) (ha : a ∈ l) (f : A → List B)
    (h : ∀ b ∈ l, key b ≠ key a → f b = []) : l.flatMap f = f a := by
  induction l with
  | nil => simp at ha
  | cons x l ih =>
    rw [List.map_cons, List.nodup_cons] at hl
    rw [List.flatMap_cons]
    rcases List.mem_cons.1 ha with rfl | ha'
    · have : l.flatMap f = [] := by
        rw [List.flatMap_eq_nil_iff]
        intro b hb
        exact h b (List.mem_cons_of_mem _ hb) fun e => hl.1 (e ▸ List.mem_map_of_mem hb)
      rw [this, List.append_nil]
    · rw [h x (List.mem_cons_self ..) fun e => hl.1 (e ▸ List.mem_map_of_mem ha'), List.nil_append,
        ih hl.2 ha' fun b hb => h b (List.mem_cons_of_mem _ hb)]

theorem outputsOf_writesAt (ios : List IO) (hid : (ios.map IO.id).Nodup) (o : IO) (ho : o ∈ ios) (p : Place) :
    outputsOf o.id (writesAt ios p : List (Event K)) = o.places.flatMap fun q => if q = p ∧ o.write = true then [none] else [] := by
  rw [writesAt, outputsOf_flatMap, flatMap_unique ios IO.id hid o ho]
  · rw [outputsOf_flatMap]; congr 1; funext q; split <;> simp [outputsOf]
  · intro b _ hb
    rw [outputsOf_flatMap, List.flatMap_eq_nil_iff]
    intro q _
    split <;> simp [outputsOf, hb]

theorem outputsOf_periodic (ios : List IO) (hid : (ios.map IO.id).Nodup) (o : IO) (ho : o ∈ ios) (i : ℕ) :
    outputsOf o.id (periodicWrites ios i : List (Event K)) = o.places.flatMap fun
      | .inTheSimulation f => if f ∣ i + 1 ∧ o.write = true then [some ((i : ℤ) + 1)] else []
      | _ => [] := by
  rw [periodicWrites, outputsOf_flatMap, flatMap_unique ios IO.id hid o ho]
  · rw [outputsOf_flatMap]; congr 1; funext q
    cases q with
    | inTheSimulation f => simp only; split <;> simp [outputsOf]
    | before => rfl
    | after => rfl
  · intro b _ hb
    rw [outputsOf_flatMap, List.flatMap_eq_nil_iff]
    intro q _
    cases q with
    | inTheSimulation f => simp only; split <;> simp [outputsOf, hb]
    | before => rfl
    | after => rfl

/-- C43: a writing object with `save_every = n` writes, during a run of `niter` steps, exactly the files numbered by the multiples of `n` from `n` up to
`niter`, in increasing order, and then the final file; whatever else the program does. -/
theorem C43_periodic_output (inp : Input K) (prg : List (Node K)) (h : generate inp = .ok prg) (hid : (inp.ios.map IO.id).Nodup)
    (id n : ℕ) (name : Option String) (hn : n ≠ 0) (ho : IO.new id true name n ∈ inp.ios) :
    outputsOf id (runProgram prg) = (((List.range inp.niter.toNat).map (· + 1)).filter (fun m => n ∣ m)).map (fun m : ℕ => some (m : ℤ)) ++ [none] := by
  have e := outputs_run inp prg h id
  have h1 := outputsOf_writesAt (K := K) inp.ios hid _ ho .before
  have h2 := outputsOf_writesAt (K := K) inp.ios hid _ ho .after
  have h3 := outputsOf_periodic (K := K) inp.ios hid _ ho
  simp only [IO.new] at h1 h2 h3
  rw [e, h1, h2]
  simp only [h3, hn, if_true, if_false, List.cons_append, List.nil_append, List.flatMap_cons, List.flatMap_nil, List.append_nil]
  simp only [reduceCtorEq, if_false, and_true, if_true, List.nil_append]
  congr 1
  generalize List.range inp.niter.toNat = l
  induction l with
  | nil => rfl
  | cons x l ih =>
    rw [List.flatMap_cons, ih, List.map_cons, List.filter_cons]
    by_cases hx : n ∣ x + 1 <;> simp [hx]

/-- C43: hence `niter / n` periodic files, each at a different iteration. -/
theorem C43_number_of_outputs (inp : Input K) (prg : List (Node K)) (h : generate inp = .ok prg) (hid : (inp.ios.map IO.id).Nodup)
    (id n : ℕ) (name : Option String) (hn : n ≠ 0) (ho : IO.new id true name n ∈ inp.ios) :
    (outputsOf id (runProgram prg)).length = inp.niter.toNat / n + 1 ∧ (outputsOf id (runProgram prg)).Nodup := by
  rw [C43_periodic_output inp prg h hid id n name hn ho]
  constructor
  · have hc := Nat.card_multiples inp.niter.toNat n
    rw [List.length_append, List.length_map, List.length_singleton, List.filter_map, List.length_map]
    rw [← hc]
    rfl
  · refine List.Nodup.append ?_ (by simp) ?_
    · refine List.Nodup.map (fun a b hab => by simpa using hab) (List.Nodup.filter _ (List.Nodup.map (fun a b hab => by simpa using hab) List.nodup_range))
    · intro x hx hx'
      rw [List.mem_singleton] at hx'
      subst hx'
      simp at hx

/-- Where an event happens. -/
def Event.env : Event K → Env
  | .call _ e => e
  | .write _ _ e => e
  | .monitor e => e

theorem regroup' {A : Type} (p q f bs r c1 c2 x y z c4 g u v : List A) :
    p ++ q ++ (f ++ (bs ++ r ++ c1 ++ c2 ++ (x ++ (y ++ z)) ++ c4 ++ g)) ++ u ++ v =
      (p ++ q ++ f ++ bs ++ r ++ c1 ++ c2 ++ x) ++ (y ++ (z ++ c4 ++ g ++ u ++ v)) := by
  simp only [List.append_assoc]

/-- C43: the file numbered `m` is written when exactly `m` steps have been made: before it, nothing of a later step has run; after it, no stage of the first
`m` steps runs. -/
theorem C43_saved_state (inp : Input K) (prg : List (Node K)) (h : generate inp = .ok prg)
    (o : IO) (ho : o ∈ inp.ios) (hw : o.write = true) (n : ℕ) (hn : .inTheSimulation n ∈ o.places) (i : ℕ) (hi : i < inp.niter.toNat) (hd : n ∣ i + 1) :
    ∃ pre post, runProgram prg = pre ++ .write o (some (i + 1)) (inStep i) :: post ∧
      (∀ ev ∈ pre, ev.env.iter = none ∨ ∃ j ≤ i, ev.env.iter = some (j : ℤ)) ∧
      ∀ ev ∈ post, ev.env.stage ≠ none → ∃ j > i, ev.env.iter = some (j : ℤ) := by
  obtain ⟨a, kb, ki, ka, rfl⟩ := generate_ok inp prg h
  have hr := run_assemble inp a { before := kb.map .kernel, inTime := ki.map .kernel, after := ka.map .kernel }
  have hsplit : List.range inp.niter.toNat = List.range i ++ i :: (List.range (inp.niter.toNat - (i + 1))).map (fun x => (i + 1) + x) := by
    conv_lhs => rw [show inp.niter.toNat = (i + 1) + (inp.niter.toNat - (i + 1)) by omega, List.range_add, List.range_succ]
    simp
  have hmem : Event.write o (some ((i : ℤ) + 1)) (inStep i) ∈ (periodicWrites inp.ios i : List (Event K)) := by
    rw [periodicWrites, List.mem_flatMap]
    refine ⟨o, ho, List.mem_flatMap.2 ⟨_, hn, ?_⟩⟩
    simp [hd, hw]
  obtain ⟨X, Y, hXY⟩ := List.append_of_mem hmem
  have hpw : ∀ ev ∈ (periodicWrites inp.ios i : List (Event K)), ev.env = inStep i := by
    intro ev hev
    simp only [periodicWrites, List.mem_flatMap] at hev
    obtain ⟨o', -, q, -, hq⟩ := hev
    cases q with
    | inTheSimulation f =>
      simp only at hq
      split at hq
      · rw [List.mem_singleton] at hq; rw [hq]; rfl
      · simp at hq
    | before => simp at hq
    | after => simp at hq
  have hX : ∀ ev ∈ X, ev.env = inStep i := fun ev hev => hpw ev (by rw [hXY]; simp [hev])
  have hY : ∀ ev ∈ Y, ev.env = inStep i := fun ev hev => hpw ev (by rw [hXY]; simp [hev])
  have hcalls : ∀ (k : List K) (e : Env), ∀ ev ∈ calls k e, ev.env = e := by
    intro k e ev hev
    simp only [calls, List.mem_map] at hev
    obtain ⟨x, -, rfl⟩ := hev
    rfl
  have hmon : ∀ (j : ℕ), ∀ ev ∈ (monitorRuns inp.monitorFrequency j : List (Event K)), ev.env = inStep j := by
    intro j ev hev
    cases hm : inp.monitorFrequency with
    | none => rw [hm] at hev; simp [monitorRuns] at hev
    | some f =>
      rw [hm] at hev
      simp only [monitorRuns] at hev
      split at hev
      · rw [List.mem_singleton] at hev; rw [hev]; rfl
      · simp at hev
  have hwr : ∀ p, ∀ ev ∈ (writesAt inp.ios p : List (Event K)), ev.env = outside := by
    intro p ev hev
    simp only [writesAt, List.mem_flatMap] at hev
    obtain ⟨o', -, q, -, hq⟩ := hev
    split at hq
    · rw [List.mem_singleton] at hq; rw [hq]; rfl
    · simp at hq
  have hper : ∀ j, ∀ ev ∈ (periodicWrites inp.ios j : List (Event K)), ev.env = inStep j := by
    intro j ev hev
    simp only [periodicWrites, List.mem_flatMap] at hev
    obtain ⟨o', -, q, -, hq⟩ := hev
    cases q with
    | inTheSimulation f =>
      simp only at hq
      split at hq
      · rw [List.mem_singleton] at hq; rw [hq]; rfl
      · simp at hq
    | before => simp at hq
    | after => simp at hq
  have hst : ∀ j, ∀ ev ∈ ((List.range inp.stages.toNat).flatMap fun st =>
          calls a.spatial (inStage j st) ++ calls a.advance (inStage j st) ++ calls a.bc (inStage j st)), ev.env.iter = some (j : ℤ) := by
    intro j ev hev
    simp only [List.mem_flatMap, List.mem_append] at hev
    obtain ⟨st, -, (h | h) | h⟩ := hev <;> rw [hcalls _ _ _ h] <;> rfl
  have hstep : ∀ j, ∀ ev ∈ (calls a.bc (inStep j) ++ calls a.start (inStep j) ++
        ((List.range inp.stages.toNat).flatMap fun st =>
          calls a.spatial (inStage j st) ++ calls a.advance (inStage j st) ++ calls a.bc (inStage j st)) ++
        calls ki (inStep j) ++
        monitorRuns inp.monitorFrequency j ++ periodicWrites inp.ios j ++
        calls a.finish (inStep j)), ev.env.iter = some (j : ℤ) := by
    intro j ev hev
    simp only [List.mem_append] at hev
    rcases hev with (((((h | h) | h) | h) | h) | h) | h
    · rw [hcalls _ _ _ h]; rfl
    · rw [hcalls _ _ _ h]; rfl
    · exact hst j ev h
    · rw [hcalls _ _ _ h]; rfl
    · rw [hmon _ _ h]; rfl
    · rw [hper _ _ h]; rfl
    · rw [hcalls _ _ _ h]; rfl
  simp only [runAll_kernels] at hr
  rw [hsplit, List.flatMap_append, List.flatMap_cons, hXY] at hr
  refine ⟨_, _, hr.trans (regroup' _ _ _ _ _ _ _ X [_] Y ..), ?_, ?_⟩
  · intro ev hev
    simp only [List.mem_append] at hev
    rcases hev with (((((((h | h) | h) | (h | h)) | h) | h) | h) | h)
    · left; rw [hcalls _ _ _ h]; rfl
    · left; rw [hwr _ _ h]; rfl
    · right
      rw [List.mem_flatMap] at h
      obtain ⟨j, hj, h⟩ := h
      rw [List.mem_range] at hj
      exact ⟨j, by omega, hstep j ev h⟩
    · right; exact ⟨i, le_rfl, by rw [hcalls _ _ _ h]; rfl⟩
    · right; exact ⟨i, le_rfl, by rw [hcalls _ _ _ h]; rfl⟩
    · right; exact ⟨i, le_rfl, hst i ev h⟩
    · right; exact ⟨i, le_rfl, by rw [hcalls _ _ _ h]; rfl⟩
    · right; exact ⟨i, le_rfl, by rw [hmon _ _ h]; rfl⟩
    · right; exact ⟨i, le_rfl, by rw [hX _ h]; rfl⟩
  · intro ev hev hs
    have hev : _ ∈ [] ++ _ := hev
    simp only [List.nil_append, List.mem_append] at hev
    rcases hev with ((((h | h) | h) | h) | h)
    · exact absurd (by rw [hY _ h]; rfl) hs
    · exact absurd (by rw [hcalls _ _ _ h]; rfl) hs
    · rw [List.mem_flatMap] at h
      obtain ⟨j, hj, h⟩ := h
      rw [List.mem_map] at hj
      obtain ⟨x, -, rfl⟩ := hj
      exact ⟨i + 1 + x, by omega, hstep _ ev h⟩
    · exact absurd (by rw [hcalls _ _ _ h]; rfl) hs
    · exact absurd (by rw [hwr _ _ h]; rfl) hs

/-- C43: a writing object without `save_every` writes once, at the end. -/
theorem C43_final_output_only (inp : Input K) (prg : List (Node K)) (h : generate inp = .ok prg) (hid : (inp.ios.map IO.id).Nodup)
    (id : ℕ) (name : Option String) (ho : IO.new id true name 0 ∈ inp.ios) : outputsOf id (runProgram prg) = [none] := by
  have e := outputs_run inp prg h id
  have h1 := outputsOf_writesAt (K := K) inp.ios hid _ ho .before
  have h2 := outputsOf_writesAt (K := K) inp.ios hid _ ho .after
  have h3 := outputsOf_periodic (K := K) inp.ios hid _ ho
  simp only [IO.new] at h1 h2 h3
  rw [e, h1, h2]
  simp [h3]

/-- C43: a reading object writes nothing, with or without `save_every`. -/
theorem C43_reading_writes_nothing (inp : Input K) (prg : List (Node K)) (h : generate inp = .ok prg) (hid : (inp.ios.map IO.id).Nodup)
    (id n : ℕ) (name : Option String) (ho : IO.new id false name n ∈ inp.ios) : outputsOf id (runProgram prg) = [] := by
  have e := outputs_run inp prg h id
  have h1 := outputsOf_writesAt (K := K) inp.ios hid _ ho .before
  have h2 := outputsOf_writesAt (K := K) inp.ios hid _ ho .after
  have h3 := outputsOf_periodic (K := K) inp.ios hid _ ho
  simp only [IO.new] at h1 h2 h3
  rw [e, h1, h2]
  simp [h3]

/-- C43: different numbers give different files, and none is the final file. -/
theorem C43_file_names_differ : Function.Injective fileName := by
  intro a b h
  have h := congrArg String.toList h
  cases a with
  | none =>
    cases b with
    | none => rfl
    | some m =>
      simp only [fileName, String.toList_append] at h
      have := congrArg (fun l => l[15]?) h
      simp at this
  | some n =>
    cases b with
    | none =>
      simp only [fileName, String.toList_append] at h
      have := congrArg (fun l => l[15]?) h
      simp at this
    | some m =>
      simp only [fileName, String.toList_append] at h
      have := List.append_cancel_left (List.append_cancel_right h)
      rw [Reg.padded_injective 6 (String.toList_injective this)]

theorem raises_kernels : ∀ k : List K, printAllRaises (k.map (Node.kernel (K := K))) = false
  | [] => rfl
  | _ :: ks => by simp only [List.map_cons, printAllRaises, Node.printRaises, raises_kernels ks, Bool.or_self]

theorem raises_append (a b : List (Node K)) : printAllRaises (a ++ b) = (printAllRaises a || printAllRaises b) := by
  induction a with
  | nil => rfl
  | cons n a ih => simp only [List.cons_append, printAllRaises, ih, Bool.or_assoc]

theorem raises_flatMap {A : Type} (l : List A) (f : A → List (Node K)) : printAllRaises (l.flatMap f) = l.any fun x => printAllRaises (f x) := by
  induction l with
  | nil => rfl
  | cons x l ih => rw [List.flatMap_cons, raises_append, ih, List.any_cons]

/-- C43, negative: exactly when printing the program raises: some writing object has both a user-given file name and `save_every`. -/
theorem C43_named_periodic_output_raises (inp : Input K) (prg : List (Node K)) (h : generate inp = .ok prg) :
    printAllRaises prg = true ↔ ∃ o ∈ inp.ios, o.write = true ∧ o.name.isSome ∧ ∃ f, .inTheSimulation f ∈ o.places := by
  obtain ⟨a, kb, ki, ka, rfl⟩ := generate_ok inp prg h
  have hm : printAllRaises (monitorNodes inp.monitorFrequency : List (Node K)) = false := by cases inp.monitorFrequency <;> rfl
  have hb : printAllRaises (ioAt inp.ios selBefore : List (Node K)) = false := by
    rw [ioAt, raises_flatMap, List.any_eq_false]
    intro o _
    rw [raises_flatMap, Bool.not_eq_true, List.any_eq_false]
    intro q _
    cases q <;> simp [selBefore, printAllRaises, Node.printRaises, IO.codeRaises]
  have ha : printAllRaises (ioAt inp.ios selAfter : List (Node K)) = false := by
    rw [ioAt, raises_flatMap, List.any_eq_false]
    intro o _
    rw [raises_flatMap, Bool.not_eq_true, List.any_eq_false]
    intro q _
    cases q <;> simp [selAfter, printAllRaises, Node.printRaises, IO.codeRaises]
  have hi : printAllRaises (ioAt inp.ios selIn : List (Node K)) = true ↔
      ∃ o ∈ inp.ios, o.write = true ∧ o.name.isSome ∧ ∃ f, .inTheSimulation f ∈ o.places := by
    rw [ioAt, raises_flatMap, List.any_eq_true]
    constructor
    · rintro ⟨o, ho, h⟩
      rw [raises_flatMap, List.any_eq_true] at h
      obtain ⟨q, hq, h⟩ := h
      cases q with
      | inTheSimulation f =>
        simp only [selIn, printAllRaises, Node.printRaises, IO.codeRaises, Bool.or_false, Bool.and_true, Bool.and_eq_true] at h
        exact ⟨o, ho, h.1, h.2, f, hq⟩
      | before => simp [selIn, printAllRaises] at h
      | after => simp [selIn, printAllRaises] at h
    · rintro ⟨o, ho, h1, h2, f, hf⟩
      refine ⟨o, ho, ?_⟩
      rw [raises_flatMap, List.any_eq_true]
      exact ⟨_, hf, by simp [selIn, printAllRaises, Node.printRaises, IO.codeRaises, h1, h2]⟩
  rw [← hi, assemble]
  simp only [addIO_all, raises_append, raises_kernels, printAllRaises, Node.printRaises, hm, hb, ha, Bool.or_false, Bool.false_or]

/-- C43: with at most one unnamed writing object the variables declared in the scope of `main` are distinct (objects made by the constructor). -/
theorem C43_declarations_partial (inp : Input K) (prg : List (Node K)) (h : generate inp = .ok prg)
    (hios : ∀ o ∈ inp.ios, ∃ id w name n, o = IO.new id w name n) :
    (mainDeclares prg).Nodup ↔ (inp.ios.filter fun o => o.write && o.name.isNone).length ≤ 1 := by
  obtain ⟨a, kb, ki, ka, rfl⟩ := generate_ok inp prg h
  have hk : ∀ k : List K, mainDeclares (k.map (Node.kernel (K := K))) = [] := by
    intro k; simp [mainDeclares, List.flatMap_eq_nil_iff, Node.declares]
  have hb : mainDeclares (ioAt inp.ios selBefore : List (Node K)) = [] := by
    simp only [mainDeclares, ioAt, List.flatMap_eq_nil_iff, List.mem_flatMap]
    rintro x ⟨o, ho, q, hq, hx⟩
    obtain ⟨id, w, name, n, rfl⟩ := hios o ho
    cases w with
    | true =>
      cases q with
      | before => exfalso; simp only [IO.new, if_true] at hq; split at hq <;> simp at hq
      | after => simp [selBefore] at hx
      | inTheSimulation f => simp [selBefore] at hx
    | false =>
      cases q with
      | before => simp only [selBefore, List.mem_singleton] at hx; subst hx; simp [Node.declares, IO.new]
      | after => simp [selBefore] at hx
      | inTheSimulation f => simp [selBefore] at hx
  have ha : mainDeclares (ioAt inp.ios selAfter : List (Node K)) =
      List.replicate (inp.ios.filter fun o => o.write && o.name.isNone).length "name0" := by
    revert hios
    generalize inp.ios = l
    clear hb
    intro hios
    induction l with
    | nil => rfl
    | cons o l ih =>
      rw [ioAt, List.flatMap_cons, mainDeclares, List.flatMap_append, ← mainDeclares, ← mainDeclares, ← ioAt,
        ih fun x hx => hios x (List.mem_cons_of_mem _ hx)]
      obtain ⟨id, w, name, n, rfl⟩ := hios o (List.mem_cons_self ..)
      cases w with
      | false => simp [IO.new, selAfter, mainDeclares]
      | true =>
        cases name with
        | some s =>
          by_cases hn : n = 0 <;> simp [IO.new, selAfter, mainDeclares, Node.declares, hn]
        | none =>
          by_cases hn : n = 0 <;> simp [IO.new, selAfter, mainDeclares, Node.declares, hn, List.replicate_succ]
  have happ : ∀ x y : List (Node K), mainDeclares (x ++ y) = mainDeclares x ++ mainDeclares y := by intro x y; simp [mainDeclares]
  rw [assemble]
  simp only [addIO_all, happ, hk, hb, ha, List.nil_append, List.append_nil]
  simp only [mainDeclares, List.flatMap_cons, List.flatMap_nil, List.append_nil, Node.declares]
  generalize (inp.ios.filter fun o => o.write && o.name.isNone).length = m
  match m with
  | 0 => simp
  | 1 => simp
  | m + 2 => simp [List.replicate_succ]

/-- C43, negative: two unnamed outputs declare the same variable twice in one scope, which no C compiler accepts. -/
theorem C43_two_unnamed_outputs_clash (inp : Input K) (prg : List (Node K)) (h : generate inp = .ok prg) (i j n m : ℕ)
    (hios : inp.ios = [.new i true none n, .new j true none m]) : ¬ (mainDeclares prg).Nodup := by
  rw [C43_declarations_partial inp prg h (by
    rw [hios]; intro o ho
    rcases List.mem_cons.1 ho with rfl | ho
    · exact ⟨_, _, _, _, rfl⟩
    · rw [List.mem_singleton] at ho; exact ⟨_, _, _, _, ho⟩), hios]
  simp [IO.new]

/-- Ten steps, output every three: files 3, 6, 9 and the final one. -/
example : (generate { sample with niter := 10, ios := [.new 0 true none 3] }).toOption.map (fun prg => outputsOf 0 (runProgram prg)) =
    some [some 3, some 6, some 9, none] := by decide +kernel

/-! ## C44 -/

/-- A kernel occurs in a component: it is the component or occurs in one of the components below. -/
inductive Occurs (k : K) : Node K → Prop
  | here : Occurs k (.kernel k)
  | loop {v b body n} : n ∈ body → Occurs k n → Occurs k (.loop v b body)
  | cond {c body n} : n ∈ body → Occurs k n → Occurs k (.cond c body)
  | timers {body n} : n ∈ body → Occurs k n → Occurs k (.timers body)

theorem mem_cFor {E : Type} (body : ℤ → List E) (x u : ℤ) (ev : E) (h : ev ∈ cFor body x u) : ∃ y, ev ∈ body y := by
  have key : ∀ (n : ℕ) (x : ℤ), (u + 1 - x).toNat = n → ev ∈ cFor body x u → ∃ y, ev ∈ body y := by
    intro n
    induction n with
    | zero =>
      intro x hx h
      rw [cFor, if_neg (by omega)] at h
      simp at h
    | succ n ih =>
      intro x hx h
      rw [cFor, if_pos (by omega), List.mem_append] at h
      rcases h with h | h
      · exact ⟨x, h⟩
      · exact ih (x + 1) (by omega) h
  exact key _ x rfl h

mutual
theorem run_occurs (k : K) (e' : Env) : ∀ (n : Node K) (e : Env), .call k e' ∈ n.run e → Occurs k n
  | .kernel j, e, h => by
    simp only [Node.run, List.mem_singleton] at h
    cases h; exact .here
  | .io o d, e, h => by simp only [Node.run] at h; split at h <;> simp at h
  | .monitor, e, h => by simp [Node.run] at h
  | .loop v b body, e, h => by
    simp only [Node.run] at h
    obtain ⟨y, hy⟩ := mem_cFor _ _ _ _ h
    obtain ⟨n, hn, h⟩ := runAll_occurs k e' body _ hy
    exact .loop hn h
  | .cond c body, e, h => by
    simp only [Node.run] at h
    split at h
    · obtain ⟨n, hn, h⟩ := runAll_occurs k e' body _ h
      exact .cond hn h
    · simp at h
  | .timers body, e, h => by
    simp only [Node.run] at h
    obtain ⟨n, hn, h⟩ := runAll_occurs k e' body _ h
    exact .timers hn h
theorem runAll_occurs (k : K) (e' : Env) : ∀ (l : List (Node K)) (e : Env), .call k e' ∈ runAll e l → ∃ n ∈ l, Occurs k n
  | [], e, h => by simp [runAll] at h
  | n :: l, e, h => by
    simp only [runAll, List.mem_append] at h
    rcases h with h | h
    · exact ⟨n, List.mem_cons_self .., run_occurs k e' n e h⟩
    · obtain ⟨m, hm, h⟩ := runAll_occurs k e' l e h
      exact ⟨m, List.mem_cons_of_mem _ hm, h⟩
end

variable [DecidableEq K]

mutual
theorem collect_spec (k : K) : ∀ (n : Node K) (acc : List K), k ∈ n.collect acc ↔ k ∈ acc ∨ Occurs k n
  | .kernel j, acc => by
    simp only [Node.collect]
    split
    · rename_i h
      refine ⟨Or.inl, ?_⟩
      rintro (h' | h')
      · exact h'
      · cases h'; exact h
    · rw [List.mem_append, List.mem_singleton]
      refine or_congr Iff.rfl ⟨fun e => by subst e; exact .here, fun h => by cases h; rfl⟩
  | .io _ _, acc => by simp only [Node.collect]; exact ⟨Or.inl, fun h => h.elim id fun h => by cases h⟩
  | .monitor, acc => by simp only [Node.collect]; exact ⟨Or.inl, fun h => h.elim id fun h => by cases h⟩
  | .loop v b body, acc => by
    simp only [Node.collect]
    rw [collectAll_spec k body acc]
    refine or_congr Iff.rfl ⟨fun ⟨n, hn, h⟩ => .loop hn h, fun h => by cases h with | loop hn h => exact ⟨_, hn, h⟩⟩
  | .cond c body, acc => by
    simp only [Node.collect]
    rw [collectAll_spec k body acc]
    refine or_congr Iff.rfl ⟨fun ⟨n, hn, h⟩ => .cond hn h, fun h => by cases h with | cond hn h => exact ⟨_, hn, h⟩⟩
  | .timers body, acc => by
    simp only [Node.collect]
    rw [collectAll_spec k body acc]
    refine or_congr Iff.rfl ⟨fun ⟨n, hn, h⟩ => .timers hn h, fun h => by cases h with | timers hn h => exact ⟨_, hn, h⟩⟩
theorem collectAll_spec (k : K) : ∀ (l : List (Node K)) (acc : List K), k ∈ collectAll acc l ↔ k ∈ acc ∨ ∃ n ∈ l, Occurs k n
  | [], acc => by simp [collectAll]
  | n :: l, acc => by
    simp only [collectAll]
    rw [collectAll_spec k l, collect_spec k n]
    simp only [List.mem_cons, exists_eq_or_imp]
    exact or_assoc
end

mutual
theorem collect_nodup : ∀ (n : Node K) (acc : List K), acc.Nodup → (n.collect acc).Nodup
  | .kernel j, acc, h => by
    simp only [Node.collect]
    split
    · exact h
    · rename_i hj
      exact List.Nodup.append h (by simp) (by intro x hx hx'; rw [List.mem_singleton] at hx'; exact hj (hx' ▸ hx))
  | .io _ _, acc, h => by simpa only [Node.collect] using h
  | .monitor, acc, h => by simpa only [Node.collect] using h
  | .loop v b body, acc, h => by simp only [Node.collect]; exact collectAll_nodup body acc h
  | .cond c body, acc, h => by simp only [Node.collect]; exact collectAll_nodup body acc h
  | .timers body, acc, h => by simp only [Node.collect]; exact collectAll_nodup body acc h
theorem collectAll_nodup : ∀ (l : List (Node K)) (acc : List K), acc.Nodup → (collectAll acc l).Nodup
  | [], acc, h => by simpa only [collectAll] using h
  | n :: l, acc, h => by simp only [collectAll]; exact collectAll_nodup l _ (collect_nodup n acc h)
end

theorem loopAlg_eq (prg : List (Node K)) : loopAlg prg = collectAll [] prg := by
  have : ∀ (l : List (Node K)) (acc : List K), l.foldl (fun acc c => collectAll acc [c]) acc = collectAll acc l := by
    intro l
    induction l with
    | nil => intro acc; simp [collectAll]
    | cons n l ih => intro acc; rw [List.foldl_cons, ih]; simp only [collectAll]
  exact this prg []

/-- C44: the kernels emitted are exactly those occurring anywhere in the program, at any depth, each once. -/
theorem C44_kernels_emitted_once (prg : List (Node K)) :
    (loopAlg prg).Nodup ∧ ∀ k, k ∈ loopAlg prg ↔ ∃ n ∈ prg, Occurs k n := by
  rw [loopAlg_eq]
  refine ⟨collectAll_nodup prg [] List.nodup_nil, fun k => ?_⟩
  rw [collectAll_spec]
  simp

/-- C44: every kernel called in a run has its definition emitted. -/
theorem C44_called_kernels_are_defined (prg : List (Node K)) (k : K) (e : Env) (h : .call k e ∈ runProgram prg) : k ∈ loopAlg prg :=
  ((C44_kernels_emitted_once prg).2 k).2 (runAll_occurs k e prg _ h)

/-- A kernel used before, in and after the time loop is emitted once. -/
example : (generate { sample with items := [.nonSimulation 0 [.before, .after] ["bc"], .simulation ["save"] [] ["advance"] ["bc"] ["rhs"]] }).toOption.map
    loopAlg = some ["bc", "save", "rhs", "advance"] := by decide +kernel

end OpenSBLI.Alg
