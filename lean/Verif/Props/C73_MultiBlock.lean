import Verif.Model.AlgorithmMB
import Verif.Props.C42_C44_Algorithm
import Verif.Props.C30_Interface

/-!
# C73 the program for several blocks
-/
namespace OpenSBLI.Alg
variable {K : Type}

/-! ## What the user has given -/

/-- Kernels of the simulation equations of all blocks, block by block: start, end, advance, boundary, spatial. -/
def simulations (blocks : List (BlockMB K)) : List (List K × List K × List K × List K × List K) :=
  blocks.flatMap fun b => b.schemes.flatMap fun s => s.items.filterMap fun
    | .plain (.simulation s f k b sp) => some (s, f, k, b, sp)
    | _ => none

/-- Other equation classes of all blocks. -/
def othersMB (blocks : List (BlockMB K)) : List (ℤ × List Place × List K) :=
  blocks.flatMap fun b => b.schemes.flatMap fun s => s.items.filterMap fun
    | .plain (.nonSimulation o p k) => some (o, p, k)
    | _ => none

/-- Metrics of all blocks. -/
def metricsMB (blocks : List (BlockMB K)) : List (List K × List K) :=
  blocks.flatMap fun b => b.schemes.flatMap fun s => s.items.filterMap fun
    | .metrics fd sd => some (fd, sd)
    | _ => none

/-! ## Accumulation -/

theorem foldlM_addMB (items : List (ItemMB K)) (a a' : AccMB K) (h : items.foldlM AccMB.add a = .ok a') :
    a'.acc.start = a.acc.start ++ items.flatMap (fun | .plain (.simulation s _ _ _ _) => s | _ => []) ∧
    a'.acc.finish = a.acc.finish ++ items.flatMap (fun | .plain (.simulation _ f _ _ _) => f | _ => []) ∧
    a'.acc.advance = a.acc.advance ++ items.flatMap (fun | .plain (.simulation _ _ k _ _) => k | _ => []) ∧
    a'.acc.bc = a.acc.bc ++ items.flatMap (fun | .plain (.simulation _ _ _ b _) => b | _ => []) ∧
    a'.acc.spatial = a.acc.spatial ++ items.flatMap (fun | .plain (.simulation _ _ _ _ sp) => sp | _ => []) ∧
    a'.acc.nonSim = a.acc.nonSim ++ items.filterMap (fun | .plain (.nonSimulation o p k) => some (o, p, k) | _ => none) ∧
    a'.metrics = a.metrics ++ items.filterMap (fun | .metrics fd sd => some (fd, sd) | _ => none) := by
  induction items generalizing a with
  | nil => simp only [List.foldlM_nil] at h; cases h; simp
  | cons i items ih =>
    rw [List.foldlM_cons] at h
    cases i with
    | metrics fd sd =>
      have := ih _ h
      simpa using this
    | plain i =>
      cases i with
      | simulation s f k b sp => have := ih _ h; simpa using this
      | nonSimulation o p k => have := ih _ h; simpa using this
      | constituent => have := ih _ h; simpa using this
      | other => cases h

theorem flatMap_sim {B : Type} (items : List (ItemMB K)) (g : List K × List K × List K × List K × List K → List B) :
    (items.filterMap fun | .plain (.simulation s f k b sp) => some (s, f, k, b, sp) | _ => none).flatMap g =
      items.flatMap fun | .plain (.simulation s f k b sp) => g (s, f, k, b, sp) | _ => [] := by
  induction items with
  | nil => rfl
  | cons i items ih =>
    cases i with
    | metrics fd sd => simpa using ih
    | plain i => cases i <;> simpa using ih

theorem sims_items {B : Type} (blocks : List (BlockMB K)) (g : List K × List K × List K × List K × List K → List B) :
    (simulations blocks).flatMap g = ((schemesOf blocks).flatMap SchemeMB.items).flatMap fun | .plain (.simulation s f k b sp) => g (s, f, k, b, sp) | _ => [] := by
  simp only [simulations, schemesOf, List.flatMap_assoc, flatMap_sim]

theorem filterMap_flatMap {A B C : Type} (l : List A) (f : A → List B) (g : B → Option C) : (l.flatMap f).filterMap g = l.flatMap fun x => (f x).filterMap g := by
  induction l with
  | nil => rfl
  | cons x l ih => simp [ih]

/-! ## C73 -/

theorem oneValue_head {A : Type} [DecidableEq A] (a : A) (l : List A) (h : oneValue (a :: l) = true) : ∀ b ∈ a :: l, b = a := by
  intro b hb
  rcases List.mem_cons.1 hb with rfl | hb
  · rfl
  · exact beq_iff_eq.1 (List.all_eq_true.1 h b hb)

/-- **C73, order of execution.** Whenever generation succeeds, all blocks use the same numbers of steps and stages, and the program runs: kernels placed before the simulation, by their `order`; the first metric
derivatives of all blocks, then the second ones; in every step the boundary kernels of all blocks, then the start kernels of all blocks; in every stage first the spatial kernels of all blocks, then the
advancement of all blocks, then the boundary kernels of all blocks, so no block advances before every block has its residual, and none uses boundary values of a block not yet advanced. -/
theorem C73_run (blocks : List (BlockMB K)) (prg : List (Node K)) (h : generateMB blocks = .ok prg) :
    ∃ stages niter, (∀ b ∈ blocks, ∀ s ∈ b.schemes, s.stages = stages ∧ s.niter = niter) ∧
    runProgram prg =
      calls (placedAt (sortByOrder (othersMB blocks)) .before) outside ++
      calls ((metricsMB blocks).flatMap Prod.fst) outside ++ calls ((metricsMB blocks).flatMap Prod.snd) outside ++
      writesAt (blocks.flatMap BlockMB.ios) .before ++
      ((List.range niter.toNat).flatMap fun i =>
        calls ((simulations blocks).flatMap fun x => x.2.2.2.1) (inStep i) ++ calls ((simulations blocks).flatMap fun x => x.1) (inStep i) ++
        ((List.range stages.toNat).flatMap fun st =>
          calls ((simulations blocks).flatMap fun x => x.2.2.2.2) (inStage i st) ++
          calls ((simulations blocks).flatMap fun x => x.2.2.1) (inStage i st) ++
          calls ((simulations blocks).flatMap fun x => x.2.2.2.1) (inStage i st)) ++
        calls (placedAt (sortByOrder (othersMB blocks)) (.inTheSimulation 0)) (inStep i) ++
        periodicWrites (blocks.flatMap BlockMB.ios) i ++
        calls ((simulations blocks).flatMap fun x => x.2.1) (inStep i)) ++
      calls (placedAt (sortByOrder (othersMB blocks)) .after) outside ++ writesAt (blocks.flatMap BlockMB.ios) .after := by
  unfold generateMB at h
  split at h
  · cases h
  split at h
  · cases h
  rename_i a h1
  obtain ⟨e1, e2, e3, e4, e5, e6, e7⟩ := foldlM_addMB _ _ _ h1
  split at h
  · cases h
  rename_i p h2
  have ep := addKernels_eqs _ _ _ h2
  subst ep
  simp only at h
  split at h
  · cases h
  rename_i hone
  split at h
  · cases h
  rename_i s rest hs
  cases h
  simp only [not_or, Bool.not_eq_false] at hone
  refine ⟨s.stages, s.niter, ?_, ?_⟩
  · intro b hb t ht
    have hm : t ∈ schemesOf blocks := List.mem_flatMap.2 ⟨b, hb, ht⟩
    rw [hs, List.map_cons, List.map_cons] at hone
    rw [hs] at hm
    exact ⟨oneValue_head _ _ hone.2 _ (by rw [← List.map_cons (f := SchemeMB.stages)]; exact List.mem_map_of_mem hm),
      oneValue_head _ _ hone.1 _ (by rw [← List.map_cons (f := SchemeMB.niter)]; exact List.mem_map_of_mem hm)⟩
  · have n1 : a.acc.nonSim = othersMB blocks := by
      rw [e6]; simp only [othersMB, schemesOf, List.flatMap_assoc, filterMap_flatMap, List.nil_append]
    have n2 : a.metrics = metricsMB blocks := by
      rw [e7]; simp only [metricsMB, schemesOf, List.flatMap_assoc, filterMap_flatMap, List.nil_append]
    rw [run_assemble, e1, e2, e3, e4, e5, n1, n2, sims_items, sims_items, sims_items, sims_items, sims_items]
    simp only [List.nil_append, runAll_append, runAll_kernels, List.map_append, monitorRuns, List.append_nil]
    simp only [List.append_assoc]

theorem foldlM_addMB_ok (items : List (ItemMB K)) (a : AccMB K) : (∃ a', items.foldlM AccMB.add a = .ok a') ↔ .plain .other ∉ items := by
  induction items generalizing a with
  | nil => simp only [List.foldlM_nil]; exact ⟨fun _ hi => by simp at hi, fun _ => ⟨a, rfl⟩⟩
  | cons i is ih =>
    rw [List.foldlM_cons]
    cases i with
    | metrics fd sd => exact (ih _).trans (by simp)
    | plain i =>
      cases i with
      | other =>
        refine ⟨?_, fun h => absurd (List.mem_cons_self ..) h⟩
        rintro ⟨a', h⟩; cases h
      | simulation s f k b sp => exact (ih _).trans (by simp)
      | nonSimulation o p k => exact (ih _).trans (by simp)
      | constituent => exact (ih _).trans (by simp)

theorem oneValue_iff {A : Type} [DecidableEq A] (l : List A) : oneValue l = true ↔ l ≠ [] ∧ ∃ a, ∀ b ∈ l, b = a := by
  cases l with
  | nil => simp [oneValue]
  | cons a l =>
    refine ⟨fun h => ⟨by simp, a, oneValue_head a l h⟩, ?_⟩
    rintro ⟨-, c, h⟩
    refine List.all_eq_true.2 fun b hb => beq_iff_eq.2 ?_
    rw [h b (List.mem_cons_of_mem _ hb), h a (List.mem_cons_self ..)]

theorem mem_schemesOf (blocks : List (BlockMB K)) (s : SchemeMB K) : s ∈ schemesOf blocks ↔ ∃ b ∈ blocks, s ∈ b.schemes := List.mem_flatMap

/-- **C73, when a program is generated.** Exactly if there is a temporal scheme, all blocks have schemes of the same class with the same numbers of steps and stages, every equation class is classified and none asks
for a frequency. -/
theorem C73_generation_succeeds_iff (blocks : List (BlockMB K)) :
    (∃ prg, generateMB blocks = .ok prg) ↔
      (∃ b ∈ blocks, b.schemes ≠ []) ∧ (∃ name stages niter, ∀ b ∈ blocks, ∀ s ∈ b.schemes, s.name = name ∧ s.stages = stages ∧ s.niter = niter) ∧
      ∀ b ∈ blocks, ∀ s ∈ b.schemes, .plain .other ∉ s.items ∧
        ∀ o places k, .plain (.nonSimulation o places k) ∈ s.items → ∀ f, .inTheSimulation f ∈ places → f = 0 := by
  have hmem : ∀ x : ℤ × List Place × List K, x ∈ sortByOrder (othersMB blocks) ↔ ∃ b ∈ blocks, ∃ s ∈ b.schemes, .plain (.nonSimulation x.1 x.2.1 x.2.2) ∈ s.items := by
    intro x
    rw [(C42_sorted _).1.mem_iff, othersMB]
    simp only [List.mem_flatMap, List.mem_filterMap]
    constructor
    · rintro ⟨b, hb, s, hs, i, hi, h⟩
      refine ⟨b, hb, s, hs, ?_⟩
      cases i with
      | metrics fd sd => simp at h
      | plain i =>
        cases i <;> simp only [Option.some.injEq, reduceCtorEq] at h
        subst h; exact hi
    · rintro ⟨b, hb, s, hs, h⟩; exact ⟨b, hb, s, hs, _, h, rfl⟩
  have hne : schemesOf blocks ≠ [] ↔ ∃ b ∈ blocks, b.schemes ≠ [] := by
    simp [schemesOf]
  have hone : ∀ {A : Type} [DecidableEq A] (f : SchemeMB K → A), oneValue ((schemesOf blocks).map f) = true ↔
      (∃ b ∈ blocks, b.schemes ≠ []) ∧ ∃ a, ∀ b ∈ blocks, ∀ s ∈ b.schemes, f s = a := by
    intro A _ f
    rw [oneValue_iff, ← hne]
    simp only [ne_eq, List.map_eq_nil_iff, List.mem_map, mem_schemesOf]
    refine and_congr_right fun _ => exists_congr fun a => ⟨fun h b hb s hs => h _ ⟨s, ⟨b, hb, hs⟩, rfl⟩, ?_⟩
    rintro h c ⟨s, ⟨b, hb, hs⟩, rfl⟩
    exact h b hb s hs
  have hother : .plain .other ∉ (schemesOf blocks).flatMap SchemeMB.items ↔ ∀ b ∈ blocks, ∀ s ∈ b.schemes, .plain .other ∉ s.items := by
    simp only [List.mem_flatMap, mem_schemesOf]
    exact ⟨fun h b hb s hs hi => h ⟨s, ⟨b, hb, hs⟩, hi⟩, fun h ⟨s, ⟨b, hb, hs⟩, hi⟩ => h b hb s hs hi⟩
  have hns : ∀ a : AccMB K, ((schemesOf blocks).flatMap SchemeMB.items).foldlM AccMB.add ({} : AccMB K) = .ok a → a.acc.nonSim = othersMB blocks := by
    intro a ha
    rw [(foldlM_addMB _ _ _ ha).2.2.2.2.2.1]
    simp only [othersMB, schemesOf, List.flatMap_assoc, filterMap_flatMap, List.nil_append]
  unfold generateMB
  constructor
  · rintro ⟨prg, h⟩
    split at h
    · cases h
    rename_i hname
    split at h
    · cases h
    rename_i a h1
    split at h
    · cases h
    rename_i p h2
    simp only at h
    split at h
    · cases h
    rename_i hlen
    simp only [not_or, Bool.not_eq_false] at hlen hname
    obtain ⟨hb, name, hn⟩ := (hone _).1 hname
    obtain ⟨-, niter, hi⟩ := (hone _).1 hlen.1
    obtain ⟨-, stages, hs⟩ := (hone _).1 hlen.2
    have ho := hother.1 ((foldlM_addMB_ok _ _).1 ⟨a, h1⟩)
    rw [hns a h1] at h2
    have hf := (addKernels_eqs_ok _ _).1 ⟨p, h2⟩
    exact ⟨hb, ⟨name, stages, niter, fun b hb s hs' => ⟨hn b hb s hs', hs b hb s hs', hi b hb s hs'⟩⟩,
      fun b hb s hs => ⟨ho b hb s hs, fun o pl k hk => hf (o, pl, k) ((hmem _).2 ⟨b, hb, s, hs, hk⟩)⟩⟩
  · rintro ⟨hb, ⟨name, stages, niter, hall⟩, hitems⟩
    obtain ⟨a, ha⟩ := (foldlM_addMB_ok _ ({} : AccMB K)).2 (hother.2 fun b hb s hs => (hitems b hb s hs).1)
    obtain ⟨p, hp⟩ := (addKernels_eqs_ok (sortByOrder (othersMB blocks)) ({} : Placed K)).2 (by
      intro x hx
      obtain ⟨b, hb, s, hs, hk⟩ := (hmem x).1 hx
      exact (hitems b hb s hs).2 _ _ _ hk)
    have n1 : oneValue ((schemesOf blocks).map SchemeMB.name) = true := (hone _).2 ⟨hb, name, fun b hb s hs => (hall b hb s hs).1⟩
    have n2 : oneValue ((schemesOf blocks).map SchemeMB.niter) = true := (hone _).2 ⟨hb, niter, fun b hb s hs => (hall b hb s hs).2.2⟩
    have n3 : oneValue ((schemesOf blocks).map SchemeMB.stages) = true := (hone _).2 ⟨hb, stages, fun b hb s hs => (hall b hb s hs).2.1⟩
    rw [n1, n2, n3, ha]
    simp only
    rw [hns a ha, hp]
    simp only [Bool.true_eq_false, or_self, if_false]
    cases hs : schemesOf blocks with
    | nil => exact absurd hs (hne.2 hb)
    | cons s rest => exact ⟨_, rfl⟩

/-- **Metrics come last.** In a single block, equation classes before the simulation are ordered by their `order` (C42). With several blocks the metrics ignore theirs: an equation class to be evaluated after the metrics
is evaluated before them, whatever its `order`; here both are in all blocks of a two-block problem. -/
theorem C73_metrics_after_equations (order : ℤ) (fd sd eq : K) :
    (generateMB [⟨[⟨"RK", 3, 0, [.metrics [fd] [sd], .plain (.nonSimulation order [.before] [eq])]⟩], []⟩,
        ⟨[⟨"RK", 3, 0, [.metrics [fd] [sd], .plain (.nonSimulation order [.before] [eq])]⟩], []⟩]).toOption.map runProgram =
      some (calls [eq, eq, fd, fd, sd, sd] outside) := by
  cases h : generateMB [⟨[⟨"RK", 3, 0, [.metrics [fd] [sd], .plain (.nonSimulation order [.before] [eq])]⟩], []⟩,
        ⟨[⟨"RK", 3, 0, [.metrics [fd] [sd], .plain (.nonSimulation order [.before] [eq])]⟩], []⟩] with
  | error e =>
    obtain ⟨prg, hp⟩ := (C73_generation_succeeds_iff (K := K) [⟨[⟨"RK", 3, 0, [.metrics [fd] [sd], .plain (.nonSimulation order [.before] [eq])]⟩], []⟩,
        ⟨[⟨"RK", 3, 0, [.metrics [fd] [sd], .plain (.nonSimulation order [.before] [eq])]⟩], []⟩]).2 (by
      simp
      rintro o _ k rfl rfl rfl f hf; simp at hf)
    rw [hp] at h; cases h
  | ok prg =>
    obtain ⟨stages, niter, hall, hrun⟩ := C73_run _ _ h
    have hn := (hall _ (List.mem_cons_self ..) _ (List.mem_cons_self ..)).2
    simp only at hn
    subst hn
    have hsort : sortByOrder [(order, [Place.before], [eq]), (order, [Place.before], [eq])] = [(order, [Place.before], [eq]), (order, [Place.before], [eq])] := by
      apply List.mergeSort_of_pairwise
      simp
    simp only [Except.toOption, Option.map_some, hrun]
    simp [othersMB, metricsMB, hsort, placedAt, calls, writesAt]

/-- Two blocks, two steps of two stages. -/
example : (generateMB [⟨[⟨"RK", 2, 1, [.plain (.simulation ["save0"] [] ["adv0"] ["bc0"] ["rhs0"]), .plain (.nonSimulation 0 [.before] ["init0"])]⟩], []⟩,
      ⟨[⟨"RK", 2, 1, [.plain (.simulation ["save1"] [] ["adv1"] ["bc1"] ["rhs1"]), .metrics ["met1"] ["met2"]]⟩], []⟩]).toOption.map (fun prg => (runProgram prg).filterMap fun
      | .call k _ => some k
      | _ => none) =
    some ["init0", "met1", "met2", "bc0", "bc1", "save0", "save1", "rhs0", "rhs1", "adv0", "adv1", "bc0", "bc1", "rhs0", "rhs1", "adv0", "adv1", "bc0", "bc1"] := by
  decide +kernel

/-- Different numbers of stages are refused. -/
example : (generateMB ([⟨[⟨"RK", 2, 1, []⟩], []⟩, ⟨[⟨"RK", 3, 1, []⟩], []⟩] : List (BlockMB String))).toOption.isSome = false := by decide +kernel

end OpenSBLI.Alg

namespace OpenSBLI.MultiBlock
variable {n : ℕ} {α : Type}

set_option linter.unusedSimpArgs false
set_option linter.unnecessarySeqFocus false

/-- A link between aligned blocks next to each other: the upper side of `src` to the lower side of `dst` when `up`, and otherwise the other way round. The match has its fourth entry. -/
def nextTo {B : ℕ} (src dst : Fin B) (direction : Fin n) (up : Bool) : Link n B := ⟨src, dst, direction, up, ⟨direction, !up, some false⟩⟩

theorem run_other {B : ℕ} (np : Fin B → Fin n → ℤ) (h : ℤ) (l : Link n B) (st : Fin B → (Fin n → ℤ) → α) (b : Fin B) (hb : b ≠ l.dst) : l.run np h st b = st b := by
  simp [Link.run, Function.update_of_ne hb]

theorem run_exchanged {B : ℕ} (np : Fin B → Fin n → ℤ) (h : ℤ) (hh : 0 ≤ h) (src dst : Fin B) (direction : Fin n) (hnp : 0 ≤ np dst direction) (up : Bool)
    (st : Fin B → (Fin n → ℤ) → α) :
    Exchanged false (np src) (np dst) h h direction up (!up) (st src) (st dst) ((nextTo src dst direction up).run np h st dst) := by
  have := aligned false (np src) (np dst) h h hh hh direction hnp up (!up) (some false) (by cases up <;> rfl) (by cases up <;> simp) (st src) (st dst)
  simpa [Link.run, nextTo] using this

/-- Point of the neighbour next to the lower (upper) side of a block corresponding to a point outside. -/
def across (npSelf npNeighbour : Fin n → ℤ) (direction : Fin n) (x : Fin n → ℤ) (upper : Bool) : Fin n → ℤ :=
  Function.update x direction (if upper then x direction - npSelf direction else x direction + npNeighbour direction)

/-- Halo point of a side within the grid in all other directions. -/
def InFace (np : Fin n → ℤ) (h : ℤ) (direction : Fin n) (side : Bool) (x : Fin n → ℤ) : Prop :=
  InHalo np h h direction side x ∧ ∀ d, d ≠ direction → 0 ≤ x d ∧ x d < np d

/-- Steps of the phase. -/
inductive Step (n B : ℕ) where
  | own (b : Fin B)
  | link (l : Link n B)

def Step.run {B : ℕ} (np : Fin B → Fin n → ℤ) (h : ℤ) (own : Fin B → ((Fin n → ℤ) → α) → (Fin n → ℤ) → α) (st : Fin B → (Fin n → ℤ) → α) : Step n B → Fin B → (Fin n → ℤ) → α
  | .own b => Function.update st b (own b (st b))
  | .link l => l.run np h st

def stepsOf {B : ℕ} (links : Fin B → List (Link n B)) (bs : List (Fin B)) : List (Step n B) := bs.flatMap fun b => .own b :: (links b).map .link

theorem phase_steps {B : ℕ} (np : Fin B → Fin n → ℤ) (h : ℤ) (own : Fin B → ((Fin n → ℤ) → α) → (Fin n → ℤ) → α) (links : Fin B → List (Link n B))
    (st : Fin B → (Fin n → ℤ) → α) : boundaryPhase np h own links st = (stepsOf links (List.finRange B)).foldl (Step.run np h own) st := by
  unfold boundaryPhase stepsOf
  generalize List.finRange B = bs
  induction bs generalizing st with
  | nil => rfl
  | cons b bs ih => rw [List.foldl_cons, ih, List.flatMap_cons, List.foldl_append, List.foldl_cons, List.foldl_map]; rfl

/-- Grid points of a block. -/
def InGrid (np : Fin n → ℤ) (x : Fin n → ℤ) : Prop := ∀ d, 0 ≤ x d ∧ x d < np d

theorem grid_kept {B : ℕ} (np : Fin B → Fin n → ℤ) (hnp : ∀ b d, 0 ≤ np b d) (h : ℤ) (hh : 0 ≤ h) (own : Fin B → ((Fin n → ℤ) → α) → (Fin n → ℤ) → α) (b : Fin B) (y : Fin n → ℤ)
    (hy : InGrid (np b) y) (steps : List (Step n B)) (hl : ∀ l, .link l ∈ steps → l = nextTo l.src l.dst l.direction l.side) (ho : .own b ∉ steps)
    (st : Fin B → (Fin n → ℤ) → α) : steps.foldl (Step.run np h own) st b y = st b y := by
  induction steps generalizing st with
  | nil => rfl
  | cons s steps ih =>
    rw [List.foldl_cons, ih (fun l hm => hl l (List.mem_cons_of_mem _ hm)) (fun hm => ho (List.mem_cons_of_mem _ hm))]
    cases s with
    | own c =>
      have : b ≠ c := fun e => ho (by rw [e]; exact List.mem_cons_self ..)
      simp [Step.run, Function.update_of_ne this]
    | link l =>
      by_cases e : b = l.dst
      · subst e
        have hx := (run_exchanged np h hh l.src l.dst l.direction (hnp _ _) l.side st).2 y (by
          rintro ⟨-, hs⟩
          have := hy l.direction
          cases hside : l.side <;> simp [hside] at hs <;> omega)
        rw [← hl l (List.mem_cons_self ..)] at hx
        exact hx
      · simp only [Step.run]; rw [run_other _ _ _ _ _ e]

theorem face_kept {B : ℕ} (np : Fin B → Fin n → ℤ) (hnp : ∀ b d, 0 ≤ np b d) (h : ℤ) (hh : 0 ≤ h) (own : Fin B → ((Fin n → ℤ) → α) → (Fin n → ℤ) → α) (b : Fin B) (dir : Fin n) (side : Bool)
    (y : Fin n → ℤ) (hy : InFace (np b) h dir side y) (hown : ∀ f, own b f y = f y) (steps : List (Step n B)) (hl : ∀ l, .link l ∈ steps → l = nextTo l.src l.dst l.direction l.side)
    (ho : ∀ l, .link l ∈ steps → ¬ (l.dst = b ∧ l.direction = dir ∧ (!l.side) = side))
    (st : Fin B → (Fin n → ℤ) → α) : steps.foldl (Step.run np h own) st b y = st b y := by
  induction steps generalizing st with
  | nil => rfl
  | cons s steps ih =>
    rw [List.foldl_cons, ih (fun l hm => hl l (List.mem_cons_of_mem _ hm)) (fun l hm => ho l (List.mem_cons_of_mem _ hm))]
    cases s with
    | own c =>
      by_cases e : b = c
      · subst e; simp [Step.run, hown]
      · simp [Step.run, Function.update_of_ne e]
    | link l =>
      by_cases e : b = l.dst
      · subst e
        have hx := (run_exchanged np h hh l.src l.dst l.direction (hnp _ _) l.side st).2 y (by
          rintro ⟨-, hs⟩
          have h0 := ho l (List.mem_cons_self ..)
          by_cases ed : l.direction = dir
          · have h1 := hy.1.2
            have h2 := hnp l.dst dir
            subst ed
            cases hside : l.side <;> cases side <;> simp [hside] at hs h0 h1 <;> omega
          · have := hy.2 _ ed
            cases hside : l.side <;> simp [hside] at hs <;> omega)
        rw [← hl l (List.mem_cons_self ..)] at hx
        exact hx
      · simp only [Step.run]; rw [run_other _ _ _ _ _ e]

/-- **C73, interfaces.** Any number of blocks of any sizes in any arrangement in which neighbouring faces have the same points, with interfaces between opposite sides in one direction (fourth entry of the match given) and
every face filled by at most one interface; the conditions of a block itself may do anything to its arrays except to change the faces an interface fills. After the boundary kernels of all blocks have run, every halo point of
every interface holds the value its neighbour finally has there. Missing: points in the halos of two directions at once, for which the claim is false (`C73_corner_stale`), and other interfaces (C30). -/
theorem C73_interfaces_partial {B : ℕ} (np : Fin B → Fin n → ℤ) (hnp : ∀ b d, 0 ≤ np b d) (h : ℤ) (hh : 0 ≤ h) (own : Fin B → ((Fin n → ℤ) → α) → (Fin n → ℤ) → α)
    (links : Fin B → List (Link n B)) (hl : ∀ b, ∀ l ∈ links b, l = nextTo b l.dst l.direction l.side)
    (hsize : ∀ b, ∀ l ∈ links b, h ≤ np b l.direction ∧ ∀ d, d ≠ l.direction → np b d = np l.dst d)
    (hone : (((List.finRange B).flatMap links).map fun l => (l.dst, l.direction, l.side)).Nodup)
    (hown : ∀ b, ∀ l ∈ links b, ∀ x, InFace (np l.dst) h l.direction (!l.side) x → ∀ f, own l.dst f x = f x)
    (st : Fin B → (Fin n → ℤ) → α) (b : Fin B) (l : Link n B) (hm : l ∈ links b) (x : Fin n → ℤ) (hx : InFace (np l.dst) h l.direction (!l.side) x) :
    boundaryPhase np h own links st l.dst x = boundaryPhase np h own links st b (across (np l.dst) (np b) l.direction x (!l.side)) := by
  obtain ⟨pre, post, hbs⟩ := List.append_of_mem (List.mem_finRange b)
  obtain ⟨pl, ql, hls⟩ := List.append_of_mem hm
  have hpost : b ∉ post := by
    have := List.nodup_finRange B
    rw [hbs, List.nodup_append] at this
    exact (List.nodup_cons.1 this.2.1).1
  rw [phase_steps, hbs]
  have hsteps : stepsOf links (pre ++ b :: post) = (stepsOf links pre ++ .own b :: pl.map .link) ++ .link l :: (ql.map .link ++ stepsOf links post) := by
    simp [stepsOf, hls]
  rw [hsteps, List.foldl_append, List.foldl_cons]
  generalize (stepsOf links pre ++ Step.own b :: pl.map .link).foldl (Step.run np h own) st = s0
  have hrest : ∀ l', .link l' ∈ ql.map (Step.link (n := n) (B := B)) ++ stepsOf links post → l' ∈ ql ∨ ∃ c ∈ post, l' ∈ links c := by
    intro l' h'
    simpa [stepsOf] using h'
  have hform : ∀ l', .link l' ∈ ql.map (Step.link (n := n) (B := B)) ++ stepsOf links post → l' = nextTo l'.src l'.dst l'.direction l'.side := by
    intro l' h'
    have : ∃ c, l' ∈ links c := by
      rcases hrest l' h' with h1 | ⟨c, -, h1⟩
      · exact ⟨b, by rw [hls]; simp [h1]⟩
      · exact ⟨c, h1⟩
    obtain ⟨c, hc⟩ := this
    have e := hl c l' hc
    have e1 : l'.src = c := by rw [e]; rfl
    rw [e1]; exact e
  have hlform := hl b l hm
  have hlsrc : l.src = b := by rw [hlform]; rfl
  rw [face_kept np hnp h hh own l.dst l.direction (!l.side) x hx (hown b l hm x hx) _ hform, grid_kept np hnp h hh own b _ ?_ _ hform]
  · have hex := run_exchanged np h hh b l.dst l.direction (hnp _ _) l.side s0
    rw [← hlform] at hex
    have e1 := hex.1 x hx.1
    simp only [Step.run]
    rw [e1]
    have hac : Function.update x l.direction (inside false (np b l.direction) l.side (layer (np l.dst l.direction) (!l.side) (x l.direction))) =
        across (np l.dst) (np b) l.direction x (!l.side) := by
      unfold across inside layer
      congr 1
      cases l.side <;> simp <;> omega
    rw [hac]
    by_cases e : b = l.dst
    · rw [← e]
      symm
      have := hex.2 (across (np l.dst) (np b) l.direction x (!l.side)) (by
        rintro ⟨-, hs⟩
        have h1 := hx.1.2
        have h2 := hx.1.1 l.direction
        have h3 := (hsize b l hm).1
        rw [← e] at hs h1 h2
        cases hside : l.side <;> simp [hside, across] at hs h1 <;> omega)
      rw [← e] at this
      exact this
    · rw [run_other _ _ _ _ _ e]
  · rintro (h1)
    rcases List.mem_append.1 h1 with h1 | h1
    · simp at h1
    · simp [stepsOf, hpost] at h1
  · intro d
    have h1 := hx.1.2
    have h2 := hx.1.1 l.direction
    have h3 := (hsize b l hm)
    by_cases e : d = l.direction
    · subst e
      cases hside : l.side <;> simp [hside, across] at h1 ⊢ <;> omega
    · have := hx.2 d e
      rw [across, Function.update_of_ne e, h3.2 d e]
      exact this
  · intro l' h' ⟨e1, e2, e3⟩
    have e3 : l'.side = l.side := Bool.not_inj e3
    rw [hbs] at hone
    simp only [List.flatMap_append, List.flatMap_cons, hls, List.map_append, List.map_cons] at hone
    rw [List.nodup_append] at hone
    have h2 := hone.2.1
    rw [List.append_assoc, List.nodup_append] at h2
    rw [List.cons_append, List.nodup_cons] at h2
    apply h2.2.1.1
    rcases hrest l' h' with h4 | ⟨c, hc, h4⟩
    · exact List.mem_append.2 (Or.inl (List.mem_map.2 ⟨l', h4, by rw [e1, e2, e3]⟩))
    · exact List.mem_append.2 (Or.inr (List.mem_map.2 ⟨l', List.mem_flatMap.2 ⟨c, hc, h4⟩, by rw [e1, e2, e3]⟩))

/-! ## Four blocks meeting at a point -/

/-- Blocks 0 and 1 side by side, 2 and 3 above them, with the interfaces by direction and side. -/
def square : Fin 4 → List (Link 2 4) :=
  ![[nextTo 0 1 0 true, nextTo 0 2 1 true], [nextTo 1 0 0 false, nextTo 1 3 1 true], [nextTo 2 3 0 true, nextTo 2 0 1 false], [nextTo 3 2 0 false, nextTo 3 1 1 false]]

/-- The same interface at a point, spelled out. -/
theorem run_up {B : ℕ} (np : Fin B → Fin n → ℤ) (h : ℤ) (hh : 0 ≤ h) (src dst : Fin B) (direction : Fin n) (hnp : 0 ≤ np dst direction)
    (st : Fin B → (Fin n → ℤ) → α) (x : Fin n → ℤ) (hx : ∀ d, -h ≤ x d ∧ x d < np dst d + h) :
    (nextTo src dst direction true).run np h st dst x = if x direction < 0 then st src (Function.update x direction (x direction + np src direction)) else st dst x := by
  have hex := run_exchanged np h hh src dst direction hnp true st
  split
  · rename_i hs
    rw [hex.1 x ⟨hx, by simpa using hs⟩]
    congr 2
    simp [inside, layer]; omega
  · rename_i hs
    exact hex.2 x (fun hn => hs (by simpa using hn.2))

theorem run_down {B : ℕ} (np : Fin B → Fin n → ℤ) (h : ℤ) (hh : 0 ≤ h) (src dst : Fin B) (direction : Fin n) (hnp : 0 ≤ np dst direction)
    (st : Fin B → (Fin n → ℤ) → α) (x : Fin n → ℤ) (hx : ∀ d, -h ≤ x d ∧ x d < np dst d + h) :
    (nextTo src dst direction false).run np h st dst x =
      if np dst direction ≤ x direction then st src (Function.update x direction (x direction - np dst direction)) else st dst x := by
  have hex := run_exchanged np h hh src dst direction hnp false st
  split
  · rename_i hs
    rw [hex.1 x ⟨hx, by simpa using hs⟩]
    congr 2
  · rename_i hs
    exact hex.2 x (fun hn => hs (by simpa using hn.2))

theorem update0 (a b c : ℤ) : Function.update ![a, b] (0 : Fin 2) c = ![c, b] := by funext d; fin_cases d <;> rfl
theorem update1 (a b c : ℤ) : Function.update ![a, b] (1 : Fin 2) c = ![a, c] := by funext d; fin_cases d <;> rfl

theorem range2 (N0 N1 h a b : ℤ) (h0 : -h ≤ a ∧ a < N0 + h) (h1 : -h ≤ b ∧ b < N1 + h) : ∀ d, -h ≤ ![a, b] d ∧ ![a, b] d < ![N0, N1] d + h := by
  intro d; fin_cases d
  · exact h0
  · exact h1

/-- The phase as its eight exchanges. -/
theorem square_phase (np : Fin 4 → Fin 2 → ℤ) (h : ℤ) (st : Fin 4 → (Fin 2 → ℤ) → α) :
    boundaryPhase np h (fun _ f => f) square st =
      (nextTo 3 1 1 false).run np h ((nextTo 3 2 0 false).run np h ((nextTo 2 0 1 false).run np h ((nextTo 2 3 0 true).run np h
        ((nextTo 1 3 1 true).run np h ((nextTo 1 0 0 false).run np h ((nextTo 0 2 1 true).run np h ((nextTo 0 1 0 true).run np h st))))))) := by
  have hr : List.finRange 4 = [0, 1, 2, 3] := by decide +kernel
  simp only [boundaryPhase, hr, List.foldl_cons, List.foldl_nil, Function.update_eq_self]
  rfl

/-- **The corner is stale.** Four equal blocks meeting at a point. After the boundary kernels of all blocks, the upper right corner of the halo of block 0 holds what the right halo of block 2 held *before*: block 2 sends it
on before it has received it from block 3. -/
theorem C73_corner_stale (N0 N1 h : ℤ) (hh : 1 ≤ h) (h0 : h ≤ N0) (h1 : h ≤ N1) (st : Fin 4 → (Fin 2 → ℤ) → α) (i j : ℤ) (hi : 0 ≤ i ∧ i < h) (hj : 0 ≤ j ∧ j < h) :
    boundaryPhase (fun _ => ![N0, N1]) h (fun _ f => f) square st 0 ![N0 + i, N1 + j] = st 2 ![N0 + i, j] := by
  rw [square_phase, run_other _ _ _ _ _ (by decide), run_other _ _ _ _ _ (by decide)]
  rw [run_down _ _ (by omega) 2 0 1 (by simp; omega) _ _ (range2 _ _ _ _ _ (by omega) (by omega))]
  simp only [update1, update0, Matrix.cons_val_one, Matrix.cons_val_zero, Matrix.cons_val_fin_one]
  rw [if_pos (by omega), run_other _ _ _ _ _ (by decide), run_other _ _ _ _ _ (by decide), run_other _ _ _ _ _ (by decide)]
  rw [run_up _ _ (by omega) 0 2 1 (by simp; omega) _ _ (range2 _ _ _ _ _ (by omega) (by omega))]
  simp only [update1, update0, Matrix.cons_val_one, Matrix.cons_val_zero, Matrix.cons_val_fin_one]
  rw [if_neg (by omega), run_other _ _ _ _ _ (by decide)]
  congr 2
  simp

/-- The corner does not depend on block 3 at all: for the values of block 3 there is a state in which it is wrong. -/
theorem C73_corner_wrong (N0 N1 h : ℤ) (hh : 1 ≤ h) (h0 : h ≤ N0) (h1 : h ≤ N1) :
    ∃ st : Fin 4 → (Fin 2 → ℤ) → ℤ, boundaryPhase (fun _ => ![N0, N1]) h (fun _ f => f) square st 0 ![N0, N1] ≠
      boundaryPhase (fun _ => ![N0, N1]) h (fun _ f => f) square st 3 ![0, 0] := by
  refine ⟨fun b _ => if b = 3 then 1 else 0, ?_⟩
  have e := C73_corner_stale N0 N1 h hh h0 h1 (fun b _ => if b = 3 then (1 : ℤ) else 0) 0 0 (by omega) (by omega)
  simp only [add_zero] at e
  rw [show (if (2 : Fin 4) = 3 then (1 : ℤ) else 0) = 0 from rfl] at e
  rw [e, square_phase, run_other _ _ _ _ _ (by decide), run_other _ _ _ _ _ (by decide), run_other _ _ _ _ _ (by decide)]
  rw [run_up _ _ (by omega) 2 3 0 (by simp; omega) _ _ (range2 _ _ _ _ _ (by omega) (by omega))]
  simp only [update1, update0, Matrix.cons_val_one, Matrix.cons_val_zero, Matrix.cons_val_fin_one]
  rw [if_neg (by omega)]
  rw [run_up _ _ (by omega) 1 3 1 (by simp; omega) _ _ (range2 _ _ _ _ _ (by omega) (by omega))]
  simp only [update1, update0, Matrix.cons_val_one, Matrix.cons_val_zero, Matrix.cons_val_fin_one]
  rw [if_neg (by omega), run_other _ _ _ _ _ (by decide), run_other _ _ _ _ _ (by decide), run_other _ _ _ _ _ (by decide)]
  decide

/-- Running the boundary kernels a second time, as happens between the last stage of a step and the next step, makes the corner right; after the other stages it stays as it is. -/
theorem C73_corner_fresh_after_two (N0 N1 h : ℤ) (hh : 1 ≤ h) (h0 : h ≤ N0) (h1 : h ≤ N1) (st : Fin 4 → (Fin 2 → ℤ) → α) (i j : ℤ) (hi : 0 ≤ i ∧ i < h) (hj : 0 ≤ j ∧ j < h) :
    boundaryPhase (fun _ => ![N0, N1]) h (fun _ f => f) square (boundaryPhase (fun _ => ![N0, N1]) h (fun _ f => f) square st) 0 ![N0 + i, N1 + j] = st 3 ![i, j] := by
  rw [C73_corner_stale N0 N1 h hh h0 h1 _ i j hi hj]
  rw [square_phase, run_other _ _ _ _ _ (by decide)]
  rw [run_down _ _ (by omega) 3 2 0 (by simp; omega) _ _ (range2 _ _ _ _ _ (by omega) (by omega))]
  simp only [update1, update0, Matrix.cons_val_one, Matrix.cons_val_zero, Matrix.cons_val_fin_one]
  rw [if_pos (by omega), run_other _ _ _ _ _ (by decide)]
  rw [run_up _ _ (by omega) 2 3 0 (by simp; omega) _ _ (range2 _ _ _ _ _ (by omega) (by omega))]
  simp only [update1, update0, Matrix.cons_val_one, Matrix.cons_val_zero, Matrix.cons_val_fin_one]
  rw [if_neg (by omega)]
  rw [run_up _ _ (by omega) 1 3 1 (by simp; omega) _ _ (range2 _ _ _ _ _ (by omega) (by omega))]
  simp only [update1, update0, Matrix.cons_val_one, Matrix.cons_val_zero, Matrix.cons_val_fin_one]
  rw [if_neg (by omega), run_other _ _ _ _ _ (by decide), run_other _ _ _ _ _ (by decide), run_other _ _ _ _ _ (by decide)]
  congr 2
  simp

/-- The hypotheses of `C73_interfaces_partial` hold for the four blocks: the right halo of block 0 holds the final values of block 1. -/
example (st : Fin 4 → (Fin 2 → ℤ) → α) : boundaryPhase (fun _ => ![10, 8]) 2 (fun _ f => f) square st 0 ![11, 3] = boundaryPhase (fun _ => ![10, 8]) 2 (fun _ f => f) square st 1 ![1, 3] := by
  have h := C73_interfaces_partial (fun _ => ![10, 8]) (by intro _ d; fin_cases d <;> simp) 2 (by norm_num) (fun _ f => f) square
    (by intro b; fin_cases b <;> simp [square, nextTo])
    (by
      intro b l hl
      refine ⟨?_, fun _ _ => rfl⟩
      generalize l.direction = d
      fin_cases d <;> simp)
    (by decide +kernel) (fun _ _ _ _ _ _ => rfl) st 1 (nextTo 1 0 0 false) (by simp [square]) ![11, 3] (by
      refine ⟨⟨fun d => ?_, ?_⟩, fun d hd => ?_⟩
      · fin_cases d <;> simp
      · simp [nextTo]
      · fin_cases d
        · exact absurd rfl hd
        · simp)
  simpa [across, nextTo, update0] using h

end OpenSBLI.MultiBlock
