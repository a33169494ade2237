import Verif.Lemmas.MappedProgram
import Verif.Model.MetricSecond

/-! # Lemmas on the halos of the metric terms and on their derivatives -/
namespace OpenSBLI.Sim
open OpenSBLI.Metric (fdValue sdStored)

variable {D n : ℕ}

/-! ## Names -/

theorem sdName_inj (hD : D ≤ 3) {k i l k' i' l' : Fin D} (h : sdName k i l = sdName k' i' l') : k = k' ∧ i = i' ∧ l = l' := by
  have key : ∀ a b c a' b' c' : Fin 3, sdName a b c = sdName a' b' c' → a = a' ∧ b = b' ∧ c = c' := by decide +kernel
  have := key (k.castLE hD) (i.castLE hD) (l.castLE hD) (k'.castLE hD) (i'.castLE hD) (l'.castLE hD) h
  simpa [Fin.ext_iff] using this

theorem sdName_metric (hD : D ≤ 3) (k i l k' j' : Fin D) : sdName k i l ≠ metricName k' j' := by
  have key : ∀ a b c a' b' : Fin 3, sdName a b c ≠ metricName a' b' := by decide +kernel
  exact key (k.castLE hD) (i.castLE hD) (l.castLE hD) (k'.castLE hD) (j'.castLE hD)

theorem sdName_detJ (hD : D ≤ 3) (k i l : Fin D) : sdName k i l ≠ "detJ" := by
  have key : ∀ a b c : Fin 3, sdName a b c ≠ "detJ" := by decide +kernel
  exact key (k.castLE hD) (i.castLE hD) (l.castLE hD)

/-! ## Kernels which copy inside arrays -/

/-- A kernel which copies values inside arrays, from points which are copied from themselves: the order of the points does not matter. -/
theorem copy_run {I : Interp D} {pts : Ranges.Kernel D → List (P D)} (hp : Enumerates pts) (r : Ranges.Kernel D) (as : List Arr) (φ : P D → P D) (hφ : ∀ x, r.visits x → φ (φ x) = φ x) (m : Mem D) :
    let k : FnKer D := ⟨r, as.map fun a => (a, fun _ m x => m a (φ x))⟩
    (∀ a ∈ as, ∀ x, r.visits x → runFn I pts k m a x = m a (φ x)) ∧ (∀ a x, ¬ r.visits x → runFn I pts k m a x = m a x) ∧ ∀ a, a ∉ as → runFn I pts k m a = m a := by
  intro k
  -- values which agree with the old ones or with the copies
  have point : ∀ (l : List Arr) (m' : Mem D) (z : P D), (∀ a y, φ y = y → m' a y = m a y) → φ (φ z) = φ z →
      (∀ a y, ((l.map fun a => ((a, fun _ m x => m a (φ x)) : Arr × (Interp D → Mem D → P D → ℝ))).foldl (fun m q => m.set q.1 z (q.2 I m z)) m') a y = if a ∈ l ∧ y = z then m a (φ z) else m' a y) := by
    intro l
    induction l with
    | nil => intro m' z _ _ a y; simp
    | cons b l ih =>
      intro m' z hm' hz a y
      have hset : ∀ a y, φ y = y → m'.set b z (m' b (φ z)) a y = m a y := by
        intro a y hy
        by_cases h : a = b ∧ y = z
        · obtain ⟨rfl, rfl⟩ := h
          simp only [Mem.set, and_self, if_true]
          rw [hy, hm' a y hy]
        · rw [set_other _ _ _ _ _ _ h, hm' a y hy]
      rw [List.map_cons, List.foldl_cons, ih _ z hset hz a y]
      by_cases hab : a = b ∧ y = z
      · obtain ⟨rfl, rfl⟩ := hab
        simp [Mem.set, hm' a (φ y) hz]
      · rw [set_other _ _ _ _ _ _ hab]
        by_cases hy : y = z
        · have : a ≠ b := fun h => hab ⟨h, hy⟩
          simp [this]
        · simp [hy]
  have loop : ∀ (l : List (P D)) (m' : Mem D), (∀ z ∈ l, φ (φ z) = φ z) → (∀ a y, φ y = y → m' a y = m a y) →
      ∀ a y, l.foldl (fun m x => k.eqs.foldl (fun m q => m.set q.1 x (q.2 I m x)) m) m' a y = if a ∈ as ∧ y ∈ l then m a (φ y) else m' a y := by
    intro l
    induction l with
    | nil => intro m' _ _ a y; simp
    | cons z l ih =>
      intro m' hl hm' a y
      have hp := point as m' z hm' (hl z (List.mem_cons_self ..))
      rw [List.foldl_cons, ih _ (fun w hw => hl w (List.mem_cons_of_mem _ hw)) (fun a y hy => by
        rw [show k.eqs = as.map fun a => (a, fun _ m x => m a (φ x)) from rfl, hp]
        split_ifs with h
        · rw [← h.2, hy]
        · exact hm' a y hy)]
      rw [show k.eqs = as.map fun a => (a, fun _ m x => m a (φ x)) from rfl, hp]
      by_cases ha : a ∈ as <;> by_cases hy : y ∈ l <;> by_cases hz : y = z <;> simp [ha, hy, hz]
  have hall := loop (pts r) m (fun z hz => hφ z (((hp r).2 z).1 hz)) fun _ _ _ => rfl
  refine ⟨fun a ha x hx => ?_, fun a x hx => ?_, fun a ha => funext fun x => ?_⟩
  · exact (hall a x).trans (if_pos ⟨ha, ((hp r).2 x).2 hx⟩)
  · exact (hall a x).trans (if_neg fun h => hx (((hp r).2 x).1 h.2))
  · exact (hall a x).trans (if_neg fun h => ha h.1)

/-! ## Halos of the metric terms -/

/-- Values from all directions. -/
def folded (fill : Fin D → Fill) (np : Fin D → ℤ) (x : P D) : P D := fun d => (fill d).source (np d) (x d)

/-- The halos are not wider than the grid. -/
def Fits (fill : Fin D → Fill) (np : Fin D → ℤ) (h : ℤ) : Prop := ∀ d, 0 < np d ∧ (fill d = .mirror → h < np d)

theorem source_grid (f : Fill) {np i : ℤ} (hi : 0 ≤ i ∧ i < np) : f.source np i = i := by
  cases f with
  | periodic => exact Int.emod_eq_of_lt hi.1 hi.2
  | mirror => simp only [Fill.source]; rw [if_neg (by omega), if_neg (by omega)]

theorem source_mem (f : Fill) {np h i : ℤ} (hn : 0 < np) (hf : f = .mirror → h < np) (hi : -h ≤ i ∧ i < np + h) : 0 ≤ f.source np i ∧ f.source np i < np := by
  cases f with
  | periodic => exact ⟨Int.emod_nonneg _ hn.ne', Int.emod_lt_of_pos _ hn⟩
  | mirror =>
    have := hf rfl
    simp only [Fill.source]
    split_ifs <;> omega

theorem folded_grid (fill : Fin D → Fill) {np : Fin D → ℤ} {x : P D} (hx : Grid np x) : folded fill np x = x := funext fun d => source_grid (fill d) (hx d)

theorem folded_mem {fill : Fin D → Fill} {np : Fin D → ℤ} {h : ℤ} (hf : Fits fill np h) {x : P D} (hx : Box np h (List.finRange D) x) : Grid np (folded fill np x) := fun d =>
  source_mem (fill d) (hf d).1 (hf d).2 (by simpa using hx d)

section Kernels
variable {M : Metrics2 D} {I : Interp D} {pts : Ranges.Kernel D → List (P D)} {np : Fin D → ℤ} {h : ℤ}

/-- Running the boundary kernels one after another. -/
def runFills (I : Interp D) (pts : Ranges.Kernel D → List (P D)) (M : Metrics2 D) (np : Fin D → ℤ) (h : ℤ) (ds : List (Fin D)) (m : Mem D) : Mem D :=
  ds.foldl (fun m d => runFn I pts (M.fillKernel np h d) m) m

theorem sourcePoint_twice (hf : Fits M.fill np h) (d : Fin D) {x : P D} (hx : Box np h (List.finRange D) x) : sourcePoint M.fill np d (sourcePoint M.fill np d x) = sourcePoint M.fill np d x := by
  have := source_mem (M.fill d) (hf d).1 (hf d).2 (by simpa using hx d)
  simp [sourcePoint, source_grid _ this]

theorem sourcePoint_box (hh : 0 ≤ h) (hf : Fits M.fill np h) (d : Fin D) {x : P D} (hx : Box np h (List.finRange D) x) : Box np h (List.finRange D) (sourcePoint M.fill np d x) := by
  intro e
  have hm := source_mem (M.fill d) (hf d).1 (hf d).2 (by simpa using hx d)
  have := hx e
  by_cases he : e = d
  · subst he
    simp [sourcePoint] at *
    omega
  · simpa [sourcePoint, he] using this

theorem fills_run (hh : 0 ≤ h) (hp : Enumerates pts) (hf : Fits M.fill np h) (m : Mem D) :
    (∀ a ∈ M.filled, ∀ x, Box np h (List.finRange D) x → runFills I pts M np h (List.finRange D) m a x = m a (folded M.fill np x)) ∧ ∀ a, a ∉ M.filled → runFills I pts M np h (List.finRange D) m a = m a := by
  have main : ∀ (ds : List (Fin D)), ds.Nodup → ∀ m : Mem D,
      (∀ a ∈ M.filled, ∀ x, Box np h (List.finRange D) x → runFills I pts M np h ds m a x = m a (fun d => if d ∈ ds then (M.fill d).source (np d) (x d) else x d)) ∧
      ∀ a, a ∉ M.filled → runFills I pts M np h ds m a = m a := by
    intro ds
    induction ds with
    | nil => exact fun _ m => ⟨fun a _ x _ => by simp [runFills], fun _ _ => rfl⟩
    | cons d ds ih =>
      intro hnd m
      rw [List.nodup_cons] at hnd
      obtain ⟨i1, i2⟩ := ih hnd.2 (runFn I pts (M.fillKernel np h d) m)
      obtain ⟨c1, _, c3⟩ := copy_run (I := I) hp (rangeOf np h (List.finRange D)) M.filled (sourcePoint M.fill np d) (fun x hx => sourcePoint_twice hf d ((rangeOf_visits ..).1 hx)) m
      refine ⟨fun a ha x hx => ?_, fun a ha => ?_⟩
      · refine (i1 a ha x hx).trans ?_
        have hbox : Box np h (List.finRange D) fun e => if e ∈ ds then (M.fill e).source (np e) (x e) else x e := by
          intro e
          have hm := source_mem (M.fill e) (hf e).1 (hf e).2 (by simpa using hx e)
          have := hx e
          simp only [List.mem_finRange, if_true] at this ⊢
          split_ifs <;> omega
        refine (c1 a ha _ ((rangeOf_visits ..).2 hbox)).trans ?_
        congr 1
        funext e
        by_cases he : e = d
        · subst he; simp [sourcePoint, hnd.1]
        · simp [sourcePoint, he]
      · exact (i2 a ha).trans (c3 a ha)
  obtain ⟨h1, h2⟩ := main (List.finRange D) (List.nodup_finRange D) m
  exact ⟨fun a ha x hx => by rw [h1 a ha x hx]; congr 1; funext d; simp [folded], h2⟩

/-! ## Derivatives of the metric terms -/

theorem work2_inj {p q : Fin D × Fin D × Fin D} (hp : p ∈ M.sders) (he : M.work2 p = M.work2 q) : p = q :=
  (List.idxOf_inj hp).1 (by unfold Metrics2.work2 at he; omega)

theorem sdKernels_run (hM : M.sders.Nodup) (hp : Enumerates pts) (m : Mem D) :
    (∀ p ∈ M.sders, ∀ x, Grid np x → runKers I pts (M.sdKernels np h) m (.work (M.work2 p)) x = I.cd p.2.2 1 (m (.data (metricName p.1 p.2.1))) x) ∧
    ∀ s, runKers I pts (M.sdKernels np h) m (.data s) = m (.data s) := by
  have main : ∀ (l : List (Fin D × Fin D × Fin D)) (m' : Mem D), l.Nodup → (∀ p ∈ l, p ∈ M.sders) → (∀ s, m' (.data s) = m (.data s)) →
      let r := runKers I pts (l.map fun p => ⟨rangeOf np h [], [(.work (M.work2 p), .cd p.2.2 1 (.arr (.data (metricName p.1 p.2.1))))]⟩) m'
      (∀ p ∈ l, ∀ x, Grid np x → r (.work (M.work2 p)) x = I.cd p.2.2 1 (m (.data (metricName p.1 p.2.1))) x) ∧ (∀ s, r (.data s) = m (.data s)) ∧
      ∀ p ∈ M.sders, p ∉ l → r (.work (M.work2 p)) = m' (.work (M.work2 p)) := by
    intro l
    induction l with
    | nil => exact fun m' _ _ hd => ⟨fun p hp => by simp at hp, hd, fun _ _ _ => rfl⟩
    | cons p l ih =>
      intro m' hnd hin hd
      rw [List.nodup_cons] at hnd
      obtain ⟨r1, _, r3⟩ := runKer_single I hp (rangeOf np h []) (.work (M.work2 p)) (.cd p.2.2 1 (.arr (.data (metricName p.1 p.2.1)))) (by simp [Ex.arrs]) m'
      have hd' : ∀ s, runKer I pts ⟨rangeOf np h [], [(.work (M.work2 p), .cd p.2.2 1 (.arr (.data (metricName p.1 p.2.1))))]⟩ m' (.data s) = m (.data s) := fun s => by
        rw [r3 _ (by simp), hd]
      obtain ⟨i1, i2, i3⟩ := ih _ hnd.2 (fun q hq => hin q (List.mem_cons_of_mem _ hq)) hd'
      refine ⟨fun q hq x hx => ?_, i2, fun q hq hql => ?_⟩
      · rcases List.mem_cons.1 hq with rfl | hq
        · refine (congrFun (i3 q (hin q (List.mem_cons_self ..)) hnd.1) x).trans ?_
          rw [r1 x ((rangeOf_visits ..).2 ((box_nil ..).2 hx))]
          simp only [Ex.eval, hd]
        · exact i1 q hq x hx
      · rw [List.mem_cons, not_or] at hql
        refine (i3 q hq hql.2).trans (r3 _ fun he => hql.1 ?_)
        injection he with he
        exact work2_inj hq he
  obtain ⟨h1, h2, _⟩ := main M.sders m hM (fun _ h => h) fun _ => rfl
  exact ⟨h1, h2⟩

theorem sdEval_run (hD : D ≤ 3) (hM : M.sders.Nodup) (hp : Enumerates pts) (m : Mem D) :
    (∀ p ∈ M.sders, ∀ x, Grid np x → runFn I pts (M.sdEval np h) m (.data (sdName p.1 p.2.1 p.2.2)) x = m (.work (M.work2 p)) x) ∧
    ∀ s, (∀ k i l : Fin D, s ≠ sdName k i l) → runFn I pts (M.sdEval np h) m (.data s) = m (.data s) := by
  have hfst : (M.sdEval np h).eqs.map Prod.fst = M.sders.map fun p => .data (sdName p.1 p.2.1 p.2.2) := by simp [Metrics2.sdEval, Function.comp_def]
  have hnd : ((M.sdEval np h).eqs.map Prod.fst).Nodup := by
    rw [hfst]
    refine hM.map_on fun p _ q _ he => ?_
    injection he with he
    obtain ⟨a, b, c⟩ := sdName_inj hD he
    exact Prod.ext a (Prod.ext b c)
  have hread : ∀ q ∈ (M.sdEval np h).eqs, ∀ m m' : Mem D, (∀ a, a ∉ (M.sdEval np h).eqs.map Prod.fst → m a = m' a) → q.2 I m = q.2 I m' := by
    intro q hq m m' hmm
    obtain ⟨p, _, rfl⟩ := List.mem_map.1 hq
    funext x
    exact congrFun (hmm _ (by rw [hfst]; simp)) x
  obtain ⟨r1, _, r3⟩ := runFn_simul (I := I) hp (M.sdEval np h) hnd hread m
  refine ⟨fun p hpm x hx => ?_, fun s hs => r3 _ fun hin => ?_⟩
  · exact r1 (.data (sdName p.1 p.2.1 p.2.2), _) (List.mem_map.2 ⟨p, hpm, rfl⟩) x ((rangeOf_visits ..).2 ((box_nil ..).2 hx))
  · rw [hfst] at hin
    obtain ⟨p, _, he⟩ := List.mem_map.1 hin
    injection he with he
    exact hs _ _ _ he.symm

/-- A stored derivative belongs to a stored metric term. -/
theorem sdStored_stored {cur str : Fin D → Bool} {k i l : Fin D} (hs : sdStored cur str k i l = true) : fdValue cur str k i = .stored := by
  unfold sdStored at hs
  rw [Bool.and_eq_true] at hs
  unfold fdValue at *
  cases hm : Metric.m2 cur str k i with
  | zero => simp [hm] at hs
  | cart _ => rfl
  | curv _ => simp [hm] at hs

/-- What all kernels leave behind. -/
theorem metrics2_run (hD : D ≤ 3) (hM : M.Listed) (hh : 0 ≤ h) (hf : Fits M.fill np h) (hl : Local I np h) (hp : Enumerates pts) (sol : Fin n → String) (B : Sol D n → Sol D n) (m : Mem D) :
    let r := Alg.effect (exec I pts sol B) (Alg.calls (M.kernels np h) Alg.outside) m
    let J := fun x => Metric.jacobian M.cur M.str (jacobi I (fun i => m (.data (coordName M.symbol i))) x)
    (M.ders ≠ [] → ∀ x, Grid np x → r (.data "detJ") x = (J x).det) ∧
    (∀ k j x, Grid np x → metricValue M.cur M.str r k j x = Metric.fdMetric M.cur M.str (jacobi I (fun i => m (.data (coordName M.symbol i))) x) k j) ∧
    (∀ k i l, sdStored M.cur M.str k i l = true → ∀ x, Grid np x →
      r (.data (sdName k i l)) x = I.cd l 1 (fun y => Metric.fdMetric M.cur M.str (jacobi I (fun i => m (.data (coordName M.symbol i))) (folded M.fill np y)) k i) x) ∧
    ∀ s, s ≠ "detJ" → (∀ k j : Fin D, s ≠ metricName k j) → (∀ k i l : Fin D, s ≠ sdName k i l) → r (.data s) = m (.data s) := by
  intro r J
  set m1 := Alg.effect (exec I pts sol B) (Alg.calls (M.toMetrics.kernels np h) Alg.outside) m with hm1
  obtain ⟨a1, a2, a3⟩ := metrics_run (I := I) (np := np) (h := h) hD hM.first hp sol B m
  rw [← hm1] at a1 a2 a3
  set m2 := runFills I pts M np h (List.finRange D) m1 with hm2
  obtain ⟨b1, b2⟩ := fills_run (I := I) hh hp hf m1
  rw [← hm2] at b1 b2
  have hfills : ∀ ds m, Alg.effect (exec I pts sol B) (Alg.calls (ds.map fun d => Call.fn (M.fillKernel np h d)) Alg.outside) m = runFills I pts M np h ds m := by
    intro ds
    induction ds with
    | nil => exact fun _ => rfl
    | cons d ds ih => exact fun m => ih _
  have hstored : ∀ k j, fdValue M.cur M.str k j = .stored → Arr.data (metricName k j) ∈ M.filled := fun k j hs =>
    List.mem_append_left _ (List.mem_map.2 ⟨(k, j), List.mem_filter.2 ⟨by simp, by simpa using hs⟩, rfl⟩)
  have hbox : ∀ {x}, Grid np x → Box np h (List.finRange D) x := fun {x} hx d => by
    have := hx d
    simp only [List.mem_finRange, if_true]
    omega
  have hnot : ∀ s, s ≠ "detJ" → (∀ k j : Fin D, s ≠ metricName k j) → Arr.data s ∉ M.filled := by
    intro s hs hne hin
    rcases List.mem_append.1 hin with hin | hin
    · obtain ⟨p, _, he⟩ := List.mem_map.1 hin
      injection he with he
      exact hne _ _ he.symm
    · simp at hin; exact hs hin
  -- the arrays after the derivatives
  have hr : ∃ m3, r = m3 ∧ (∀ s, (∀ k i l : Fin D, s ≠ sdName k i l) → m3 (.data s) = m2 (.data s)) ∧
      ∀ k i l, sdStored M.cur M.str k i l = true → ∀ x, Grid np x → m3 (.data (sdName k i l)) x = I.cd l 1 (m2 (.data (metricName k i))) x := by
    by_cases he : M.sders = []
    · refine ⟨m2, ?_, fun _ _ => rfl, fun k i l hs => ?_⟩
      · simp only [r, Metrics2.kernels, if_pos he, List.append_nil]
        rw [show Alg.calls (M.toMetrics.kernels np h ++ (List.finRange D).map fun d => Call.fn (M.fillKernel np h d)) Alg.outside =
          Alg.calls (M.toMetrics.kernels np h) Alg.outside ++ Alg.calls ((List.finRange D).map fun d => Call.fn (M.fillKernel np h d)) Alg.outside by simp [Alg.calls], Alg.effect_append, hfills]
      · have := (hM.mem (k, i, l)).2 hs
        rw [he] at this
        cases this
    · obtain ⟨d1, d2⟩ := sdKernels_run (I := { I with stage := Alg.outside.stage.getD 0 }) (np := np) (h := h) hM.nodup hp m2
      obtain ⟨e1, e2⟩ := sdEval_run (M := M) (I := I) (np := np) (h := h) hD hM.nodup hp (runKers { I with stage := Alg.outside.stage.getD 0 } pts (M.sdKernels np h) m2)
      refine ⟨runFn I pts (M.sdEval np h) (runKers { I with stage := Alg.outside.stage.getD 0 } pts (M.sdKernels np h) m2), ?_, fun s hs => ?_, fun k i l hs x hx => ?_⟩
      · simp only [r, Metrics2.kernels, if_neg he]
        rw [show Alg.calls (M.toMetrics.kernels np h ++ (List.finRange D).map (fun d => Call.fn (M.fillKernel np h d)) ++ ((M.sdKernels np h).map Call.comp ++ [Call.fn (M.sdEval np h)])) Alg.outside =
          Alg.calls (M.toMetrics.kernels np h) Alg.outside ++ Alg.calls ((List.finRange D).map fun d => Call.fn (M.fillKernel np h d)) Alg.outside ++
          (Alg.calls ((M.sdKernels np h).map Call.comp) Alg.outside ++ Alg.calls [Call.fn (M.sdEval np h)] Alg.outside) by simp [Alg.calls], Alg.effect_append, Alg.effect_append, Alg.effect_append, hfills, effect_comp]
        rfl
      · rw [e2 s hs, d2]
      · rw [e1 (k, i, l) ((hM.mem _).2 hs) x hx, d1 (k, i, l) ((hM.mem _).2 hs) x hx]
  obtain ⟨m3, hrm, g1, g2⟩ := hr
  rw [hrm]
  have hmet : ∀ k j, m3 (.data (metricName k j)) = m2 (.data (metricName k j)) := fun k j => g1 _ fun a b c => (sdName_metric hD a b c k j).symm
  refine ⟨fun hne x hx => ?_, fun k j x hx => ?_, fun k i l hs x hx => ?_, fun s hs hne hsd => ?_⟩
  · rw [g1 _ fun a b c => (sdName_detJ hD a b c).symm, b1 _ (List.mem_append_right _ (by simp)) x (hbox hx), folded_grid _ hx, a1 hne x hx]
  · rw [← a2 k j x hx]
    unfold metricValue
    cases hv : fdValue M.cur M.str k j with
    | zero => rfl
    | one => rfl
    | stored => simp only; rw [hmet, b1 _ (hstored k j hv) x (hbox hx), folded_grid _ hx]
  · rw [g2 k i l hs x hx]
    have hst := sdStored_stored hs
    refine hl l 1 _ _ x fun q hq => ?_
    have hb : Box np h (List.finRange D) (shift x l q) := by
      intro d
      have := hx d
      simp only [List.mem_finRange, if_true]
      by_cases hd : d = l
      · subst hd
        simp only [shift, Function.update_self]
        rcases hq with hq | hq
        · have := abs_le.1 hq; omega
        · omega
      · simp only [shift, Function.update_of_ne hd]; omega
    rw [b1 _ (hstored k i hst) _ hb, ← a2 k i _ (folded_mem hf hb)]
    simp only [metricValue, hst]
  · rw [g1 s hsd, b2 _ (hnot s hs hne), a3 s hs hne]

end Kernels

/-! ## Equations -/

/-- The second derivative of the discretised equations. -/
def secondDiff (I : Interp D) (k l : Fin D) (f : P D → ℝ) : P D → ℝ := if k = l then I.cd k 2 f else I.cd (max k l) 1 (I.cd (min k l) 1 f)

/-- The derivative of a metric term as it enters the equations. -/
def sdValue (cur str : Fin D → Bool) (m : Mem D) (k i l : Fin D) (x : P D) : ℝ := if sdStored cur str k i l then m (.data (sdName k i l)) x else 0

theorem secondOf_eval (I : Interp D) (m : Mem D) (k l : Fin D) (e : Ex D) : (secondOf k l e).eval I m = secondDiff I k l (e.eval I m) := by
  unfold secondOf secondDiff
  split_ifs <;> rfl

theorem withMetric_eval (cur str : Fin D → Bool) (I : Interp D) (m : Mem D) (k j : Fin D) (e : Ex D) (x : P D) :
    (((withMetric cur str k j e).toList).map fun t => t.eval I m x).sum = metricValue cur str m k j x * e.eval I m x := by
  unfold withMetric metricValue
  cases fdValue cur str k j <;> simp [Ex.eval]

theorem withMetric_bind_eval (cur str : Fin D → Bool) (I : Interp D) (m : Mem D) (k i l j : Fin D) (e : Ex D) (x : P D) :
    ((((withMetric cur str k i e).bind (withMetric cur str l j)).toList).map fun t => t.eval I m x).sum = metricValue cur str m l j x * (metricValue cur str m k i x * e.eval I m x) := by
  have h1 := withMetric_eval cur str I m k i e x
  cases hk : withMetric cur str k i e with
  | none => rw [hk] at h1; simp at h1; simp; exact .inr h1
  | some a =>
    rw [hk] at h1
    simp only [Option.toList_some, List.map_cons, List.map_nil, List.sum_cons, List.sum_nil, add_zero] at h1
    rw [Option.bind_some, withMetric_eval, h1]

theorem secondTransformed_eval (cur str : Fin D → Bool) (I : Interp D) (m : Mem D) (i j : Fin D) (e : Ex D) (x : P D) :
    (secondTransformed cur str i j e).eval I m x = ∑ l, metricValue cur str m l j x * ∑ k, (metricValue cur str m k i x * secondDiff I k l (e.eval I m) x + sdValue cur str m k i l x * I.cd k 1 (e.eval I m) x) := by
  have h1 : (secondTransformed cur str i j e).eval I m x = ((secondTerms cur str i j e).map fun t => t.eval I m x).sum := by
    unfold secondTransformed
    cases secondTerms cur str i j e with
    | nil => simp [Ex.eval]
    | cons t l => simp only [foldl_terms_eval, List.map_cons, List.sum_cons]
  have flat : ∀ (l : List (Fin D)) (f : Fin D → List (Ex D)), ((l.flatMap f).map fun t => t.eval I m x).sum = (l.map fun d => ((f d).map fun t => t.eval I m x).sum).sum := by
    intro l f
    induction l with
    | nil => rfl
    | cons d l ih => rw [List.flatMap_cons, List.map_append, List.sum_append, ih, List.map_cons, List.sum_cons]
  rw [h1, secondTerms, flat, ← List.ofFn_eq_map, List.sum_ofFn]
  refine Finset.sum_congr rfl fun l _ => ?_
  rw [flat, ← List.ofFn_eq_map, List.sum_ofFn, Finset.mul_sum]
  refine Finset.sum_congr rfl fun k _ => ?_
  rw [List.map_append, List.sum_append, withMetric_bind_eval, secondOf_eval, mul_add]
  congr 1
  unfold sdValue
  split_ifs with hs
  · rw [withMetric_eval]; simp only [Ex.eval]
  · simp

theorem foldl_mapped_eval (cur str : Fin D → Bool) (I : Interp D) (m : Mem D) (x : P D) (l : List (Term D)) (e : Ex D) :
    (l.foldl (fun e t => Ex.add e (t.mapped cur str)) e).eval I m x = e.eval I m x + (l.map fun t => (t.mapped cur str).eval I m x).sum := by
  induction l generalizing e with
  | nil => simp
  | cons a l ih => rw [List.foldl_cons, ih, List.map_cons, List.sum_cons, ← add_assoc]; rfl

theorem mappedTerms_eval (cur str : Fin D → Bool) (I : Interp D) (m : Mem D) (x : P D) (l : List (Term D)) :
    (mappedTerms cur str l).eval I m x = (l.map fun t => (t.mapped cur str).eval I m x).sum := by
  cases l with
  | nil => simp [mappedTerms, Ex.eval]
  | cons t l => simp only [mappedTerms, foldl_mapped_eval, List.map_cons, List.sum_cons]

end OpenSBLI.Sim
