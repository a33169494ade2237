import Verif.Lemmas.MappedGrid
import Verif.Lemmas.ShockProgram

/-! # Lemmas on the kernels of the metric terms and on transformed equations -/
namespace OpenSBLI.Sim
open OpenSBLI.Metric (fdValue)

variable {D n : ℕ}

/-! ## Names -/

theorem metricName_inj (hD : D ≤ 3) {k j k' j' : Fin D} (h : metricName k j = metricName k' j') : k = k' ∧ j = j' := by
  have key : ∀ a b c d : Fin 3, metricName a b = metricName c d → a = c ∧ b = d := by decide +kernel
  have := key (k.castLE hD) (j.castLE hD) (k'.castLE hD) (j'.castLE hD) h
  simpa [Fin.ext_iff] using this

theorem metricName_detJ (hD : D ≤ 3) (k j : Fin D) : metricName k j ≠ "detJ" := by
  have key : ∀ a b : Fin 3, metricName a b ≠ "detJ" := by decide +kernel
  exact key (k.castLE hD) (j.castLE hD)

/-! ## Kernels of the metric terms -/

section Kernels
variable {M : Metrics D} {I : Interp D} {pts : Ranges.Kernel D → List (P D)} {np : Fin D → ℤ} {h : ℤ}

theorem work_inj {p q : Fin D × Fin D} (hp : p ∈ M.ders) (he : M.work p = M.work q) : p = q :=
  (List.idxOf_inj hp).1 (by unfold Metrics.work at he; omega)

theorem derKernels_run (hM : M.ders.Nodup) (hp : Enumerates pts) (m : Mem D) :
    (∀ p ∈ M.ders, ∀ x, Grid np x → runKers I pts (M.derKernels np h) m (.work (M.work p)) x = I.cd p.2 1 (m (.data (coordName M.symbol p.1))) x) ∧
    ∀ s, runKers I pts (M.derKernels np h) m (.data s) = m (.data s) := by
  have main : ∀ (l : List (Fin D × Fin D)) (m' : Mem D), l.Nodup → (∀ p ∈ l, p ∈ M.ders) → (∀ s, m' (.data s) = m (.data s)) →
      let r := runKers I pts (l.map fun p => ⟨rangeOf np h [], [(.work (M.work p), .cd p.2 1 (.arr (.data (coordName M.symbol p.1))))]⟩) m'
      (∀ p ∈ l, ∀ x, Grid np x → r (.work (M.work p)) x = I.cd p.2 1 (m (.data (coordName M.symbol p.1))) x) ∧ (∀ s, r (.data s) = m (.data s)) ∧
      ∀ p ∈ M.ders, p ∉ l → r (.work (M.work p)) = m' (.work (M.work p)) := by
    intro l
    induction l with
    | nil => exact fun m' _ _ hd => ⟨fun p hp => by simp at hp, hd, fun _ _ _ => rfl⟩
    | cons p l ih =>
      intro m' hnd hin hd
      rw [List.nodup_cons] at hnd
      obtain ⟨r1, _, r3⟩ := runKer_single I hp (rangeOf np h []) (.work (M.work p)) (.cd p.2 1 (.arr (.data (coordName M.symbol p.1)))) (by simp [Ex.arrs]) m'
      have hd' : ∀ s, runKer I pts ⟨rangeOf np h [], [(.work (M.work p), .cd p.2 1 (.arr (.data (coordName M.symbol p.1))))]⟩ m' (.data s) = m (.data s) := fun s => by
        rw [r3 _ (by simp), hd]
      obtain ⟨i1, i2, i3⟩ := ih _ hnd.2 (fun q hq => hin q (List.mem_cons_of_mem _ hq)) hd'
      refine ⟨fun q hq x hx => ?_, i2, fun q hq hql => ?_⟩
      · rcases List.mem_cons.1 hq with rfl | hq
        · refine (congrFun (i3 q (hin q (List.mem_cons_self ..)) hnd.1) x).trans ?_
          rw [r1 x ((rangeOf_visits ..).2 ((box_nil ..).2 hx))]
          simp only [Ex.eval, hd]
        · exact i1 q hq x hx
      · rw [List.mem_cons, not_or] at hql
        refine (i3 q hq hql.2).trans (r3 _ fun he => hql.1 ?_)
        injection he with he
        exact work_inj hq he
  obtain ⟨h1, h2, _⟩ := main M.ders m hM (fun _ h => h) fun _ => rfl
  exact ⟨h1, h2⟩

theorem evalKernel_run (hD : D ≤ 3) (hp : Enumerates pts) (m : Mem D) :
    (∀ x, Grid np x → runFn I pts (M.evalKernel np h) m (.data "detJ") x = Metric.detJ M.cur M.str (Matrix.of fun i j => m (.work (M.work (i, j))) x)) ∧
    (∀ k j, fdValue M.cur M.str k j = .stored → ∀ x, Grid np x → runFn I pts (M.evalKernel np h) m (.data (metricName k j)) x =
      Metric.fdMetric M.cur M.str (Matrix.of fun i j => m (.work (M.work (i, j))) x) k j) ∧
    ∀ s, s ≠ "detJ" → (∀ k j : Fin D, s ≠ metricName k j) → runFn I pts (M.evalKernel np h) m (.data s) = m (.data s) := by
  have hfst : (M.evalKernel np h).eqs.map Prod.fst = .data "detJ" ::
      (((List.finRange D).flatMap fun k => (List.finRange D).map fun j => (k, j)).filter fun p => decide (fdValue M.cur M.str p.1 p.2 = .stored)).map fun p => .data (metricName p.1 p.2) := by
    simp [Metrics.evalKernel, Function.comp_def]
  have hpairs : ((List.finRange D).flatMap fun k => (List.finRange D).map fun j => (k, j)).Nodup := by
    have := (List.nodup_finRange D).product (List.nodup_finRange D)
    simpa [List.product, SProd.sprod] using this
  have hnd : ((M.evalKernel np h).eqs.map Prod.fst).Nodup := by
    rw [hfst, List.nodup_cons]
    refine ⟨fun hin => ?_, (List.Nodup.filter _ hpairs).map_on fun p _ q _ he => ?_⟩
    · obtain ⟨p, _, he⟩ := List.mem_map.1 hin
      injection he with he
      exact metricName_detJ hD _ _ he
    · injection he with he
      exact Prod.ext (metricName_inj hD he).1 (metricName_inj hD he).2
  have hwork : ∀ i, Arr.work i ∉ (M.evalKernel np h).eqs.map Prod.fst := fun i hi => by rw [hfst] at hi; simp at hi
  have hread : ∀ q ∈ (M.evalKernel np h).eqs, ∀ m m' : Mem D, (∀ a, a ∉ (M.evalKernel np h).eqs.map Prod.fst → m a = m' a) → q.2 I m = q.2 I m' := by
    intro q hq m m' hmm
    have hw : ∀ i, m (.work i) = m' (.work i) := fun i => hmm _ (hwork i)
    rcases List.mem_cons.1 hq with rfl | hq
    · simp only [hw]
    · obtain ⟨p, _, rfl⟩ := List.mem_map.1 hq
      simp only [hw]
  obtain ⟨r1, _, r3⟩ := runFn_simul (I := I) hp (M.evalKernel np h) hnd hread m
  have hv : ∀ {x}, Grid np x → (M.evalKernel np h).range.visits x := fun hx => (rangeOf_visits ..).2 ((box_nil ..).2 hx)
  refine ⟨fun x hx => r1 _ (List.mem_cons_self ..) x (hv hx), fun k j hs x hx => ?_, fun s hs hne => r3 _ fun hin => ?_⟩
  · exact r1 (.data (metricName k j), _) (List.mem_cons_of_mem _ (List.mem_map.2 ⟨(k, j), List.mem_filter.2 ⟨by simp, by simpa using hs⟩, rfl⟩)) x (hv hx)
  · rw [hfst] at hin
    rcases List.mem_cons.1 hin with he | hin
    · injection he with he
      exact hs he
    · obtain ⟨p, _, he⟩ := List.mem_map.1 hin
      injection he with he
      exact hne _ _ he.symm

/-- What the kernels of the metric terms leave behind. -/
theorem metrics_run (hD : D ≤ 3) (hM : M.Listed) (hp : Enumerates pts) (sol : Fin n → String) (B : Sol D n → Sol D n) (m : Mem D) :
    let r := Alg.effect (exec I pts sol B) (Alg.calls (M.kernels np h) Alg.outside) m
    (M.ders ≠ [] → ∀ x, Grid np x → r (.data "detJ") x = (Metric.jacobian M.cur M.str (jacobi I (fun i => m (.data (coordName M.symbol i))) x)).det) ∧
    (∀ k j x, Grid np x → metricValue M.cur M.str r k j x = Metric.fdMetric M.cur M.str (jacobi I (fun i => m (.data (coordName M.symbol i))) x) k j) ∧
    ∀ s, s ≠ "detJ" → (∀ k j : Fin D, s ≠ metricName k j) → r (.data s) = m (.data s) := by
  intro r
  by_cases he : M.ders = []
  · have hr : r = m := by simp only [r, Metrics.kernels, if_pos he]; rfl
    refine ⟨fun hne => absurd he hne, fun k j x hx => ?_, fun s _ _ => by rw [hr]⟩
    have hst : fdValue M.cur M.str k j ≠ .stored := fun hs => by
      have := (hM.mem (k, j)).2 hs
      rw [he] at this
      cases this
    cases hv : fdValue M.cur M.str k j with
    | stored => exact absurd hv hst
    | zero => simp [metricValue, Metric.fdMetric, hv]
    | one => simp [metricValue, Metric.fdMetric, hv]
  · set J : Interp D := { I with stage := Alg.outside.stage.getD 0 } with hJ
    have hr : r = runFn I pts (M.evalKernel np h) (runKers J pts (M.derKernels np h) m) := by
      simp only [r, Metrics.kernels, if_neg he]
      rw [show Alg.calls ((M.derKernels np h).map Call.comp ++ [Call.fn (M.evalKernel np h)]) Alg.outside =
        Alg.calls ((M.derKernels np h).map Call.comp) Alg.outside ++ Alg.calls [Call.fn (M.evalKernel np h)] Alg.outside by simp [Alg.calls], Alg.effect_append, effect_comp]
      rfl
    obtain ⟨d1, d2⟩ := derKernels_run (I := J) (np := np) (h := h) hM.nodup hp m
    obtain ⟨e1, e2, e3⟩ := evalKernel_run (M := M) (I := I) (np := np) (h := h) hD hp (runKers J pts (M.derKernels np h) m)
    have hjac : ∀ x, Grid np x → Metric.jacobian M.cur M.str (Matrix.of fun i j => runKers J pts (M.derKernels np h) m (.work (M.work (i, j))) x) =
        Metric.jacobian M.cur M.str (jacobi I (fun i => m (.data (coordName M.symbol i))) x) := by
      intro x hx
      ext i j
      simp only [Metric.jacobian, Matrix.of_apply]
      cases hv : fdValue M.cur M.str i j with
      | zero => rfl
      | one => rfl
      | stored =>
        simp only
        rw [d1 (i, j) ((hM.mem _).2 hv) x hx]
        rfl
    have hfd : ∀ x, Grid np x → Metric.fdMetric M.cur M.str (Matrix.of fun i j => runKers J pts (M.derKernels np h) m (.work (M.work (i, j))) x) =
        Metric.fdMetric M.cur M.str (jacobi I (fun i => m (.data (coordName M.symbol i))) x) := by
      intro x hx
      ext i j
      simp only [Metric.fdMetric, Matrix.of_apply, hjac x hx]
    rw [hr]
    refine ⟨fun _ x hx => ?_, fun k j x hx => ?_, fun s hs hne => ?_⟩
    · rw [e1 x hx]
      exact congrArg Matrix.det (hjac x hx)
    · cases hv : fdValue M.cur M.str k j with
      | zero => simp [metricValue, Metric.fdMetric, hv]
      | one => simp [metricValue, Metric.fdMetric, hv]
      | stored =>
        simp only [metricValue, hv]
        rw [e2 k j hv x hx, hfd x hx]
    · rw [e3 s hs hne, d2]

end Kernels

/-! ## Equations -/

theorem nest_plain (e : Ex D) (h : e.cds = []) (used : List (Fin D)) : e.nest used = true := by
  induction e with
  | cd d k e _ => simp [Ex.cds] at h
  | add a b iha ihb | mul a b iha ihb | pow a b iha ihb =>
    simp only [Ex.cds, List.append_eq_nil_iff] at h
    simp [Ex.nest, iha h.1, ihb h.2]
  | fn f e ih => exact ih h
  | _ => rfl

theorem mapped_cds (cur str : Fin D → Bool) (j : Fin D) (e : Ex D) (s : String) (hs : s ∈ e.datas) (k : Fin D) (hk : fdValue cur str k j ≠ .zero) : s ∈ (transformed cur str j e).datas := by
  have hmem : ∃ t ∈ metricTerms cur str j e, Arr.data s ∈ t.arrs := by
    cases hv : fdValue cur str k j with
    | zero => exact absurd hv hk
    | one => exact ⟨.cd k 1 e, List.mem_filterMap.2 ⟨k, List.mem_finRange k, by rw [hv]⟩, (mem_datas e s).1 hs⟩
    | stored => exact ⟨.mul (.arr (.data (metricName k j))) (.cd k 1 e), List.mem_filterMap.2 ⟨k, List.mem_finRange k, by rw [hv]⟩, List.mem_append_right _ ((mem_datas e s).1 hs)⟩
  obtain ⟨t, ht, hat⟩ := hmem
  rw [mem_datas]
  unfold transformed
  cases hl : metricTerms cur str j e with
  | nil => rw [hl] at ht; cases ht
  | cons t' l =>
    rw [hl] at ht
    refine mem_foldl_arrs l t' _ ?_
    rcases List.mem_cons.1 ht with rfl | ht
    · exact .inl hat
    · exact .inr ⟨t, ht, hat⟩

/-- In every column there is a metric term. -/
theorem column_nonzero (cur str : Fin D → Bool) (j : Fin D) : fdValue cur str j j ≠ .zero := by
  obtain ⟨a, b⟩ := Metric.fdValue_cases cur str j j
  intro hz
  by_cases hc : cur j = true
  · rw [a.2 (.inl ⟨hc, hc⟩)] at hz; cases hz
  · rw [Bool.not_eq_true] at hc
    by_cases hs : str j = true
    · rw [a.2 (.inr ⟨hc, rfl, hs⟩)] at hz; cases hz
    · rw [Bool.not_eq_true] at hs
      rw [b.2 ⟨hc, rfl, hs⟩] at hz; cases hz

theorem mapped_datas (cur str : Fin D → Bool) (e : Ex D) (he : e.firstFluxes = true) (j : Fin D) (a : Ex D) (ha : .cd j 1 a ∈ e.cds) (s : String) (hs : s ∈ a.datas) : s ∈ (e.mapped cur str).datas := by
  induction e with
  | cd d k b _ =>
    match k, he with
    | 1, he =>
      simp only [Ex.firstFluxes, decide_eq_true_eq] at he
      simp only [Ex.cds, he, List.nil_append, List.mem_singleton, Ex.cd.injEq, true_and] at ha
      obtain ⟨rfl, rfl⟩ := ha
      exact mapped_cds cur str j a s hs j (column_nonzero cur str j)
    | 0, he => simp [Ex.firstFluxes] at he
    | k + 2, he => simp [Ex.firstFluxes] at he
  | add a b iha ihb =>
    simp only [Ex.firstFluxes, Bool.and_eq_true] at he
    rw [mem_datas]
    rcases List.mem_append.1 ha with ha | ha
    · exact List.mem_append_left _ ((mem_datas _ s).1 (iha he.1 ha))
    · exact List.mem_append_right _ ((mem_datas _ s).1 (ihb he.2 ha))
  | mul c b ihc ihb =>
    simp only [Ex.firstFluxes, Bool.and_eq_true] at he
    rw [mem_datas]
    have hc : ∀ c : Ex D, c.coef = true → c.cds = [] := by
      intro c
      induction c with
      | mul a b iha ihb | pow a b iha ihb => intro h; simp only [Ex.coef, Bool.and_eq_true] at h; simp [Ex.cds, iha h.1, ihb h.2]
      | num _ => exact fun _ => rfl
      | const _ => exact fun _ => rfl
      | _ => intro h; simp [Ex.coef] at h
    rcases List.mem_append.1 ha with ha | ha
    · rw [hc c he.1] at ha; cases ha
    · exact List.mem_append_right _ ((mem_datas _ s).1 (ihb he.2 ha))
  | num _ => simp [Ex.cds] at ha
  | _ => simp [Ex.firstFluxes] at he

end OpenSBLI.Sim
