import Verif.Lemmas.SimulationSpatial
import Verif.Props.C42_C44_Algorithm

/-!
# The stages and steps of the simulation program
-/
namespace OpenSBLI.Sim
set_option linter.unusedSectionVars false

variable {D n : ℕ}

theorem eval_stage (I : Interp D) (z : ℤ) (e : Ex D) (h : e.steady = true) (m : Mem D) : e.eval { I with stage := z } m = e.eval I m := by
  induction e <;> simp_all [Ex.steady, Ex.eval]

theorem box_nil (np : Fin D → ℤ) (h : ℤ) (x : P D) : Box np h [] x ↔ Grid np x := by simp [Box, Grid]

/-- Calls of kernels. -/
theorem effect_comp (I : Interp D) (pts : Ranges.Kernel D → List (P D)) (sol : Fin n → String) (B : Sol D n → Sol D n) (ks : List (Ker D)) (e : Alg.Env) (m : Mem D) :
    Alg.effect (exec I pts sol B) (Alg.calls (ks.map .comp) e) m = runKers { I with stage := e.stage.getD 0 } pts ks m := by
  unfold Alg.effect Alg.calls runKers
  rw [List.map_map, List.foldl_map]
  rfl

/-- The arrays hold a state of the time integration. -/
structure Rep (S : Setup D n) (init : String → P D → ℝ) (m : Mem D) (s : TState D n) : Prop where
  q : ∀ i : Fin n, m (.data (S.sol i)) = s.q i
  aux : ∀ i : Fin n, m (.reg i) = s.aux i
  rest : ∀ s, S.relation s = none → (∀ i, s ≠ S.sol i) → m (.data s) = init s

/-- Calls which evaluate the right hand side `F` in a stage: from arrays holding a state they put it into the residual arrays and leave the state as it is. -/
def Evaluates (S : Setup D n) (I : Interp D) (pts : Ranges.Kernel D → List (P D)) (B : Sol D n → Sol D n) (init : String → P D → ℝ) (cs : List (Call D)) (F : Sol D n → Sol D n) : Prop :=
  ∀ (m : Mem D) (s : TState D n) (i z : ℕ), Rep S init m s →
    Rep S init (Alg.effect (exec I pts S.sol B) (Alg.calls cs (Alg.inStage i z)) m) s ∧
    ∀ i' : Fin n, ∀ x, Grid S.np x → Alg.effect (exec I pts S.sol B) (Alg.calls cs (Alg.inStage i z)) m (.res i') x = F s.q i' x

section
variable {S : Setup D n} (hS : S.Valid) (hinj : Function.Injective S.sol) {I : Interp D} {pts : Ranges.Kernel D → List (P D)} (hp : Enumerates pts) (hl : Local I S.np S.h)
  {B : Sol D n → Sol D n} {init : String → P D → ℝ} {full : Sol D n → String → P D → ℝ} (hfull : ∀ q, Consistent S I init q (full q))

include hinj in
theorem rep_bc {m : Mem D} {s : TState D n} (h : Rep S init m s) (e : Alg.Env) :
    Rep S init (Alg.effect (exec I pts S.sol B) (Alg.calls [.bc] e) m) { s with q := B s.q } := by
  have hrun : Alg.effect (exec I pts S.sol B) (Alg.calls [.bc] e) m = runBc S.sol B m := rfl
  rw [hrun]
  have hq : (fun j => m (.data (S.sol j))) = s.q := funext h.q
  refine ⟨fun i => ?_, fun i => h.aux i, fun t ht hne => ?_⟩
  · have hf : ((List.finRange n).find? fun j : Fin n => S.sol j = S.sol i) = some i := by
      have : ∃ j, ((List.finRange n).find? fun j : Fin n => S.sol j = S.sol i) = some j := by
        rw [← Option.isSome_iff_exists, List.find?_isSome]
        exact ⟨i, List.mem_finRange i, by simp⟩
      obtain ⟨j, hj⟩ := this
      have := List.find?_some hj
      simp only [decide_eq_true_eq] at this
      rw [hj, hinj this]
    simp only [runBc]
    rw [hf, hq]
  · have hf : ((List.finRange n).find? fun j : Fin n => S.sol j = t) = none := by
      rw [List.find?_eq_none]
      intro j _ h
      simp only [decide_eq_true_eq] at h
      exact hne j h.symm
    simp only [runBc]
    rw [hf]
    exact h.rest t ht hne

include hp in
theorem rep_start {m : Mem D} {s : TState D n} (h : Rep S init m s) (e : Alg.Env) :
    Rep S init (Alg.effect (exec I pts S.sol B) (Alg.calls ((S.startKernels .rk).map .comp) e) m) { s with aux := onGrid S.np s.q s.aux } := by
  rw [effect_comp]
  set J : Interp D := { I with stage := e.stage.getD 0 }
  obtain ⟨k1, k2, k3⟩ := runKer_simul J hp ⟨rangeOf S.np S.h [], (List.finRange n).map fun i : Fin n => (.reg i, .arr (.data (S.sol i)))⟩ (by
      simp only [List.map_map]
      exact (List.nodup_finRange n).map fun a b h => by simpa [Fin.ext_iff] using h) (by
      intro q hq q' hq' h
      obtain ⟨i, _, rfl⟩ := List.mem_map.1 hq
      obtain ⟨j, _, rfl⟩ := List.mem_map.1 hq'
      simp [Ex.arrs] at h) (by
      intro q hq
      obtain ⟨i, _, rfl⟩ := List.mem_map.1 hq
      rfl) m
  change Rep S init (runKer J pts _ m) _
  have hd : ∀ t : String, runKer J pts ⟨rangeOf S.np S.h [], (List.finRange n).map fun i : Fin n => (.reg i, .arr (.data (S.sol i)))⟩ m (.data t) = m (.data t) := fun t => k3 _ (by simp)
  refine ⟨fun i => (hd _).trans (h.q i), fun i => funext fun x => ?_, fun t ht hne => (hd t).trans (h.rest t ht hne)⟩
  simp only [onGrid]
  split
  · rename_i hx
    rw [k1 (.reg i, .arr (.data (S.sol i))) (List.mem_map.2 ⟨i, List.mem_finRange i, rfl⟩) x ((rangeOf_visits _ _ _ _).2 ((box_nil _ _ _).2 hx))]
    simp only [Ex.eval]
    rw [h.q i]
  · rename_i hx
    exact (k2 (.reg i) x (mt (fun hv => (box_nil S.np S.h x).1 ((rangeOf_visits S.np S.h [] x).1 hv)) hx)).trans (congrFun (h.aux i) x)

include hS hp hl hfull in
/-- After the spatial kernels the residuals are the right hand side. -/
theorem rep_spatial (ks : List (Ker D)) (hks : S.spatial = .ok ks) {m : Mem D} {s : TState D n} (h : Rep S init m s) (z : ℤ) :
    Rep S init (runKers { I with stage := z } pts ks m) s ∧
    ∀ i : Fin n, ∀ x, Grid S.np x → runKers { I with stage := z } pts ks m (.res i) x = (S.rhs i).eval I (memOf (full s.q)) x := by
  have hc := hfull s.q
  obtain ⟨s1, s2, s3⟩ := spatial_phase (I := { I with stage := z }) (full := full s.q) hS hp (fun d k f g x h => hl d k f g x h)
    (fun t ht e he x => by
      rw [hc.rel t e ((hS.listed.keysMem t).1 ht) ((relation_iff hS.relNodup t e).1 he) x, eval_stage I z e (hS.relPlain t e he).2.2]) ks hks m (fun t ht x => by
      by_cases hi : ∃ i, t = S.sol i
      · obtain ⟨i, rfl⟩ := hi
        rw [h.q i, hc.sol i]
      · push Not at hi
        rw [h.rest t ht hi, hc.rest t (relation_none hS.relNodup ht) hi])
  refine ⟨⟨fun i => (s2 _ (hS.relSol i)).trans (h.q i), fun i => (s3 i).trans (h.aux i), fun t ht hne => (s2 t ht).trans (h.rest t ht hne)⟩, fun i x hx => ?_⟩
  rw [s1 i x ((box_nil _ _ _).2 hx), eval_stage I z _ (hS.rhsSteady i)]

include hinj hp in
theorem rep_advance {m : Mem D} {s : TState D n} (h : Rep S init m s) (r : Sol D n) (hr : ∀ i : Fin n, ∀ x, Grid S.np x → m (.res i) x = r i x) (z : ℕ) :
    Rep S init (runKers { I with stage := z } pts (S.advanceKernels .rk) m)
      { q := onGrid S.np (fun i x => s.aux i x + I.const "dt" * (I.table "rknew").getD z 0 * r i x) s.q
        aux := onGrid S.np (fun i x => s.aux i x + I.const "dt" * (I.table "rkold").getD z 0 * r i x) s.aux } := by
  set J : Interp D := { I with stage := z } with hJ
  set K1 : Ker D := ⟨rangeOf S.np S.h [], (List.finRange n).map fun i : Fin n => (.data (S.sol i), .add (.arr (.reg i)) (.mul (.mul (.const "dt") (.indexed "rknew")) (.arr (.res i))))⟩ with hK1
  set K2 : Ker D := ⟨rangeOf S.np S.h [], (List.finRange n).map fun i : Fin n => (.reg i, .add (.arr (.reg i)) (.mul (.mul (.const "dt") (.indexed "rkold")) (.arr (.res i))))⟩ with hK2
  change Rep S init (runKer J pts K2 (runKer J pts K1 m)) _
  obtain ⟨a1, a2, a3⟩ := runKer_simul J hp K1 (by
      simp only [hK1, List.map_map]
      exact (List.nodup_finRange n).map fun a b h => hinj (by simpa using h)) (by
      intro q hq q' hq' h
      obtain ⟨i, _, rfl⟩ := List.mem_map.1 hq
      obtain ⟨j, _, rfl⟩ := List.mem_map.1 hq'
      simp [Ex.arrs] at h) (by
      intro q hq
      obtain ⟨i, _, rfl⟩ := List.mem_map.1 hq
      rfl) m
  set m1 := runKer J pts K1 m
  obtain ⟨b1, b2, b3⟩ := runKer_simul J hp K2 (by
      simp only [hK2, List.map_map]
      exact (List.nodup_finRange n).map fun a b h => by simpa [Fin.ext_iff] using h) (by
      intro q hq q' hq' h
      obtain ⟨i, _, rfl⟩ := List.mem_map.1 hq
      obtain ⟨j, _, rfl⟩ := List.mem_map.1 hq'
      simp only [Ex.arrs, List.mem_append, List.mem_singleton, Arr.reg.injEq] at h
      rcases h with h | h
      · rw [Fin.ext h]
      · simp at h) (by
      intro q hq
      obtain ⟨i, _, rfl⟩ := List.mem_map.1 hq
      rfl) m1
  have hreg : ∀ i : ℕ, m1 (.reg i) = m (.reg i) := fun i => a3 _ (by simp [hK1])
  have hres : ∀ i : ℕ, m1 (.res i) = m (.res i) := fun i => a3 _ (by simp [hK1])
  have hdata : ∀ t : String, runKer J pts K2 m1 (.data t) = m1 (.data t) := fun t => b3 _ (by simp [hK2])
  have hv : ∀ x, (rangeOf S.np S.h []).visits x ↔ Grid S.np x := fun x => (rangeOf_visits _ _ _ _).trans (box_nil _ _ _)
  refine ⟨fun i => ?_, fun i => funext fun x => ?_, fun t ht hne => ?_⟩
  · rw [hdata]
    funext x
    simp only [onGrid]
    split
    · rename_i hx
      rw [a1 _ (List.mem_map.2 ⟨i, List.mem_finRange i, rfl⟩) x ((hv x).2 hx)]
      simp only [Ex.eval, hJ, Int.toNat_natCast]
      rw [h.aux i, hr i x hx]
    · rename_i hx
      rw [a2 _ x fun h => hx ((hv x).1 h), h.q i]
  · simp only [onGrid]
    split
    · rename_i hx
      rw [b1 (.reg i, _) (List.mem_map.2 ⟨i, List.mem_finRange i, rfl⟩) x ((hv x).2 hx)]
      simp only [Ex.eval, hJ, Int.toNat_natCast]
      rw [hreg, hres, h.aux i, hr i x hx]
    · rename_i hx
      rw [b2 _ x fun h => hx ((hv x).1 h), hreg, h.aux i]
  · rw [hdata, a3 _ (by simp only [hK1, List.map_map, List.mem_map, not_exists, not_and, Function.comp_apply, Arr.data.injEq]; exact fun i _ h => hne i h.symm)]
    exact h.rest t ht hne

include hS hp hl hfull in
/-- The spatial kernels evaluate the right hand sides. -/
theorem spatial_evaluates (ks : List (Ker D)) (hks : S.spatial = .ok ks) :
    Evaluates S I pts B init (ks.map .comp) fun q i x => (S.rhs i).eval I (memOf (full q)) x := by
  intro m s i z h
  rw [effect_comp]
  exact rep_spatial hS hp hl hfull ks hks h z

include hinj hp in
theorem rep_stage {cs : List (Call D)} {F : Sol D n → Sol D n} (hF : Evaluates S I pts B init cs F) {m : Mem D} {s : TState D n} (h : Rep S init m s) (i z : ℕ) :
    Rep S init (Alg.effect (exec I pts S.sol B) (Alg.calls cs (Alg.inStage i z) ++ Alg.calls ((S.advanceKernels .rk).map .comp) (Alg.inStage i z) ++ Alg.calls [.bc] (Alg.inStage i z)) m)
      (rkStage S.np F B (I.const "dt") s ((I.table "rknew").getD z 0, (I.table "rkold").getD z 0)) := by
  rw [Alg.effect_append, Alg.effect_append]
  obtain ⟨h1, h2⟩ := hF m s i z h
  rw [effect_comp (ks := S.advanceKernels .rk)]
  exact rep_bc hinj (rep_advance hinj hp h1 _ h2 z) _

/-! ## Low storage -/

/-- The pair of updates of one component: the second reads what the first has written. -/
theorem atPoint_pairs (J : Interp D) (f : Fin n → Ex D) (g : Fin n → Ex D) (sol : Fin n → String) (hs : Function.Injective sol) (hf : ∀ i, (f i).cds = [])  (hg : ∀ i, (g i).cds = [])
    (hfr : ∀ i, ∀ a ∈ (f i).arrs, a = .reg i ∨ ∃ k, a = .res k) (hgr : ∀ i, ∀ a ∈ (g i).arrs, a = .reg i ∨ a = .data (sol i)) (l : List (Fin n)) (hn : l.Nodup) (m : Mem D) (x : P D) :
    let m' := atPoint J (l.flatMap fun i : Fin n => [(.reg i, f i), (.data (sol i), g i)]) m x
    (∀ i ∈ l, m' (.reg i) x = (f i).eval J m x ∧ m' (.data (sol i)) x = (g i).eval J (m.set (.reg i) x ((f i).eval J m x)) x) ∧
    ∀ a, (∀ i ∈ l, a ≠ .reg i ∧ a ≠ .data (sol i)) → m' a x = m a x := by
  induction l generalizing m with
  | nil => exact ⟨fun i hi => by simp at hi, fun _ _ => rfl⟩
  | cons i l ih =>
    rw [List.nodup_cons] at hn
    intro m'
    set m1 := m.set (.reg i) x ((f i).eval J m x) with hm1
    set m2 := m1.set (.data (sol i)) x ((g i).eval J m1 x) with hm2
    have hm' : m' = atPoint J (l.flatMap fun i : Fin n => [(.reg i, f i), (.data (sol i), g i)]) m2 x := rfl
    obtain ⟨i1, i2⟩ := ih hn.2 m2
    rw [← hm'] at i1 i2
    have hother : ∀ a, a ≠ .reg i → a ≠ .data (sol i) → m2 a x = m a x := by
      intro a h1 h2
      rw [hm2, set_other _ _ _ _ _ _ fun h => h2 h.1, hm1, set_other _ _ _ _ _ _ fun h => h1 h.1]
    have hself : ∀ j ∈ l, Arr.reg i ≠ .reg j ∧ Arr.reg i ≠ .data (sol j) := fun j hj => ⟨by
      simp only [ne_eq, Arr.reg.injEq, Fin.val_inj]; exact fun h => hn.1 (h ▸ hj), by simp⟩
    have hself' : ∀ j ∈ l, Arr.data (sol i) ≠ .reg j ∧ Arr.data (sol i) ≠ .data (sol j) := fun j hj => ⟨by simp, by
      simp only [ne_eq, Arr.data.injEq]; exact fun h => hn.1 (hs h ▸ hj)⟩
    refine ⟨fun j hj => ?_, fun a ha => ?_⟩
    · rcases List.mem_cons.1 hj with rfl | hj
      · refine ⟨?_, ?_⟩
        · rw [i2 _ hself, hm2, set_other _ _ _ _ _ _ (by simp), hm1]; simp [Mem.set]
        · rw [i2 _ hself']
          exact if_pos ⟨rfl, rfl⟩
      · have hji : j ≠ i := fun h => hn.1 (h ▸ hj)
        have hfe : (f j).eval J m2 x = (f j).eval J m x := eval_at _ (hf j) fun a ha => by
          refine hother a ?_ ?_
          · rcases hfr j a ha with h | ⟨k, h⟩ <;> rw [h] <;> simp [Fin.val_inj, hji]
          · rcases hfr j a ha with h | ⟨k, h⟩ <;> rw [h] <;> simp
        refine ⟨(i1 j hj).1.trans hfe, (i1 j hj).2.trans ?_⟩
        rw [hfe]
        refine eval_at _ (hg j) fun a ha => ?_
        unfold Mem.set
        by_cases h1 : a = .reg j
        · simp [h1]
        · rw [if_neg fun h => h1 h.1, if_neg fun h => h1 h.1]
          rcases hgr j a ha with h | h
          · exact absurd h h1
          · refine hother a (by rw [h]; simp) ?_
            rw [h]; simp only [ne_eq, Arr.data.injEq]; exact fun h => hji (hs h)
    · rw [i2 a fun j hj => ha j (List.mem_cons_of_mem _ hj)]
      exact hother a (ha i (List.mem_cons_self ..)).1 (ha i (List.mem_cons_self ..)).2

include hinj hp in
theorem rep_lsAdvance {m : Mem D} {s : TState D n} (h : Rep S init m s) (r : Sol D n) (hr : ∀ i : Fin n, ∀ x, Grid S.np x → m (.res i) x = r i x) (z : ℕ) :
    Rep S init (runKers { I with stage := z } pts (S.advanceKernels .lowStorage) m)
      { q := onGrid S.np (fun i x => s.q i x + (I.table "rkB").getD z 0 * ((I.table "rkA").getD z 0 * s.aux i x + I.const "dt" * r i x)) s.q
        aux := onGrid S.np (fun i x => (I.table "rkA").getD z 0 * s.aux i x + I.const "dt" * r i x) s.aux } := by
  set J : Interp D := { I with stage := z } with hJ
  set eqs : List (Arr × Ex D) := (List.finRange n).flatMap fun i : Fin n =>
      [(.reg i, .add (.mul (.indexed "rkA") (.arr (.reg i))) (.mul (.const "dt") (.arr (.res i)))),
       (.data (S.sol i), .add (.arr (.data (S.sol i))) (.mul (.indexed "rkB") (.arr (.reg i))))] with heqs
  change Rep S init ((pts (rangeOf S.np S.h [])).foldl (atPoint J eqs) m) _
  have hc : ∀ q ∈ eqs, q.2.cds = [] := by
    intro q hq
    obtain ⟨i, _, hq⟩ := List.mem_flatMap.1 hq
    simp only [List.mem_cons, List.not_mem_nil, or_false] at hq
    rcases hq with rfl | rfl <;> rfl
  have hv : ∀ x, x ∈ pts (rangeOf S.np S.h []) ↔ Grid S.np x := fun x => ((hp _).2 x).trans ((rangeOf_visits _ _ _ _).trans (box_nil _ _ _))
  have key := loop_at J eqs hc (pts (rangeOf S.np S.h [])) (hp _).1 m
  have hpair := fun x => atPoint_pairs J (fun i : Fin n => (.add (.mul (.indexed "rkA") (.arr (.reg i))) (.mul (.const "dt") (.arr (.res i))) : Ex D))
    (fun i : Fin n => (.add (.arr (.data (S.sol i))) (.mul (.indexed "rkB") (.arr (.reg i))) : Ex D)) S.sol hinj (fun _ => rfl) (fun _ => rfl)
    (fun i a ha => by simp [Ex.arrs] at ha; rcases ha with h | h <;> simp [h]) (fun i a ha => by simp [Ex.arrs] at ha; rcases ha with h | h <;> simp [h])
    (List.finRange n) (List.nodup_finRange n) m x
  refine ⟨fun i => funext fun x => ?_, fun i => funext fun x => ?_, fun t ht hne => funext fun x => ?_⟩
  · rw [key]
    simp only [onGrid]
    by_cases hx : Grid S.np x
    · rw [if_pos ((hv x).2 hx), if_pos hx]
      refine (((hpair x).1 i (List.mem_finRange i)).2).trans ?_
      simp only [Ex.eval, Mem.set, hJ, Int.toNat_natCast]
      rw [if_neg (by simp), if_pos ⟨trivial, trivial⟩, h.q i, h.aux i, hr i x hx]
    · rw [if_neg (mt (hv x).1 hx), if_neg hx, h.q i]
  · rw [key]
    simp only [onGrid]
    by_cases hx : Grid S.np x
    · rw [if_pos ((hv x).2 hx), if_pos hx]
      refine (((hpair x).1 i (List.mem_finRange i)).1).trans ?_
      simp only [Ex.eval, hJ, Int.toNat_natCast]
      rw [h.aux i, hr i x hx]
    · rw [if_neg (mt (hv x).1 hx), if_neg hx, h.aux i]
  · rw [key]
    split
    · refine ((hpair x).2 (.data t) fun i _ => ⟨by simp, by simpa using hne i⟩).trans ?_
      rw [h.rest t ht hne]
    · rw [h.rest t ht hne]

include hinj hp in
theorem rep_lsStage {cs : List (Call D)} {F : Sol D n → Sol D n} (hF : Evaluates S I pts B init cs F) {m : Mem D} {s : TState D n} (h : Rep S init m s) (i z : ℕ) :
    Rep S init (Alg.effect (exec I pts S.sol B) (Alg.calls cs (Alg.inStage i z) ++ Alg.calls ((S.advanceKernels .lowStorage).map .comp) (Alg.inStage i z) ++ Alg.calls [.bc] (Alg.inStage i z)) m)
      (lsStage S.np F B (I.const "dt") s ((I.table "rkA").getD z 0, (I.table "rkB").getD z 0)) := by
  rw [Alg.effect_append, Alg.effect_append]
  obtain ⟨h1, h2⟩ := hF m s i z h
  rw [effect_comp (ks := S.advanceKernels .lowStorage)]
  exact rep_bc hinj (rep_lsAdvance hinj hp h1 _ h2 z) _

/-! ## Steps -/

theorem zip_range (a b : List ℝ) (h : a.length = b.length) : ((List.range a.length).map fun z => (a.getD z 0, b.getD z 0)) = a.zip b := by
  apply List.ext_getElem
  · simp [h]
  · intro i h1 h2
    simp only [List.length_map, List.length_range] at h1
    simp [h1, h ▸ h1]

/-- Stages one after another. -/
theorem rep_stages (f : TState D n → ℝ × ℝ → TState D n) (ev : ℕ → List (Alg.Event (Call D))) (c : ℕ → ℝ × ℝ)
    (hstage : ∀ z m s, Rep S init m s → Rep S init (Alg.effect (exec I pts S.sol B) (ev z) m) (f s (c z)))
    (l : List ℕ) {m : Mem D} {s : TState D n} (h : Rep S init m s) :
    Rep S init (Alg.effect (exec I pts S.sol B) (l.flatMap ev) m) ((l.map c).foldl f s) := by
  induction l generalizing m s with
  | nil => exact h
  | cons z l ih =>
    rw [List.flatMap_cons, Alg.effect_append, List.map_cons, List.foldl_cons]
    exact ih (hstage z _ _ h)

/-- Outputs and monitors change nothing. -/
theorem effect_idle (evs : List (Alg.Event (Call D))) (h : ∀ v ∈ evs, ∀ k e, v ≠ .call k e) (m : Mem D) : Alg.effect (exec I pts S.sol B) evs m = m := by
  induction evs generalizing m with
  | nil => rfl
  | cons v evs ih =>
    have hv := h v (List.mem_cons_self ..)
    change Alg.effect _ evs (exec I pts S.sol B v m) = m
    rw [ih fun v hv => h v (List.mem_cons_of_mem _ hv)]
    cases v with
    | call k e => exact absurd rfl (hv k e)
    | write => rfl
    | monitor => rfl

end

end OpenSBLI.Sim
