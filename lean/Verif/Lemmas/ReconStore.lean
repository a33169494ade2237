import Verif.Lemmas.ReconPhases

/-!
# What the equations before the interpolation leave in the variables: helper lemmas for C81
-/
namespace OpenSBLI.Recon
open Sim Weno

variable {D n : ℕ} {I : Interp D} {m : Mem D} {x : P D} {S : Sympy D} {K : Input D n}

/-- Value of the left eigenvectors. -/
noncomputable def Input.levVal (K : Input D n) (I : Interp D) (m : Mem D) (x : P D) (i j : Fin n) : ℝ := (K.C.lev K.d i j).eval I (K.mean m x) x

/-- Characteristic fluxes, solution, wave speeds. -/
noncomputable def Input.cfVal (K : Input D n) (I : Interp D) (m : Mem D) (x : P D) (i : Fin n) (p : ℤ) : ℝ := ∑ k, K.levVal I m x i k * (K.C.flux K.d k).eval I m (shift x K.d p)

@[inherit_doc Input.cfVal] noncomputable def Input.csVal (K : Input D n) (I : Interp D) (m : Mem D) (x : P D) (i : Fin n) (p : ℤ) : ℝ := ∑ k, K.levVal I m x i k * m (.data (K.C.sol k)) (shift x K.d p)

@[inherit_doc Input.cfVal] noncomputable def Input.lamVal (K : Input D n) (I : Interp D) (m : Mem D) (x : P D) (i : Fin n) : ℝ := Llf.maxWave K.pts fun p => (K.C.ev K.d i).eval I m (shift x K.d p)

/-- Intended values. -/
noncomputable def Input.target (K : Input D n) (I : Interp D) (m : Mem D) (x : P D) : Var → ℝ
  | .lev i j => if h : i < n ∧ j < n then K.levVal I m x ⟨i, h.1⟩ ⟨j, h.2⟩ else 0
  | .cf i j => if h : i < n then K.cfVal I m x ⟨i, h⟩ (K.pts.getD j 0) else 0
  | .cs i j => if h : i < n then K.csVal I m x ⟨i, h⟩ (K.pts.getD j 0) else 0
  | .lam i => if h : i < n then K.lamVal I m x ⟨i, h⟩ else 0
  | _ => 0

/-- The averages are right and the inverses are inverses. -/
structure Input.Averages (K : Input D n) (I : Interp D) (m : Mem D) (x : P D) (σ : Var → ℝ) : Prop where
  avg : ∀ t ∈ K.terms, σ (.avg t) = K.mean m x (.data t) x
  inv : ∀ q ∈ K.inverses, σ q.2 = q.1.eval I m K.d x σ

def IsAvg : Var → Prop
  | .avg _ | .roeInv | .invA | .invRho | .invMet => True
  | _ => False

theorem inverse_kind : ∀ q ∈ K.inverses, IsAvg q.2 ∧ ¬ (q.2 = .roeInv ∨ ∃ t, q.2 = .avg t) ∧ ∀ v ∈ q.1.vars, ∃ t, v = .avg t := by
  intro q hq
  simp only [Input.inverses, List.mem_append, List.mem_cons, List.not_mem_nil, or_false, List.mem_map, Option.mem_toList] at hq
  rcases hq with (rfl | rfl) | ⟨e, _, rfl⟩
  · simp [IsAvg, Term.vars]
  · simp [IsAvg, Term.vars]
  · refine ⟨trivial, by simp, fun v hv => ?_⟩
    obtain ⟨t, _, h⟩ := avgTerm_vars e v hv
    exact ⟨t, h⟩

theorem Input.Averages.congr {σ σ' : Var → ℝ} (h : K.Averages I m x σ) (hs : ∀ v, IsAvg v → σ' v = σ v) : K.Averages I m x σ' := by
  refine ⟨fun t ht => by rw [hs (.avg t) trivial, h.avg t ht], fun q hq => ?_⟩
  obtain ⟨h1, _, h2⟩ := inverse_kind q hq
  rw [hs _ h1, h.inv q hq]
  refine eval_congr fun v hv => ?_
  obtain ⟨t, rfl⟩ := h2 v hv
  exact (hs (.avg t) trivial).symm

theorem mem_terms {t : String} : t ∈ K.terms ↔ ∃ i, t ∈ (K.C.ev K.d i).datas ∨ ∃ j, t ∈ (K.C.lev K.d i j).datas ∨ t ∈ (K.C.rev K.d i j).datas := by
  simp [Input.terms]

/-! ## Averages and inverses -/

theorem avg_names : ∀ v ∈ ((K.avgEqs S).map fun q => (q.1, S.gamma q.2)).map Prod.fst, v = .roeInv ∨ ∃ t, v = .avg t := by
  intro v hv
  simp only [List.map_map, List.mem_map, Function.comp] at hv
  obtain ⟨q, hq, rfl⟩ := hv
  unfold Input.avgEqs at hq
  have hsimple : ∀ ts, ∀ q ∈ (simpleEqs S ts : List (Var × Term Var D)), ∃ t, q.1 = .avg t := by
    intro ts q hq
    simp only [simpleEqs, List.mem_map] at hq
    obtain ⟨t, _, rfl⟩ := hq
    exact ⟨t, rfl⟩
  split at hq
  · simp only [roeEqs, List.mem_append, List.mem_cons, List.not_mem_nil, or_false, List.mem_map] at hq
    rcases hq with (((rfl | rfl) | ⟨i, _, rfl⟩) | rfl) | hq
    · exact .inr ⟨_, rfl⟩
    · exact .inl rfl
    · exact .inr ⟨_, rfl⟩
    · exact .inr ⟨_, rfl⟩
    · exact .inr (hsimple _ q hq)
  · exact .inr (hsimple _ q hq)

theorem avg_phase (hS : S.Sound I) (hK : K.Ok I) (hx : K.RegularAt I m x) (σ : Var → ℝ) {t : String} (ht : t ∈ K.terms) :
    run I m K.d x ((K.avgEqs S).map fun q => (q.1, S.gamma q.2)) σ (.avg t) = K.mean m x (.data t) x := by
  have e : K.mean m x (.data t) x = K.C.avg (fun s => m (.data s) x) (fun s => m (.data s) (shift x K.d 1)) t := rfl
  rw [e, hK.avg]
  unfold Input.avgEqs
  by_cases hr : K.roe = true
  · rw [if_pos hr, if_pos hr]
    obtain ⟨h0, h1, h2⟩ := hx.roe hr
    exact roe_phase hS hK _ σ h0 h1 h2 ht
  · rw [if_neg hr, if_neg hr]
    exact simple_phase hS hK _ σ ht

theorem inv_phase {σ : Var → ℝ} (h : ∀ t ∈ K.terms, σ (.avg t) = K.mean m x (.data t) x) : K.Averages I m x (run I m K.d x K.invEqs σ) := by
  have hn : ∀ v, v ∈ K.invEqs.map Prod.fst ↔ ∃ q ∈ K.inverses, v = q.2 := fun v => by
    simp only [Input.invEqs, List.map_map, List.mem_map, Function.comp]
    exact ⟨fun ⟨q, h, e⟩ => ⟨q, h, e.symm⟩, fun ⟨q, h, e⟩ => ⟨q, h, e.symm⟩⟩
  have hfr : ∀ t, run I m K.d x K.invEqs σ (.avg t) = σ (.avg t) := fun t => by
    refine run_frame ?_
    rw [hn]
    rintro ⟨q, hq, e⟩
    exact (inverse_kind q hq).2.1 (.inr ⟨t, e.symm⟩)
  refine ⟨fun t ht => by rw [hfr, h t ht], fun q hq => ?_⟩
  have hv : ∀ q ∈ K.inverses, ∀ σ' : Var → ℝ, (∀ t, σ' (.avg t) = σ (.avg t)) → q.1.eval I m K.d x σ' = q.1.eval I m K.d x σ := fun q hq σ' hσ => eval_congr fun v hv => by
    obtain ⟨t, rfl⟩ := (inverse_kind q hq).2.2 v hv
    exact hσ t
  rw [hv q hq _ hfr]
  -- the variables are different
  have hg : ∃ g : Var → ℝ, ∀ q ∈ K.inverses, g q.2 = q.1.eval I m K.d x σ := by
    refine ⟨fun v => match v with
      | .invA => Term.eval I m K.d x σ (.pow (.var (.avg "a")) (.num (-1)))
      | .invRho => Term.eval I m K.d x σ (.pow (.var (.avg "rho")) (.num (-1)))
      | _ => match K.invMetric with | some e => (avgTerm e).eval I m K.d x σ | none => 0, fun q hq => ?_⟩
    simp only [Input.inverses, List.mem_append, List.mem_cons, List.not_mem_nil, or_false, List.mem_map, Option.mem_toList] at hq
    rcases hq with (rfl | rfl) | ⟨e, he, rfl⟩
    · rfl
    · rfl
    · simp only [he]
  obtain ⟨g, hg⟩ := hg
  rw [← hg q hq]
  refine run_value (g := g) (fun r hr σ' hσ => ?_) ((hn _).2 ⟨q, hq, rfl⟩)
  simp only [Input.invEqs, List.mem_map] at hr
  obtain ⟨q', hq', rfl⟩ := hr
  rw [hg q' hq']
  refine hv q' hq' σ' fun t => hσ _ ?_
  rw [hn]
  rintro ⟨q, hq, e⟩
  exact (inverse_kind q hq).2.1 (.inr ⟨t, e.symm⟩)

/-! ## Equations from matrices -/

theorem emit_eval (hS : S.Sound I) (hK : K.Ok I) {v : Var} {t : Term Var D} {q : Var × Term Var D} (hq : q ∈ emit S v t) {σ : Var → ℝ} (hr : t.Regular I m K.d x σ) :
    q.1 = v ∧ q.2.Regular I m K.d x σ ∧ q.2.eval I m K.d x σ = t.eval I m K.d x σ ∧ (S.gamma q.2).eval I m K.d x σ = t.eval I m K.d x σ := by
  unfold emit at hq
  split at hq
  · simp at hq
  · simp only [List.mem_singleton] at hq
    subst hq
    obtain ⟨h1, h2⟩ := hS.factor m K.d x σ t hr
    exact ⟨rfl, h1, h2, by rw [gammaMap_eval hS hK h1, h2]⟩

theorem emit_fst {v : Var} {t : Term Var D} {q : Var × Term Var D} (hq : q ∈ emit S v t) : q.1 = v := by
  unfold emit at hq
  split at hq
  · simp at hq
  · simp only [List.mem_singleton] at hq; rw [hq]

/-! ## Eigenvectors -/

theorem lev_names : ∀ v ∈ ((K.levEqs S).map fun q => (q.1, S.gamma q.2)).map Prod.fst, ∃ i j : Fin n, v = .lev i j := by
  intro v hv
  simp only [List.map_map, List.mem_map, Function.comp] at hv
  obtain ⟨q, hq, rfl⟩ := hv
  simp only [Input.levEqs, List.mem_flatMap, List.mem_finRange, true_and] at hq
  obtain ⟨i, j, hq⟩ := hq
  split at hq
  · simp at hq
  · exact ⟨i, j, emit_fst hq⟩

theorem not_num {K : Input D n} (hK : K.Ok I) : ∀ q ∈ K.inverses, ∀ r, q.1 ≠ .num r := by
  intro q hq r
  simp only [Input.inverses, List.mem_append, List.mem_cons, List.not_mem_nil, or_false, List.mem_map, Option.mem_toList] at hq
  rcases hq with (rfl | rfl) | ⟨e, he, rfl⟩
  · simp
  · simp
  · intro h
    obtain ⟨z, hz, _⟩ := avgTerm_num h
    exact hK.metric e he z hz

theorem lev_avg {σ : Var → ℝ} (h : K.Averages I m x σ) (hK : K.Ok I) (hx : K.RegularAt I m x) (i j : Fin n) :
    (avgTerm (K.C.lev K.d i j)).Regular I m K.d x σ ∧ (avgTerm (K.C.lev K.d i j)).eval I m K.d x σ = K.levVal I m x i j :=
  have ht : ∀ t ∈ (K.C.lev K.d i j).datas, σ (.avg t) = K.mean m x (.data t) x := fun t ht => h.avg t (mem_terms.2 ⟨i, .inr ⟨j, .inl ht⟩⟩)
  ⟨avgTerm_regular _ (hK.lev_cds i j) ht (hx.lev i j), avgTerm_eval _ (hK.lev_cds i j) ht⟩

theorem rev_avg {σ : Var → ℝ} (h : K.Averages I m x σ) (hK : K.Ok I) (hx : K.RegularAt I m x) (i j : Fin n) :
    (avgTerm (K.C.rev K.d i j)).Regular I m K.d x σ ∧ (avgTerm (K.C.rev K.d i j)).eval I m K.d x σ = (K.C.rev K.d i j).eval I (K.mean m x) x :=
  have ht : ∀ t ∈ (K.C.rev K.d i j).datas, σ (.avg t) = K.mean m x (.data t) x := fun t ht => h.avg t (mem_terms.2 ⟨i, .inr ⟨j, .inr ht⟩⟩)
  ⟨avgTerm_regular _ (hK.rev_cds i j) ht (hx.rev i j), avgTerm_eval _ (hK.rev_cds i j) ht⟩

theorem lev_phase (hS : S.Sound I) (hK : K.Ok I) (hx : K.RegularAt I m x) {σ : Var → ℝ} (h : K.Averages I m x σ) (h0 : ∀ i j, σ (.lev i j) = 0) (i j : Fin n) :
    run I m K.d x ((K.levEqs S).map fun q => (q.1, S.gamma q.2)) σ (.lev i j) = K.levVal I m x i j := by
  have ht : K.target I m x (.lev i j) = K.levVal I m x i j := by simp [Input.target]
  have hsub : ∀ i j (σ' : Var → ℝ), (∀ v, IsAvg v → σ' v = σ v) → (S.subs K.inverses (avgTerm (K.C.lev K.d i j))).Regular I m K.d x σ' ∧
      (S.subs K.inverses (avgTerm (K.C.lev K.d i j))).eval I m K.d x σ' = K.levVal I m x i j := fun i j σ' hσ => by
    have h' := h.congr hσ
    obtain ⟨r, e⟩ := lev_avg h' hK hx i j
    obtain ⟨r', e'⟩ := hS.subs m K.d x σ' K.inverses _ (fun q hq => ⟨not_num hK q hq, h'.inv q hq⟩) r
    exact ⟨r', e'.trans e⟩
  rw [← ht]
  refine run_value_or (fun q hq σ' hσ => ?_) fun hm => ?_
  · have hA : ∀ v, IsAvg v → σ' v = σ v := fun v hv => hσ v fun hm => by
      obtain ⟨i, j, rfl⟩ := lev_names v hm; exact hv
    simp only [List.mem_map] at hq
    obtain ⟨q, hq, rfl⟩ := hq
    simp only [Input.levEqs, List.mem_flatMap, List.mem_finRange, true_and] at hq
    obtain ⟨i, j, hq⟩ := hq
    split at hq
    · simp at hq
    · obtain ⟨r, e⟩ := hsub i j σ' hA
      obtain ⟨h1, _, _, h2⟩ := emit_eval hS hK hq r
      simp only [h1, h2, e]
      simp [Input.target]
  · rw [h0, ht]
    obtain ⟨r, e⟩ := hsub i j σ fun _ _ => rfl
    by_cases hz : K.C.lev K.d i j = .num 0
    · simp [Input.levVal, hz, Ex.eval]
    · rw [← e]
      have : S.isZero (S.subs K.inverses (avgTerm (K.C.lev K.d i j))) = true := by
        by_contra hne
        refine hm ?_
        simp only [List.map_map, List.mem_map, Function.comp, Input.levEqs, List.mem_flatMap, List.mem_finRange, true_and]
        exact ⟨(.lev i j, _), ⟨i, j, by rw [if_neg hz, emit, if_neg hne]; exact List.mem_singleton.2 rfl⟩, rfl⟩
      exact (hS.zero m K.d x σ _ this r).symm

theorem levTerm_eval {σ : Var → ℝ} (h : ∀ i j : Fin n, σ (.lev i j) = K.levVal I m x i j) (i j : Fin n) : (K.levTerm i j).Regular I m K.d x σ ∧ (K.levTerm i j).eval I m K.d x σ = K.levVal I m x i j := by
  unfold Input.levTerm
  split
  · next hz => exact ⟨trivial, by simp [Term.eval, Input.levVal, hz, Ex.eval]⟩
  · exact ⟨trivial, h i j⟩

/-! ## Characteristic fluxes and solution -/

theorem sum_finRange (f : Fin n → ℝ) : ((List.finRange n).map f).sum = ∑ i, f i := by
  rw [← List.ofFn_eq_map, List.sum_ofFn]

theorem cfTerm_eval (hx : K.RegularAt I m x) {σ : Var → ℝ} (h : ∀ i j : Fin n, σ (.lev i j) = K.levVal I m x i j) (i : Fin n) {p : ℤ} (hp : p ∈ K.pts) :
    (K.cfTerm i p).Regular I m K.d x σ ∧ (K.cfTerm i p).eval I m K.d x σ = K.cfVal I m x i p := by
  constructor
  · refine (regular_sum _ _).2 fun t ht => ?_
    simp only [List.mem_map] at ht
    obtain ⟨k, _, rfl⟩ := ht
    exact ⟨(levTerm_eval h i k).1, hx.flux k p hp⟩
  · simp only [Input.cfTerm, eval_sum, List.map_map, Input.cfVal]
    rw [← sum_finRange]
    congr 1
    refine List.map_congr_left fun k _ => ?_
    simp only [Function.comp, Term.eval, (levTerm_eval h i k).2]

theorem csTerm_eval {σ : Var → ℝ} (h : ∀ i j : Fin n, σ (.lev i j) = K.levVal I m x i j) (i : Fin n) (p : ℤ) :
    (K.csTerm i p).Regular I m K.d x σ ∧ (K.csTerm i p).eval I m K.d x σ = K.csVal I m x i p := by
  constructor
  · refine (regular_sum _ _).2 fun t ht => ?_
    simp only [List.mem_map] at ht
    obtain ⟨k, _, rfl⟩ := ht
    exact ⟨(levTerm_eval h i k).1, trivial⟩
  · simp only [Input.csTerm, eval_sum, List.map_map, Input.csVal]
    rw [← sum_finRange]
    congr 1
    refine List.map_congr_left fun k _ => ?_
    simp only [Function.comp, Term.eval, (levTerm_eval h i k).2, Ex.eval]

theorem mem_charEqs {q : Var × Term Var D} : q ∈ K.charEqs S ↔ ∃ (p : ℤ) (j : ℕ) (i : Fin n), K.pts[j]? = some p ∧ (q ∈ emit S (.cf i.val j) (K.cfTerm i p) ∨ q ∈ emit S (.cs i.val j) (K.csTerm i p)) := by
  simp only [Input.charEqs, List.mem_append, List.mem_flatMap, List.mem_finRange, true_and, Prod.exists, List.mem_zipIdx_iff_getElem?]
  constructor
  · rintro (⟨p, j, h, i, hq⟩ | ⟨i, p, j, h, hq⟩)
    · exact ⟨p, j, i, h, .inl hq⟩
    · exact ⟨p, j, i, h, .inr hq⟩
  · rintro ⟨p, j, i, h, hq | hq⟩
    · exact .inl ⟨p, j, h, i, hq⟩
    · exact .inr ⟨i, p, j, h, hq⟩

theorem char_names : ∀ v ∈ ((K.charEqs S).map fun q => (q.1, S.gamma q.2)).map Prod.fst, ∃ (i : Fin n) (j : ℕ), v = .cf i j ∨ v = .cs i j := by
  intro v hv
  simp only [List.map_map, List.mem_map, Function.comp] at hv
  obtain ⟨q, hq, rfl⟩ := hv
  obtain ⟨p, j, i, _, hq | hq⟩ := mem_charEqs.1 hq
  · exact ⟨i, j, .inl (emit_fst hq)⟩
  · exact ⟨i, j, .inr (emit_fst hq)⟩

theorem char_phase (hS : S.Sound I) (hK : K.Ok I) (hx : K.RegularAt I m x) {σ : Var → ℝ} (h : ∀ i j : Fin n, σ (.lev i j) = K.levVal I m x i j) (h0 : ∀ i j, σ (.cf i j) = 0 ∧ σ (.cs i j) = 0) (i : Fin n)
    {j : ℕ} (hj : j < K.pts.length) :
    run I m K.d x ((K.charEqs S).map fun q => (q.1, S.gamma q.2)) σ (.cf i j) = K.cfVal I m x i K.pts[j] ∧
    run I m K.d x ((K.charEqs S).map fun q => (q.1, S.gamma q.2)) σ (.cs i j) = K.csVal I m x i K.pts[j] := by
  have hp : K.pts[j]? = some K.pts[j] := List.getElem?_eq_getElem hj
  have t1 : K.target I m x (.cf i j) = K.cfVal I m x i K.pts[j] := by simp [Input.target, List.getD_eq_getElem?_getD, hp]
  have t2 : K.target I m x (.cs i j) = K.csVal I m x i K.pts[j] := by simp [Input.target, List.getD_eq_getElem?_getD, hp]
  have hall : ∀ q ∈ (K.charEqs S).map fun q => (q.1, S.gamma q.2), ∀ σ', (∀ v, v ∉ ((K.charEqs S).map fun q => (q.1, S.gamma q.2)).map Prod.fst → σ' v = σ v) → q.2.eval I m K.d x σ' = K.target I m x q.1 := by
    intro q hq σ' hσ
    have hL : ∀ i j : Fin n, σ' (.lev i j) = K.levVal I m x i j := fun i j => by
      rw [hσ _ fun hm => ?_, h i j]
      obtain ⟨_, _, e | e⟩ := char_names _ hm <;> exact absurd e (by simp)
    simp only [List.mem_map] at hq
    obtain ⟨q, hq, rfl⟩ := hq
    obtain ⟨p, j, i, hpj, hq⟩ := mem_charEqs.1 hq
    rcases hq with hq | hq
    · obtain ⟨r, e⟩ := cfTerm_eval hx hL i (List.mem_of_getElem? hpj)
      obtain ⟨h1, _, _, h2⟩ := emit_eval hS hK hq r
      simp only [h1, h2, e]
      simp [Input.target, List.getD_eq_getElem?_getD, hpj]
    · obtain ⟨r, e⟩ := csTerm_eval hL i p
      obtain ⟨h1, _, _, h2⟩ := emit_eval hS hK hq r
      simp only [h1, h2, e]
      simp [Input.target, List.getD_eq_getElem?_getD, hpj]
  refine ⟨?_, ?_⟩
  · rw [← t1]
    refine run_value_or hall fun hm => ?_
    obtain ⟨r, e⟩ := cfTerm_eval hx h i (List.getElem_mem hj)
    rw [(h0 i j).1, t1, ← e]
    have : S.isZero (K.cfTerm i K.pts[j]) = true := by
      by_contra hne
      refine hm ?_
      simp only [List.map_map, List.mem_map, Function.comp]
      exact ⟨(.cf i j, _), mem_charEqs.2 ⟨_, j, i, hp, .inl (by rw [emit, if_neg hne]; exact List.mem_singleton.2 rfl)⟩, rfl⟩
    exact (hS.zero m K.d x σ _ this r).symm
  · rw [← t2]
    refine run_value_or hall fun hm => ?_
    obtain ⟨r, e⟩ := csTerm_eval h i K.pts[j]
    rw [(h0 i j).2, t2, ← e]
    have : S.isZero (K.csTerm i K.pts[j]) = true := by
      by_contra hne
      refine hm ?_
      simp only [List.map_map, List.mem_map, Function.comp]
      exact ⟨(.cs i j, _), mem_charEqs.2 ⟨_, j, i, hp, .inr (by rw [emit, if_neg hne]; exact List.mem_singleton.2 rfl)⟩, rfl⟩
    exact (hS.zero m K.d x σ _ this r).symm

/-! ## Wave speeds -/

theorem lamTerm_eval (hx : K.RegularAt I m x) (σ : Var → ℝ) (i : Fin n) : (K.lamTerm i).Regular I m K.d x σ ∧ (K.lamTerm i).eval I m K.d x σ = K.lamVal I m x i := by
  unfold Input.lamTerm Input.lamVal Llf.maxWave
  have hx' := hx.ev i
  suffices H : ∀ (l : List ℤ), (∀ p ∈ l, exRegular I m (K.C.ev K.d i) (shift x K.d p)) → ∀ (o : Term Var D) (v : ℝ), o.Regular I m K.d x σ → o.eval I m K.d x σ = v →
      (l.foldl (fun o p => Term.max o (.abs (.at (K.C.ev K.d i) p))) o).Regular I m K.d x σ ∧
      (l.foldl (fun o p => Term.max o (.abs (.at (K.C.ev K.d i) p))) o).eval I m K.d x σ = l.foldl (fun out p => max out |(K.C.ev K.d i).eval I m (shift x K.d p)|) v by
    exact H K.pts hx' (.num 0) 0 trivial rfl
  intro l
  induction l with
  | nil => exact fun _ o v hr hv => ⟨hr, hv⟩
  | cons p l ih =>
    intro hl o v hr hv
    simp only [List.foldl_cons]
    exact ih (fun q hq => hl q (by simp [hq])) _ _ ⟨hr, hl p (by simp)⟩ (by simp only [Term.eval, hv])

theorem mem_lamAll {q : Var × Term Var D} : q ∈ K.lamAll S ↔ ∃ i : Fin n, q ∈ emit S (.lam i.val) (K.lamTerm i) := by
  simp [Input.lamAll]

theorem lam_names : ((K.lamEqs S).map fun q => (q.1, S.gamma q.2)).map Prod.fst = (K.lamAll S).map Prod.fst := by
  unfold Input.lamEqs
  split
  · next h => simp [h]
  · next q l h => simp [h, Function.comp_def]

theorem lam_phase (hS : S.Sound I) (hK : K.Ok I) (hx : K.RegularAt I m x) {σ : Var → ℝ} (h0 : ∀ i, σ (.lam i) = 0) (i : Fin n) :
    run I m K.d x ((K.lamEqs S).map fun q => (q.1, S.gamma q.2)) σ (.lam i) = K.lamVal I m x i := by
  have hn := lam_names (S := S) (K := K)
  have ht : ∀ i : Fin n, K.target I m x (.lam i) = K.lamVal I m x i := fun i => by simp [Input.target]
  have hq : ∀ q ∈ K.lamAll S, ∀ σ', q.2.Regular I m K.d x σ' ∧ q.2.eval I m K.d x σ' = K.target I m x q.1 := fun q hq σ' => by
    obtain ⟨i, hq⟩ := mem_lamAll.1 hq
    obtain ⟨r, e⟩ := lamTerm_eval hx σ' i
    obtain ⟨h1, h2, h3, _⟩ := emit_eval hS hK hq r
    exact ⟨h2, by rw [h3, e, h1, ht]⟩
  have hz : (Var.lam i) ∉ (K.lamAll S).map Prod.fst → σ (.lam i) = K.target I m x (.lam i) := fun hm => by
    rw [h0, ht]
    obtain ⟨r, e⟩ := lamTerm_eval hx σ i
    have : S.isZero (K.lamTerm i) = true := by
      by_contra hne
      exact hm (List.mem_map.2 ⟨(.lam i, _), mem_lamAll.2 ⟨i, by rw [emit, if_neg hne]; exact List.mem_singleton.2 rfl⟩, rfl⟩)
    rw [← e]
    exact (hS.zero m K.d x σ _ this r).symm
  rw [← ht i]
  cases hall : K.lamAll S with
  | nil =>
    rw [run_frame (by rw [hn, hall]; simp)]
    exact hz (by rw [hall]; simp)
  | cons q l =>
    have hq0 := hq q (by rw [hall]; simp)
    rw [Input.lamEqs, hall]
    simp only [List.map_cons, run_cons, List.map_map]
    refine run_known (known := fun v => v = q.1) (fun v hv => ?_) (fun r hr σ' _ hσ => ?_) (fun hm => ?_)
    · subst hv
      rw [Function.update_self, gammaMap_eval hS hK (hq0 σ).1, (hq0 σ).2]
    · simp only [List.mem_map, Function.comp] at hr
      obtain ⟨r, hr, rfl⟩ := hr
      have hr0 := hq r (by rw [hall]; simp [hr]) σ'
      simp only
      by_cases he : r.2 = q.2
      · rw [if_pos he, gammaMap_eval hS hK (t := .var q.1) trivial]
        simp only [Term.eval]
        rw [hσ q.1 rfl, ← hr0.2, he, (hq0 σ').2]
      · rw [if_neg he, gammaMap_eval hS hK hr0.1, hr0.2]
    · by_cases e : Var.lam i = q.1
      · rw [e, Function.update_self, gammaMap_eval hS hK (hq0 σ).1, (hq0 σ).2]
      · rw [Function.update_of_ne e]
        refine hz ?_
        rw [hall]
        simp only [List.map_map, Function.comp_def] at hm
        simp only [List.map_cons, List.mem_cons, not_or]
        exact ⟨e, hm⟩

theorem lamVar_eval {σ : Var → ℝ} (h : ∀ i : Fin n, σ (.lam i) = K.lamVal I m x i) (i : Fin n) : (K.lamVar i).Regular I m K.d x σ ∧ (K.lamVar i).eval I m K.d x σ = K.lamVal I m x i := by
  unfold Input.lamVar
  split
  · next hz =>
    refine ⟨trivial, ?_⟩
    have : ∀ (l : List ℤ) (v : ℝ), 0 ≤ v → l.foldl (fun out _ => max out |(0:ℝ)|) v = v := fun l => by
      induction l with
      | nil => exact fun v _ => rfl
      | cons p l ih => intro v hv; simp only [List.foldl_cons, abs_zero, max_eq_left hv] at ih ⊢; exact ih v hv
    simp only [Term.eval, Input.lamVal, Llf.maxWave, hz, Ex.eval, Rat.cast_zero]
    exact (this _ 0 le_rfl).symm
  · exact ⟨trivial, h i⟩

/-! ## All of them -/

/-- What is needed after them. -/
structure Input.After (K : Input D n) (I : Interp D) (m : Mem D) (x : P D) (σ : Var → ℝ) : Prop where
  averages : K.Averages I m x σ
  cf : ∀ (i : Fin n) (j : ℕ) (hj : j < K.pts.length), σ (.cf i j) = K.cfVal I m x i K.pts[j]
  cs : ∀ (i : Fin n) (j : ℕ) (hj : j < K.pts.length), σ (.cs i j) = K.csVal I m x i K.pts[j]
  lam : ∀ i : Fin n, σ (.lam i) = K.lamVal I m x i
  ct : ∀ e, K.sensor = some e → σ .ct = Teno.adaptiveCT (I.const "teno_a1") (I.const "teno_a2") (e.eval I m x)
  recon : ∀ i, σ (.recon i) = 0

theorem pre_phase (hS : S.Sound I) (hK : K.Ok I) (hx : K.RegularAt I m x) : K.After I m x (run I m K.d x (K.pre S ++ K.ctEqs) fun _ => 0) := by
  unfold Input.pre
  simp only [List.map_append, run_append]
  set σ1 := run I m K.d x ((K.avgEqs S).map fun q => (q.1, S.gamma q.2)) fun _ => 0 with e1
  have a1 : ∀ t ∈ K.terms, σ1 (.avg t) = K.mean m x (.data t) x := fun t ht => avg_phase hS hK hx _ ht
  have f1 : ∀ v, ¬ IsAvg v → σ1 v = 0 := fun v hv => run_frame fun hm => by
    rcases avg_names v hm with rfl | ⟨t, rfl⟩ <;> exact hv trivial
  set σ2 := run I m K.d x K.invEqs σ1 with e2
  have a2 : K.Averages I m x σ2 := inv_phase a1
  have f2 : ∀ v, ¬ IsAvg v → σ2 v = 0 := fun v hv => by
    rw [e2, run_frame fun hm => ?_, f1 v hv]
    simp only [Input.invEqs, List.map_map, List.mem_map, Function.comp] at hm
    obtain ⟨q, hq, rfl⟩ := hm
    exact hv (inverse_kind q hq).1
  set σ3 := run I m K.d x ((K.levEqs S).map fun q => (q.1, S.gamma q.2)) σ2 with e3
  have a3 : ∀ i j : Fin n, σ3 (.lev i j) = K.levVal I m x i j := fun i j => lev_phase hS hK hx a2 (fun i j => f2 _ id) i j
  have f3 : ∀ v, (∀ i j, v ≠ .lev i j) → σ3 v = σ2 v := fun v hv => run_frame fun hm => by
    obtain ⟨i, j, e⟩ := lev_names v hm; exact hv _ _ e
  set σ4 := run I m K.d x ((K.charEqs S).map fun q => (q.1, S.gamma q.2)) σ3 with e4
  have a4 : ∀ (i : Fin n) (j : ℕ) (hj : j < K.pts.length), σ4 (.cf i j) = K.cfVal I m x i K.pts[j] ∧ σ4 (.cs i j) = K.csVal I m x i K.pts[j] := fun i j hj =>
    char_phase hS hK hx a3 (fun i j => ⟨by rw [f3 _ (by simp), f2 _ id], by rw [f3 _ (by simp), f2 _ id]⟩) i hj
  have f4 : ∀ v, (∀ i j, v ≠ .cf i j ∧ v ≠ .cs i j) → σ4 v = σ3 v := fun v hv => run_frame fun hm => by
    obtain ⟨i, j, e | e⟩ := char_names v hm
    · exact (hv _ _).1 e
    · exact (hv _ _).2 e
  set σ5 := run I m K.d x ((K.lamEqs S).map fun q => (q.1, S.gamma q.2)) σ4 with e5
  have a5 : ∀ i : Fin n, σ5 (.lam i) = K.lamVal I m x i := fun i => lam_phase hS hK hx (fun i => by rw [f4 _ (by simp), f3 _ (by simp), f2 _ id]) i
  have f5 : ∀ v, (∀ i, v ≠ .lam i) → σ5 v = σ4 v := fun v hv => run_frame fun hm => by
    rw [lam_names, List.mem_map] at hm
    obtain ⟨q, hq, rfl⟩ := hm
    obtain ⟨i, hq⟩ := mem_lamAll.1 hq
    exact hv _ (emit_fst hq)
  have f6 : ∀ v, v ≠ .ct → run I m K.d x K.ctEqs σ5 v = σ5 v := fun v hv => run_frame fun hm => by
    simp only [Input.ctEqs, List.map_map, List.mem_map, Function.comp] at hm
    obtain ⟨_, _, rfl⟩ := hm
    exact hv rfl
  refine ⟨a2.congr fun v hv => ?_, fun i j hj => ?_, fun i j hj => ?_, fun i => ?_, fun e he => ?_, fun i => ?_⟩
  · have : ∀ w, ¬ IsAvg w → v ≠ w := fun w hw e => hw (e ▸ hv)
    rw [f6 v (this _ id), f5 v (fun i => this _ id), f4 v (fun i j => ⟨this _ id, this _ id⟩), f3 v (fun i j => this _ id)]
  · rw [f6 _ (by simp), f5 _ (by simp)]; exact (a4 i j hj).1
  · rw [f6 _ (by simp), f5 _ (by simp)]; exact (a4 i j hj).2
  · rw [f6 _ (by simp)]; exact a5 i
  · simp only [Input.ctEqs, he, Option.toList_some, List.map_cons, List.map_nil, run_one, if_true, Term.eval, shift_zero, Teno.adaptiveCT]
    rw [one_div]
    congr 3
    ring_nf
  · rw [f6 _ (by simp), f5 _ (by simp), f4 _ (by simp), f3 _ (by simp), f2 _ id]

end OpenSBLI.Recon
