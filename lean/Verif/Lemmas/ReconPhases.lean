import Verif.Lemmas.ReconRecipe
import Verif.Props.C78_Average

/-!
# The parts of the reconstruction kernel one after another: helper lemmas for C81
-/
namespace OpenSBLI.Recon
open Sim Weno

variable {D n : ℕ} {I : Interp D} {m : Mem D} {d : Fin D} {x : P D}

theorem shift_zero (x : P D) (d : Fin D) : shift x d 0 = x := by simp [shift]

/-- As `run_value`, with some variables holding their value throughout. -/
theorem run_known {l : List (Var × Term Var D)} {σ : Var → ℝ} {g : Var → ℝ} {known : Var → Prop} (hk : ∀ v, known v → σ v = g v)
    (h : ∀ q ∈ l, ∀ σ', (∀ v, v ∉ l.map Prod.fst → σ' v = σ v) → (∀ v, known v → σ' v = g v) → q.2.eval I m d x σ' = g q.1) {v : Var}
    (hv : v ∉ l.map Prod.fst → σ v = g v) : run I m d x l σ v = g v := by
  suffices H : ∀ l' : List (Var × Term Var D), (∀ q ∈ l', q ∈ l) → ∀ σ1, (∀ v, v ∉ l.map Prod.fst → σ1 v = σ v) → (∀ v, known v → σ1 v = g v) → ∀ v ∈ l'.map Prod.fst, run I m d x l' σ1 v = g v by
    by_cases hm : v ∈ l.map Prod.fst
    · exact H l (fun _ h => h) σ (fun _ _ => rfl) hk v hm
    · rw [run_frame hm, hv hm]
  intro l'
  induction l' with
  | nil => intro _ _ _ _ v hv; simp at hv
  | cons q l' ih =>
    intro hl σ1 h1 h2 v hv
    rw [run_cons]
    have hq := h q (hl q (by simp)) σ1 h1 h2
    by_cases hv' : v ∈ l'.map Prod.fst
    · refine ih (fun q hq => hl q (by simp [hq])) _ (fun w hw => ?_) (fun w hw => ?_) v hv'
      · rw [Function.update_of_ne, h1 w hw]
        rintro rfl
        exact hw (List.mem_map_of_mem (hl q (by simp)))
      · by_cases e : w = q.1
        · subst e; rw [Function.update_self, hq]
        · rw [Function.update_of_ne e, h2 w hw]
    · have : v = q.1 := by simpa [hv'] using hv
      subst this
      rw [run_frame hv', Function.update_self, hq]

/-! ## Averaged expressions -/

theorem mem_datas {e : Ex D} {t : String} : t ∈ e.datas ↔ Arr.data t ∈ e.arrs := by
  unfold Ex.datas
  rw [List.mem_filterMap]
  constructor
  · rintro ⟨a, ha, h⟩
    cases a <;> simp at h
    subst h; exact ha
  · exact fun h => ⟨_, h, rfl⟩

theorem avgTerm_num {e : Ex D} {r : ℝ} (h : avgTerm e = .num r) : ∃ q : ℚ, e = .num q ∧ r = q := by
  cases e with
  | num z => exact ⟨z, rfl, by simpa [avgTerm, eq_comm] using h⟩
  | arr a => cases a <;> simp [avgTerm] at h
  | _ => simp [avgTerm] at h

/-- Averages in the variables are values on the averaged arrays. -/
theorem avgTerm_eval {avg : (String → ℝ) → (String → ℝ) → String → ℝ} {l r : P D} {σ : Var → ℝ} (e : Ex D) (hc : e.cds = []) (h : ∀ t ∈ e.datas, σ (.avg t) = averaged avg m l r (.data t) x) :
    (avgTerm e).eval I m d x σ = e.eval I (averaged avg m l r) x := by
  simp only [mem_datas] at h
  induction e with
  | num z => simp [avgTerm, Term.eval, Ex.eval]
  | const c => rfl
  | indexed t => rfl
  | arr a =>
    cases a with
    | data t => exact h t (by simp [Ex.arrs])
    | _ => simp [avgTerm, Term.eval, Ex.eval, averaged, shift_zero]
  | cd => simp [Ex.cds] at hc
  | add a b ha hb | mul a b ha hb | pow a b ha hb =>
    simp only [Ex.cds, List.append_eq_nil_iff] at hc
    simp only [avgTerm, Term.eval, Ex.eval]
    rw [ha hc.1 fun t ht => h t (by simp [Ex.arrs, ht]), hb hc.2 fun t ht => h t (by simp [Ex.arrs, ht])]
  | fn f a ha =>
    simp only [avgTerm, Term.eval, Ex.eval]
    rw [ha hc fun t ht => h t (by simpa [Ex.arrs] using ht)]

theorem avgTerm_regular {avg : (String → ℝ) → (String → ℝ) → String → ℝ} {l r : P D} {σ : Var → ℝ} (e : Ex D) (hc : e.cds = []) (h : ∀ t ∈ e.datas, σ (.avg t) = averaged avg m l r (.data t) x)
    (hr : exRegular I (averaged avg m l r) e x) : (avgTerm e).Regular I m d x σ := by
  induction e with
  | num | const => trivial
  | indexed t => simp [avgTerm, Term.Regular, exRegular]
  | arr a => cases a <;> simp [avgTerm, Term.Regular, exRegular]
  | cd => simp [Ex.cds] at hc
  | add a b ha hb | mul a b ha hb =>
    simp only [Ex.cds, List.append_eq_nil_iff] at hc
    simp only [mem_datas] at h ha hb
    exact ⟨ha hc.1 (fun t ht => h t (by simp [Ex.arrs, ht])) hr.1, hb hc.2 (fun t ht => h t (by simp [Ex.arrs, ht])) hr.2⟩
  | pow a b ha hb =>
    simp only [Ex.cds, List.append_eq_nil_iff] at hc
    have h1 : ∀ t ∈ a.datas, σ (.avg t) = averaged avg m l r (.data t) x := fun t ht => h t (by rw [mem_datas] at ht ⊢; simp [Ex.arrs, ht])
    have h2 : ∀ t ∈ b.datas, σ (.avg t) = averaged avg m l r (.data t) x := fun t ht => h t (by rw [mem_datas] at ht ⊢; simp [Ex.arrs, ht])
    refine ⟨ha hc.1 h1 hr.1, hb hc.2 h2 hr.2.1, ?_⟩
    have he := avgTerm_eval (I := I) (d := d) a hc.1 h1
    rcases hr.2.2 with ⟨k, hk⟩ | ⟨⟨z, hz⟩, h0⟩ | h0
    · exact .inl ⟨k, by rw [hk]; simp [avgTerm]⟩
    · exact .inr (.inl ⟨⟨z, by rw [hz]; rfl⟩, by rw [he]; exact h0⟩)
    · exact .inr (.inr (by rw [he]; exact h0))
  | fn f a ha =>
    simp only [mem_datas] at h ha
    exact ha hc (fun t ht => h t (by simpa [Ex.arrs] using ht)) hr

theorem avgTerm_vars (e : Ex D) : ∀ v ∈ (avgTerm e).vars, ∃ t ∈ e.datas, v = .avg t := by
  simp only [mem_datas]
  induction e with
  | num | const | indexed | cd => simp [avgTerm, Term.vars]
  | arr a => cases a <;> simp [avgTerm, Term.vars, Ex.arrs]
  | add a b ha hb | mul a b ha hb | pow a b ha hb =>
    simp only [avgTerm, Term.vars, List.mem_append, Ex.arrs]
    rintro v (hv | hv)
    · obtain ⟨t, ht, rfl⟩ := ha v hv; exact ⟨t, .inl ht, rfl⟩
    · obtain ⟨t, ht, rfl⟩ := hb v hv; exact ⟨t, .inr ht, rfl⟩
  | fn f a ha => exact ha

/-! ## Hypotheses -/

/-- The problem. -/
structure Input.Ok (K : Input D n) (I : Interp D) : Prop where
  /-- Averages are those of the procedure. -/
  avg : K.C.avg = if K.roe then roeAvg D (I.const "gama") else simpleAvg
  lev_cds : ∀ i j, (K.C.lev K.d i j).cds = []
  rev_cds : ∀ i j, (K.C.rev K.d i j).cds = []
  /-- The metric factor is not a number. -/
  metric : ∀ e, K.invMetric = some e → ∀ z, e ≠ .num z
  /-- The derived constant. -/
  gamma : I.const "gamma_m1" = I.const "gama" - 1
  weno : ∀ form k dz w, K.C.scheme = .weno form k dz w → 2 ≤ k ∧ (form = .Z → k ≤ 7)
  eps : ∀ o eps CT, K.C.scheme = .teno o eps CT → I.const "eps" = eps
  ct : ∀ o eps CT, K.C.scheme = .teno o eps CT → K.sensor = none → I.const "TENO_CT" = CT

/-- The arrays averaged between a point and its neighbour. -/
def Input.mean (K : Input D n) (m : Mem D) (x : P D) : Mem D := averaged K.C.avg m x (shift x K.d 1)

/-- The state: no singular powers in the fluxes and eigenvalues at the points of the stencil and in the eigenvectors; for Roe's average positive densities and an enthalpy not below the kinetic energy. -/
structure Input.RegularAt (K : Input D n) (I : Interp D) (m : Mem D) (x : P D) : Prop where
  flux : ∀ i, ∀ p ∈ K.pts, exRegular I m (K.C.flux K.d i) (shift x K.d p)
  ev : ∀ i, ∀ p ∈ K.pts, exRegular I m (K.C.ev K.d i) (shift x K.d p)
  lev : ∀ i j, exRegular I (K.mean m x) (K.C.lev K.d i j) x
  rev : ∀ i j, exRegular I (K.mean m x) (K.C.rev K.d i j) x
  roe : K.roe = true → 0 < m (.data "rho") x ∧ 0 < m (.data "rho") (shift x K.d 1) ∧
    0 ≤ (I.const "gama" - 1) * (Llf.roeH (primOf D fun s => m (.data s) x) (primOf D fun s => m (.data s) (shift x K.d 1)) -
      Llf.roeKE (primOf D fun s => m (.data s) x) (primOf D fun s => m (.data s) (shift x K.d 1)))

/-- The scheme at a point: with a sensor the cut-off is that of the point. -/
noncomputable def Input.schemeAt (K : Input D n) (I : Interp D) (m : Mem D) (x : P D) : Llf.Scheme :=
  match K.C.scheme, K.sensor with
  | .teno o eps _, some e => .teno o eps (Teno.adaptiveCT (I.const "teno_a1") (I.const "teno_a2") (e.eval I m x))
  | s, _ => s

/-! ## Averages -/

section
variable {S : Sympy D} (hS : S.Sound I)
include hS

theorem gammaMap_eval {K : Input D n} (hK : K.Ok I) {t : Term Var D} {σ : Var → ℝ} (h : t.Regular I m d x σ) : (S.gamma t).eval I m d x σ = t.eval I m d x σ := hS.gamma hK.gamma m d x σ t h

theorem simple_phase {K : Input D n} (hK : K.Ok I) (ts : List String) (σ : Var → ℝ) {t : String} (ht : t ∈ ts) :
    run I m d x ((simpleEqs S ts).map fun q => (q.1, S.gamma q.2)) σ (.avg t) = simpleAvg (fun s => m (.data s) x) (fun s => m (.data s) (shift x d 1)) t := by
  refine run_value (g := fun v => match v with | Var.avg t => simpleAvg (fun s => m (.data s) x) (fun s => m (.data s) (shift x d 1)) t | _ => 0) ?_ ?_
  · intro q hq σ' _
    simp only [simpleEqs, List.map_map, List.mem_map, Function.comp] at hq
    obtain ⟨u, hu, rfl⟩ := hq
    obtain ⟨r, e⟩ := hS.factor m d x σ' (.mul (.add (left u) (right u)) (.num (1/2))) ⟨⟨trivial, trivial⟩, trivial⟩
    simp only
    rw [gammaMap_eval hS hK r, e]
    simp only [Term.eval, left, right, Ex.eval, shift_zero, simpleAvg, Llf.simpleAverage]
    ring
  · simp only [simpleEqs, List.map_map, List.mem_map, Function.comp]
    exact ⟨t, ht, rfl⟩

omit hS in
theorem simple_frame (ts : List String) (σ : Var → ℝ) {v : Var} (hv : ∀ t ∈ ts, v ≠ .avg t) : run I m d x ((simpleEqs S ts).map fun q => (q.1, S.gamma q.2)) σ v = σ v := by
  refine run_frame ?_
  simp only [simpleEqs, List.map_map, List.mem_map, Function.comp, not_exists, not_and]
  exact fun t ht e => hv t ht e.symm

/-- Roe's average. -/
theorem roe_phase {K : Input D n} (hK : K.Ok I) (ts : List String) (σ : Var → ℝ) (h0 : 0 < m (.data "rho") x) (h1 : 0 < m (.data "rho") (shift x d 1))
    (ha : 0 ≤ (I.const "gama" - 1) * (Llf.roeH (primOf D fun s => m (.data s) x) (primOf D fun s => m (.data s) (shift x d 1)) -
      Llf.roeKE (primOf D fun s => m (.data s) x) (primOf D fun s => m (.data s) (shift x d 1)))) {t : String} (ht : t ∈ ts) :
    run I m d x ((roeEqs S ts).map fun q => (q.1, S.gamma q.2)) σ (.avg t) = roeAvg D (I.const "gama") (fun s => m (.data s) x) (fun s => m (.data s) (shift x d 1)) t := by
  set l : String → ℝ := fun s => m (.data s) x with hl
  set r : String → ℝ := fun s => m (.data s) (shift x d 1) with hr
  have sl : 0 < Real.sqrt (l "rho") := Real.sqrt_pos.2 h0
  have sr : 0 < Real.sqrt (r "rho") := Real.sqrt_pos.2 h1
  unfold roeEqs
  simp only [List.map_append, run_append]
  -- density and inverse factor
  set σ1 := run I m d x ([(Var.avg "rho", Term.sqrt (.mul (left "rho") (right "rho"))), (.roeInv, .inv (.add (.sqrt (right "rho")) (.sqrt (left "rho"))))].map fun q => (q.1, S.gamma q.2)) σ with e1
  have g1 : ∀ σ' : Var → ℝ, (S.gamma (Term.sqrt (.mul (left "rho") (right "rho")))).eval I m d x σ' = Llf.roeRho (primOf D l) (primOf D r) := fun σ' => by
    rw [gammaMap_eval hS hK]
    · simp only [Term.eval, left, right, Ex.eval, shift_zero, Llf.roeRho, primOf, hl, hr]
    · refine ⟨⟨trivial, trivial⟩, ?_⟩
      simp only [Term.eval, left, right, Ex.eval, shift_zero]
      exact (mul_pos h0 h1).le
  have g2 : ∀ σ' : Var → ℝ, (S.gamma (Term.inv (.add (.sqrt (right "rho")) (.sqrt (left "rho"))))).eval I m d x σ' = Llf.roeInv (primOf D l) (primOf D r) := fun σ' => by
    rw [gammaMap_eval hS hK]
    · simp only [Term.eval, left, right, Ex.eval, shift_zero, Llf.roeInv, primOf, hl, hr]
    · refine ⟨⟨⟨trivial, ?_⟩, trivial, ?_⟩, ?_⟩ <;> simp only [Term.eval, left, right, Ex.eval, shift_zero]
      · exact h1.le
      · exact h0.le
      · exact (add_pos sr sl).ne'
  have a1 : σ1 (.avg "rho") = Llf.roeRho (primOf D l) (primOf D r) := by
    rw [e1]; simp only [List.map_cons, List.map_nil, run, List.foldl_cons, List.foldl_nil]
    rw [Function.update_of_ne (by simp), Function.update_self, g1]
  have a2 : σ1 .roeInv = Llf.roeInv (primOf D l) (primOf D r) := by
    rw [e1]; simp only [List.map_cons, List.map_nil, run, List.foldl_cons, List.foldl_nil]
    rw [Function.update_self, g2]
  -- velocities
  set us : List (Var × Term Var D) := ((List.finRange D).map fun i => (Var.avg s!"u{i.val}", Term.mul (.add (.mul (.sqrt (left "rho")) (left s!"u{i.val}")) (.mul (.sqrt (right "rho")) (right s!"u{i.val}"))) (.var .roeInv))) with hus
  set σ2 := run I m d x (us.map fun q => (q.1, S.gamma q.2)) σ1 with e2
  have roeU_avg : ∀ i : Fin D, roeAvg D (I.const "gama") l r s!"u{i.val}" = Llf.roeU (primOf D l) (primOf D r) i := fun i => by
    rw [(C78_roe_average D (I.const "gama") l r).2.1 i]
    simp only [Llf.roeU, Llf.roeInv, primOf, div_eq_mul_inv]
    rw [add_comm (Real.sqrt (r "rho"))]
  have hnames : ∀ v, v ∈ (us.map fun q => (q.1, S.gamma q.2)).map Prod.fst ↔ ∃ i : Fin D, v = .avg s!"u{i.val}" := fun v => by
    rw [hus]
    simp only [List.map_map, List.mem_map, List.mem_finRange, true_and, Function.comp]
    exact ⟨fun ⟨i, h⟩ => ⟨i, h.symm⟩, fun ⟨i, h⟩ => ⟨i, h.symm⟩⟩
  have b1 : ∀ i : Fin D, σ2 (.avg s!"u{i.val}") = Llf.roeU (primOf D l) (primOf D r) i := fun i => by
    rw [← roeU_avg i, e2]
    refine run_value (g := fun v => match v with | Var.avg t => roeAvg D (I.const "gama") l r t | _ => 0) ?_ ((hnames _).2 ⟨i, rfl⟩)
    intro q hq σ' hσ
    have hq' := hq
    rw [hus, List.map_map, List.mem_map] at hq'
    obtain ⟨j, _, rfl⟩ := hq'
    simp only [Function.comp]
    rw [gammaMap_eval hS hK]
    · rw [roeU_avg j]
      simp only [Term.eval, left, right, Ex.eval, shift_zero, Llf.roeU, primOf, hl, hr]
      rw [hσ .roeInv (by rw [hnames]; simp), a2]
      simp only [Llf.roeInv, primOf, hl, hr]
    · refine ⟨⟨⟨⟨trivial, ?_⟩, trivial⟩, ⟨trivial, ?_⟩, trivial⟩, trivial⟩ <;> simp only [Term.eval, left, right, Ex.eval, shift_zero]
      · exact h0.le
      · exact h1.le
  have f2 : ∀ v, (∀ i : Fin D, v ≠ .avg s!"u{i.val}") → σ2 v = σ1 v := fun v hv => run_frame (by rw [hnames]; push Not; exact hv)
  -- speed of sound
  set σ3 := run I m d x ([(Var.avg "a", Term.sqrt (.mul (.add (.const "gama") (.num (-1))) (.add roeHTerm (.mul (.num (-1)) (S.factor (roeKETerm D))))))].map fun q => (q.1, S.gamma q.2)) σ2 with e3
  have ke : (S.factor (roeKETerm D)).Regular I m d x σ2 ∧ (S.factor (roeKETerm D)).eval I m d x σ2 = Llf.roeKE (primOf D l) (primOf D r) := by
    obtain ⟨p, q⟩ := hS.factor m d x σ2 (roeKETerm D) ⟨trivial, (regular_sum _ _).2 fun t ht => by
      simp only [List.mem_map] at ht
      obtain ⟨i, _, rfl⟩ := ht
      trivial⟩
    refine ⟨p, ?_⟩
    rw [q]
    simp only [roeKETerm, Term.eval, eval_sum, List.map_map, Llf.roeKE]
    rw [← List.sum_ofFn, List.ofFn_eq_map]
    congr 2
    refine List.map_congr_left fun i _ => ?_
    simp only [Function.comp, Term.eval, b1 i]
  have he : (roeHTerm : Term Var D).Regular I m d x σ2 ∧ (roeHTerm : Term Var D).eval I m d x σ2 = Llf.roeH (primOf D l) (primOf D r) := by
    refine ⟨⟨⟨⟨⟨trivial, ?_⟩, ⟨trivial, trivial⟩, trivial, ?_⟩, ⟨trivial, ?_⟩, ⟨trivial, trivial⟩, trivial, ?_⟩, trivial⟩, ?_⟩ <;>
      simp only [roeHTerm, Term.eval, left, right, Ex.eval, shift_zero]
    · exact h0.le
    · exact h0.ne'
    · exact h1.le
    · exact h1.ne'
    · rw [f2 .roeInv (by simp), a2]
      simp only [Llf.roeH, Llf.enthalpy, primOf, div_eq_mul_inv, hl, hr]
  have c1 : σ3 (.avg "a") = Llf.roeA (I.const "gama") (primOf D l) (primOf D r) := by
    rw [e3, List.map_cons, List.map_nil, run_one, if_pos rfl, gammaMap_eval hS hK]
    · simp only [Term.eval, he.2, ke.2, Llf.roeA]
      congr 1; ring
    · refine ⟨⟨⟨trivial, trivial⟩, he.1, trivial, ke.1⟩, ?_⟩
      simp only [Term.eval, he.2, ke.2]
      refine ha.trans (le_of_eq ?_)
      ring
  have f3 : ∀ v, v ≠ .avg "a" → σ3 v = σ2 v := fun v hv => by rw [e3, List.map_cons, List.map_nil, run_one, if_neg hv]
  -- metric terms
  by_cases hm : t ∈ metricTerms D ts
  · rw [simple_phase hS hK _ _ hm]
    have hm' := (List.mem_filter.1 hm).2
    simp only [decide_eq_true_eq] at hm'
    rw [(C78_roe_average D (I.const "gama") l r).2.2.2 t hm'.1 hm'.2.1 hm'.2.2]
    rfl
  · rw [simple_frame _ _ fun u hu e => hm (by cases e; exact hu)]
    have hm' : t = "rho" ∨ t = "a" ∨ ∃ i : Fin D, t = s!"u{i.val}" := by
      by_contra hc
      push Not at hc
      exact hm (List.mem_filter.2 ⟨ht, by simpa using hc⟩)
    by_cases t1 : t = "a"
    · subst t1
      rw [c1, roeAvg, if_neg (by decide), if_pos rfl]
    rw [f3 _ (by simpa using t1)]
    rcases hm' with rfl | rfl | ⟨i, rfl⟩
    · rw [f2 _ (fun i e => (velocity_ne i.val).1 (Var.avg.inj e).symm), a1, roeAvg, if_pos rfl]
    · exact absurd rfl t1
    · rw [b1 i, roeU_avg i]

end

end OpenSBLI.Recon
