import Verif.Lemmas.ReconStore

/-!
# What the kernel stores: helper lemmas for C81
-/
namespace OpenSBLI.Recon
open Sim Weno

variable {D n : ℕ} {I : Interp D} {m : Mem D} {x : P D} {S : Sympy D} {K : Input D n}

/-- Split fluxes. -/
noncomputable def Input.splitVal (K : Input D n) (I : Interp D) (m : Mem D) (x : P D) (side : Side) (i : Fin n) (p : ℤ) : ℝ :=
  match side with
  | .right => Llf.positive (K.cfVal I m x i p) (K.csVal I m x i p) (K.lamVal I m x i)
  | .left => Llf.negative (K.cfVal I m x i p) (K.csVal I m x i p) (K.lamVal I m x i)

theorem entry_eval (hS : S.Sound I) {σ : Var → ℝ} (h : K.After I m x σ) {σ' : Var → ℝ} (hσ : ∀ v, ¬ Scratch v → σ' v = σ v) (side : Side) (i : Fin n) (p : ℤ) :
    (K.entry S side i p).eval I m K.d x σ' = if p ∈ K.C.scheme.funcPoints side then K.splitVal I m x side i p else 0 := by
  unfold Input.entry
  split
  · next hp =>
    have hp' : p ∈ K.pts := Llf.mem_stencilPoints _ side p hp
    have hj : K.pts.idxOf p < K.pts.length := List.idxOf_lt_length_of_mem hp'
    have e1 : σ' (.cf i (K.pts.idxOf p)) = K.cfVal I m x i p := by rw [hσ _ id, h.cf i _ hj, List.getElem_idxOf]
    have e2 : σ' (.cs i (K.pts.idxOf p)) = K.csVal I m x i p := by rw [hσ _ id, h.cs i _ hj, List.getElem_idxOf]
    obtain ⟨r, e3⟩ := lamVar_eval (I := I) (m := m) (x := x) (K := K) (σ := σ') (fun i => by rw [hσ _ id, h.lam i]) i
    cases side with
    | right =>
      simp only [Input.split]
      rw [(hS.factor m K.d x σ' (.mul (.num (1/2)) (.add (.var (.cf i (K.pts.idxOf p))) (.mul (K.lamVar i) (.var (.cs i (K.pts.idxOf p)))))) ⟨trivial, trivial, r, trivial⟩).2]
      simp only [Term.eval, e1, e2, e3, Input.splitVal, Llf.positive]
    | left =>
      simp only [Input.split]
      rw [(hS.factor m K.d x σ' (.mul (.num (1/2)) (.add (.var (.cf i (K.pts.idxOf p))) (.mul (.num (-1)) (.mul (K.lamVar i) (.var (.cs i (K.pts.idxOf p))))))) ⟨trivial, trivial, trivial, r, trivial⟩).2]
      simp only [Term.eval, e1, e2, e3, Input.splitVal, Llf.negative]
      ring
  · rfl

theorem schemeAt_cases : (∃ form k dz w, K.C.scheme = .weno form k dz w ∧ K.schemeAt I m x = .weno form k dz w) ∨
    ∃ o eps CT CT', K.C.scheme = .teno o eps CT ∧ K.schemeAt I m x = .teno o eps CT' ∧ ((K.sensor = none ∧ CT' = CT) ∨
      ∃ e, K.sensor = some e ∧ CT' = Teno.adaptiveCT (I.const "teno_a1") (I.const "teno_a2") (e.eval I m x)) := by
  unfold Input.schemeAt
  cases hs : K.C.scheme with
  | weno form k dz w => exact .inl ⟨form, k, dz, w, rfl, rfl⟩
  | teno o eps CT =>
    refine .inr ?_
    cases he : K.sensor with
    | none => exact ⟨o, eps, CT, CT, rfl, rfl, .inl ⟨rfl, rfl⟩⟩
    | some e => exact ⟨o, eps, CT, _, rfl, rfl, .inr ⟨e, rfl, rfl⟩⟩

theorem recipe_run (hS : S.Sound I) (hK : K.Ok I) {σ0 : Var → ℝ} (h : K.After I m x σ0) {f : Side → Fin n → List (Var × Term Var D)} (hf : K.recipe S = some f) (side : Side) (i : Fin n) {σ : Var → ℝ}
    (hσ : ∀ v, ¬ Scratch v → σ v = σ0 v) :
    run I m K.d x (f side i) σ (.recon i) = σ (.recon i) + (K.schemeAt I m x).recon side (K.splitVal I m x side i) ∧
    ∀ v, (¬ Scratch v ∨ ∃ j : ℕ, j ≠ i.val ∧ v = .recon j) → run I m K.d x (f side i) σ v = σ v := by
  have hF : ∀ p σ', (∀ v, ¬ Scratch v → σ' v = σ v) → (K.entry S side i p).eval I m K.d x σ' = if p ∈ K.C.scheme.funcPoints side then K.splitVal I m x side i p else 0 := fun p σ' h' =>
    entry_eval hS h (fun v hv => by rw [h' v hv, hσ v hv]) side i p
  unfold Input.recipe at hf
  rcases schemeAt_cases (K := K) (I := I) (m := m) (x := x) with ⟨form, k, dz, w, e1, e2⟩ | ⟨o, eps, CT, CT', e1, e2, hct⟩
  · rw [e1] at hf hF
    simp only [Option.map_eq_some_iff] at hf
    obtain ⟨alpha, ha, rfl⟩ := hf
    obtain ⟨hk, _⟩ := hK.weno form k dz w e1
    refine ⟨?_, fun v hv => weno_frame hv⟩
    obtain ⟨A, hA, hev⟩ := alpha_eval (I := I) (m := m) (d := K.d) (x := x) ha (w side)
      (fun r => Weno.beta side k r dz fun p => if p ∈ (Llf.Scheme.weno form k dz w).funcPoints side then K.splitVal I m x side i p else 0)
    rw [weno_run hF (A := A) (fun r hr σ' hσ' => hev r hr σ' hσ'), e2, Llf.Scheme.recon]
    congr 1
    rw [← Llf.wenoReconstruct_congr form side k hk dz (w side) (fun p => if p ∈ (Llf.Scheme.weno form k dz w).funcPoints side then K.splitVal I m x side i p else 0) (K.splitVal I m x side i)]
    · rw [wenoReconstruct, hA]; rfl
    · intro r hr j hj
      rw [if_pos]
      simp only [Llf.Scheme.funcPoints, Finset.mem_biUnion, Finset.mem_image, Finset.mem_range]
      exact ⟨r, hr, j, hj, rfl⟩
  · rw [e1] at hf hF
    simp only [Option.some.injEq] at hf
    subst hf
    refine ⟨?_, fun v hv => teno_frame hv⟩
    have hc : ∀ σ', (∀ v, ¬ Scratch v → σ' v = σ v) → K.ctTerm.eval I m K.d x σ' = CT' := fun σ' h' => by
      rcases hct with ⟨hn, rfl⟩ | ⟨e, he, rfl⟩
      · simp only [Input.ctTerm, hn, Option.isSome_none, Bool.false_eq_true, if_false, Term.eval]
        exact hK.ct o eps CT' e1 hn
      · simp only [Input.ctTerm, he, Option.isSome_some, if_true, Term.eval]
        rw [h' _ id, hσ _ id, h.ct e he]
    rw [teno_run hF hc, e2, Llf.Scheme.recon, hK.eps o eps CT e1]
    congr 1
    refine Llf.tenoReconstruct_congr o side eps CT' _ _ fun r hr p hp => ?_
    rw [if_pos]
    simp only [Llf.Scheme.funcPoints, Finset.mem_biUnion, List.mem_toFinset, Finset.mem_range]
    exact ⟨r, hr, hp⟩

theorem recipe_some (hK : K.Ok I) : ∃ f, K.recipe S = some f := by
  unfold Input.recipe
  cases hs : K.C.scheme with
  | teno o eps CT => exact ⟨_, rfl⟩
  | weno form k dz w =>
    obtain ⟨h2, h7⟩ := hK.weno form k dz w hs
    cases form with
    | JS => exact ⟨_, rfl⟩
    | Z =>
      have h7 := h7 rfl
      have hk : k = 2 ∨ k = 3 ∨ k = 4 ∨ k = 5 ∨ k = 6 ∨ k = 7 := by omega
      rcases hk with rfl | rfl | rfl | rfl | rfl | rfl <;> exact ⟨_, rfl⟩

/-- What is left in `Recon_i`. -/
noncomputable def Input.reconVal (K : Input D n) (I : Interp D) (m : Mem D) (x : P D) (i : Fin n) : ℝ :=
  0 + (K.schemeAt I m x).recon .right (K.splitVal I m x .right i) + (K.schemeAt I m x).recon .left (K.splitVal I m x .left i)

theorem interp_phase (hS : S.Sound I) (hK : K.Ok I) {σ0 : Var → ℝ} (h : K.After I m x σ0) {f : Side → Fin n → List (Var × Term Var D)} (hf : K.recipe S = some f) (l : List (Fin n)) (hl : l.Nodup) (σ : Var → ℝ)
    (hσ : ∀ v, ¬ Scratch v → σ v = σ0 v) (h0 : ∀ i ∈ l, σ (.recon i) = 0) :
    (∀ i ∈ l, run I m K.d x (l.flatMap fun i => f .right i ++ f .left i) σ (.recon i) = K.reconVal I m x i) ∧
    ∀ v, (¬ Scratch v ∨ ∃ j : ℕ, (∀ i ∈ l, j ≠ i.val) ∧ v = .recon j) → run I m K.d x (l.flatMap fun i => f .right i ++ f .left i) σ v = σ v := by
  induction l generalizing σ with
  | nil => exact ⟨by simp, fun v _ => rfl⟩
  | cons i l ih =>
    simp only [List.flatMap_cons, run_append]
    obtain ⟨v1, f1⟩ := recipe_run hS hK h hf .right i hσ
    set σ1 := run I m K.d x (f .right i) σ with e1
    have hσ1 : ∀ v, ¬ Scratch v → σ1 v = σ0 v := fun v hv => by rw [f1 v (.inl hv), hσ v hv]
    obtain ⟨v2, f2⟩ := recipe_run hS hK h hf .left i hσ1
    set σ2 := run I m K.d x (f .left i) σ1 with e2
    have hσ2 : ∀ v, ¬ Scratch v → σ2 v = σ0 v := fun v hv => by rw [f2 v (.inl hv), hσ1 v hv]
    obtain ⟨hi, hl⟩ := List.nodup_cons.1 hl
    obtain ⟨ihv, ihf⟩ := ih hl σ2 hσ2 fun j hj => by
      have hne : j.val ≠ i.val := fun e => hi (Fin.ext e ▸ hj)
      rw [f2 _ (.inr ⟨j, hne, rfl⟩), f1 _ (.inr ⟨j, hne, rfl⟩), h0 j (by simp [hj])]
    refine ⟨fun j hj => ?_, fun v hv => ?_⟩
    · rcases List.mem_cons.1 hj with rfl | hj
      · rw [ihf _ (.inr ⟨j, fun k hk e => hi (Fin.ext e ▸ hk), rfl⟩), v2, v1, h0 j (by simp)]
        rfl
      · exact ihv j hj
    · rcases hv with hv | ⟨j, hj, rfl⟩
      · rw [ihf v (.inl hv), f2 v (.inl hv), f1 v (.inl hv)]
      · rw [ihf _ (.inr ⟨j, fun k hk => hj k (by simp [hk]), rfl⟩), f2 _ (.inr ⟨j, hj i (by simp), rfl⟩), f1 _ (.inr ⟨j, hj i (by simp), rfl⟩)]

theorem line_LEV (i j : Fin n) : (K.C.line I m K.d x).LEV 0 i j = K.levVal I m x i j := by
  simp only [Shock.line, Matrix.of_apply, shift_zero, zero_add]
  rfl

theorem stencil_at : (K.schemeAt I m x).stencilPoints = K.pts := by
  unfold Input.pts
  rcases schemeAt_cases (K := K) (I := I) (m := m) (x := x) with ⟨form, k, dz, w, e1, e2⟩ | ⟨o, eps, CT, CT', e1, e2, _⟩
  · rw [e1, e2]
  · rw [e1, e2]; rfl

theorem reconVal_eq (i : Fin n) : K.reconVal I m x i = Llf.characteristic (K.schemeAt I m x) (K.C.line I m K.d x) 0 i := by
  unfold Input.reconVal Llf.characteristic
  have h1 : ∀ p, (Matrix.mulVec ((K.C.line I m K.d x).LEV 0) ((K.C.line I m K.d x).f (0 + p))) i = K.cfVal I m x i p := fun p => by
    simp only [Matrix.mulVec, dotProduct, line_LEV, zero_add]; rfl
  have h2 : ∀ p, (Matrix.mulVec ((K.C.line I m K.d x).LEV 0) ((K.C.line I m K.d x).q (0 + p))) i = K.csVal I m x i p := fun p => by
    simp only [Matrix.mulVec, dotProduct, line_LEV, zero_add]; rfl
  have h3 : Llf.maxWave (K.schemeAt I m x).stencilPoints (fun p => (K.C.line I m K.d x).ev (0 + p) i) = K.lamVal I m x i := by
    rw [stencil_at]; simp only [zero_add]; rfl
  simp only [h1, h2, h3]
  rfl

/-- The value stored, with variables not yet identified by name. -/
theorem value (hS : S.Sound I) (hK : K.Ok I) (hx : K.RegularAt I m x) : ∃ l, K.eqs S = some l ∧
    ∀ i, (K.out S i).eval I m K.d x (run I m K.d x l fun _ => 0) = Llf.interfaceFlux (K.schemeAt I m x) (K.C.line I m K.d x) 0 i := by
  obtain ⟨f, hf⟩ := recipe_some (S := S) hK
  refine ⟨_, by rw [Input.eqs, Input.interp, hf]; rfl, fun i => ?_⟩
  rw [run_append]
  have h := pre_phase hS hK hx
  set σ0 := run I m K.d x (K.pre S ++ K.ctEqs) fun _ => 0
  obtain ⟨hv, hfr⟩ := interp_phase hS hK h hf (List.finRange n) (List.nodup_finRange n) σ0 (fun _ _ => rfl) (fun i _ => h.recon i)
  set σ := run I m K.d x ((List.finRange n).flatMap fun i => f .right i ++ f .left i) σ0
  have hA : K.Averages I m x σ := h.averages.congr fun v hv => hfr v (.inl (by cases v <;> first | exact id | exact hv.elim))
  have hr : ∀ j, ((avgTerm (K.C.rev K.d i j)).replaceAll K.inverses).Regular I m K.d x σ ∧ ((avgTerm (K.C.rev K.d i j)).replaceAll K.inverses).eval I m K.d x σ = (K.C.rev K.d i j).eval I (K.mean m x) x := fun j => by
    obtain ⟨r, e⟩ := rev_avg hA hK hx i j
    obtain ⟨r', e'⟩ := replaceAll_spec K.inverses (fun q hq => ⟨not_num hK q hq, hA.inv q hq⟩) _ r
    exact ⟨r', e'.trans e⟩
  unfold Input.out
  rw [gammaMap_eval hS hK]
  · rw [eval_sum, List.map_map, Llf.interfaceFlux, Matrix.mulVec, dotProduct, ← sum_finRange]
    congr 1
    refine List.map_congr_left fun j hj => ?_
    simp only [Function.comp, Term.eval, (hr j).2]
    rw [hv j hj, reconVal_eq]
    simp only [Shock.line, Matrix.of_apply, shift_zero, zero_add]
    rfl
  · refine (regular_sum _ _).2 fun t ht => ?_
    simp only [List.mem_map] at ht
    obtain ⟨j, _, rfl⟩ := ht
    exact ⟨(hr j).1, trivial⟩

end OpenSBLI.Recon
