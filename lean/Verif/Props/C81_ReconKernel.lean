import Verif.Lemmas.ReconNames

/-!
# C81: the equations of the reconstruction kernel
-/
namespace OpenSBLI.Recon
open Sim Weno

variable {D n : ℕ}

/-! ## Values -/

/-- C81: the equations generated for a direction, executed in their order from variables which are all `0.0`, leave in the work arrays the interface fluxes: for every scheme, averaging procedure, number of components up to ten, whatever
expressions SymPy makes of the right hand sides as long as their values are kept, and every state without singular powers. With the adaptive TENO scheme the cut-off is the one of the point. -/
theorem C81_kernel (K : Input D n) (S : Sympy D) (I : Interp D) (hS : S.Sound I) (hK : K.Ok I) (hN : K.Named) (m : Mem D) (x : P D) (hx : K.RegularAt I m x) :
    K.stored S I m x = some (Llf.interfaceFlux (K.schemeAt I m x) (K.C.line I m K.d x) 0) := by
  obtain ⟨l, hl, hv⟩ := value hS hK hx
  have hok := eqs_ok hS hN hl
  rw [Input.stored, hl]
  simp only [Option.map_some, Option.some.injEq]
  funext i
  rw [← hv i, eval_map]
  refine eval_congr fun v hv => ?_
  exact run_map (s := Allowed) (fun v w h h' => name_inj K.d h h') l hok _ _ (fun _ _ => rfl) v (out_ok hS hN i v hv)

/-- C81: without a sensor these are the fluxes of the program of C78. -/
theorem C81_interface (K : Input D n) (S : Sympy D) (I : Interp D) (hS : S.Sound I) (hK : K.Ok I) (hN : K.Named) (hs : K.sensor = none) (m : Mem D) (x : P D) (hx : K.RegularAt I m x) :
    K.stored S I m x = some (K.C.interface I m K.d x) := by
  rw [C81_kernel K S I hS hK hN m x hx, Shock.interface]
  congr 2
  unfold Input.schemeAt
  rw [hs]
  cases K.C.scheme <;> rfl

theorem exRegular_congr {I : Interp D} {m m' : Mem D} {x : P D} (e : Ex D) (h : ∀ a ∈ e.arrs, m a = m' a) (hr : exRegular I m e x) : exRegular I m' e x := by
  induction e with
  | num | const | indexed | arr | cd => trivial
  | add a b ha hb | mul a b ha hb => exact ⟨ha (fun c hc => h c (by simp [Ex.arrs, hc])) hr.1, hb (fun c hc => h c (by simp [Ex.arrs, hc])) hr.2⟩
  | fn f a ha => exact ha h hr
  | pow a b ha hb =>
    refine ⟨ha (fun c hc => h c (by simp [Ex.arrs, hc])) hr.1, hb (fun c hc => h c (by simp [Ex.arrs, hc])) hr.2.1, ?_⟩
    rw [← Sim.eval_congr a fun c hc => h c (by simp [Ex.arrs, hc])]
    exact hr.2.2

/-- Regularity concerns datasets only. -/
theorem regular_congr {K : Input D n} {I : Interp D} (hC : K.C.Core) (hd : K.d ∈ K.C.dirs) {m m' : Mem D} (h : ∀ s, m (.data s) = m' (.data s)) {x : P D} (hr : K.RegularAt I m x) : K.RegularAt I m' x := by
  have hp : ∀ (e : Ex D) y, e.plain → exRegular I m e y → exRegular I m' e y := fun e y he => exRegular_congr e fun a ha => by
    obtain ⟨s, rfl⟩ := he a ha
    exact h s
  have hav : ∀ (e : Ex D), e.plain → exRegular I (K.mean m x) e x → exRegular I (K.mean m' x) e x := fun e he => exRegular_congr e fun a ha => by
    obtain ⟨s, rfl⟩ := he a ha
    simp only [Input.mean, averaged, h]
  refine ⟨fun i p hp' => hp _ _ (hC.flux _ hd i).1 (hr.flux i p hp'), fun i p hp' => hp _ _ (hC.ev _ hd i).1 (hr.ev i p hp'), fun i j => hav _ (hC.lev _ hd i j).1 (hr.lev i j),
    fun i j => hav _ (hC.rev _ hd i j).1 (hr.rev i j), fun hroe => ?_⟩
  have := hr.roe hroe
  simp only [h] at this
  exact this

/-- C81: the loop over the points of the kernel, in any order: the arrays after it are those of the program of C78. -/
theorem C81_loop (K : Input D n) (S : Sympy D) (I : Interp D) (hS : S.Sound I) (hK : K.Ok I) (hN : K.Named) (hs : K.sensor = none) (hC : K.C.Core) (hd : K.d ∈ K.C.dirs) {pts : Ranges.Kernel D → List (P D)}
    (hp : Enumerates pts) (m : Mem D) (hx : ∀ x, (K.C.reconKernel K.d).range.visits x → K.RegularAt I m x) : runFn I pts (K.kernel S) m = runFn I pts (K.C.reconKernel K.d) m := by
  unfold runFn
  have hmem : ∀ x ∈ pts (K.C.reconKernel K.d).range, (K.C.reconKernel K.d).range.visits x := fun x hx => ((hp _).2 x).1 hx
  have key : ∀ (l : List (Fin n)) (x : P D), (K.C.reconKernel K.d).range.visits x → ∀ m' : Mem D, (∀ s, m (.data s) = m' (.data s)) →
      (l.map fun i : Fin n => (Arr.work (K.C.reconWork K.d i), fun (I : Interp D) (m : Mem D) x => match K.stored S I m x with | some v => v i | none => 0)).foldl (fun (m : Mem D) q => m.set q.1 x (q.2 I m x)) m' =
        (l.map fun i : Fin n => (Arr.work (K.C.reconWork K.d i), fun (I : Interp D) (m : Mem D) x => K.C.interface I m K.d x i)).foldl (fun (m : Mem D) q => m.set q.1 x (q.2 I m x)) m' ∧
      ∀ s, m (.data s) = (l.map fun i : Fin n => (Arr.work (K.C.reconWork K.d i), fun (I : Interp D) (m : Mem D) x => K.C.interface I m K.d x i)).foldl (fun (m : Mem D) q => m.set q.1 x (q.2 I m x)) m' (.data s) := by
    intro l x hvx
    induction l with
    | nil => exact fun m' h => ⟨rfl, h⟩
    | cons i l ih =>
      intro m' h
      simp only [List.map_cons, List.foldl_cons]
      rw [C81_interface K S I hS hK hN hs m' x (regular_congr hC hd h (hx x hvx))]
      exact ih _ fun s => by
        rw [h s]
        funext y
        simp [Mem.set]
  have : ∀ (l : List (P D)), (∀ x ∈ l, (K.C.reconKernel K.d).range.visits x) → ∀ m' : Mem D, (∀ s, m (.data s) = m' (.data s)) →
      l.foldl (fun m x => (K.kernel S).eqs.foldl (fun m q => m.set q.1 x (q.2 I m x)) m) m' = l.foldl (fun m x => (K.C.reconKernel K.d).eqs.foldl (fun m q => m.set q.1 x (q.2 I m x)) m) m' := by
    intro l
    induction l with
    | nil => exact fun _ _ _ => rfl
    | cons x l ih =>
      intro hl m' h
      obtain ⟨e, hs'⟩ := key (List.finRange n) x (hl x (by simp)) m' h
      simp only [List.foldl_cons]
      have e' : (K.kernel S).eqs.foldl (fun (m : Mem D) q => m.set q.1 x (q.2 I m x)) m' = (K.C.reconKernel K.d).eqs.foldl (fun (m : Mem D) q => m.set q.1 x (q.2 I m x)) m' := e
      rw [e']
      exact ih (fun y hy => hl y (by simp [hy])) _ hs'
  exact this _ hmem m fun _ => rfl

/-! ## Dictionaries -/

/-- C81: the equations of a WENO reconstruction use only function points of its class, which are keys of its dictionary. -/
theorem C81_points_weno (form : Formulation) (w : Side → ℕ → ℝ) (alpha : ℕ → Term Var D) (side : Side) (k : ℕ) (hk : 2 ≤ k) (dz : ℝ) (i : ℕ) (f g : ℤ → Term Var D)
    (h : ∀ p ∈ (Llf.Scheme.weno form k dz w).funcPoints side, f p = g p) : wenoEqs alpha side k dz i f = wenoEqs alpha side k dz i g := by
  have h' : ∀ r < k, ∀ j < k, f (funcPoint side r j) = g (funcPoint side r j) := fun r hr j hj => h _ (by
    simp only [Llf.Scheme.funcPoints, Finset.mem_biUnion, Finset.mem_image, Finset.mem_range]
    exact ⟨r, hr, j, hj, rfl⟩)
  have hb : ∀ r ∈ List.range k, wenoBeta side k dz f r = wenoBeta side k dz g r := fun r hr => by
    unfold wenoBeta
    congr 1
    refine List.map_congr_left fun e he => ?_
    obtain ⟨h1, h2⟩ := C10_extraction_in_stencil k r hk dz e he
    have e1 := h' r (List.mem_range.1 hr) _ h1
    have e2 := h' r (List.mem_range.1 hr) _ h2
    unfold funcPoint at e1 e2
    rw [e1, e2]
  unfold wenoEqs
  congr 1
  · congr 3
    exact List.map_congr_left fun r hr => by rw [hb r hr]
  · congr 4
    refine List.map_congr_left fun r hr => ?_
    congr 2
    exact List.map_congr_left fun j hj => by rw [h' r (List.mem_range.1 hr) j (List.mem_range.1 hj)]

/-- C81: so do those of a TENO reconstruction. -/
theorem C81_points_teno (o : Teno.Order) (eps CT : ℝ) (ct : Term Var D) (side : Side) (i : ℕ) (f g : ℤ → Term Var D) (h : ∀ p ∈ (Llf.Scheme.teno o eps CT).funcPoints side, f p = g p) :
    tenoEqs o ct side i f = tenoEqs o ct side i g := by
  have h' : ∀ r < o.n, ∀ p ∈ Teno.points side r, f p = g p := fun r hr p hp => h _ (by
    simp only [Llf.Scheme.funcPoints, Finset.mem_biUnion, List.mem_toFinset, Finset.mem_range]
    exact ⟨r, hr, hp⟩)
  have hb : ∀ r ∈ List.range o.n, tenoBeta side f r = tenoBeta side g r := fun r hr => by
    have hr := List.mem_range.1 hr
    have hi := h' r hr
    have h4 := order_lt hr
    have : r = 0 ∨ r = 1 ∨ r = 2 ∨ r = 3 := by omega
    rcases this with rfl | rfl | rfl | rfl <;> cases side <;> simp [Teno.points] at hi <;> simp [tenoBeta, lin, hi]
  unfold tenoEqs
  congr 1
  · congr 4
    exact List.map_congr_left fun r hr => by rw [hb r hr]
  · congr 4
    refine List.map_congr_left fun r hr => ?_
    congr 2
    exact List.map_congr_left fun e he => by rw [h' r (List.mem_range.1 hr) e.1 (List.of_mem_zip he).1]

/-! ## Names -/

/-- C81: different variables of the kernel have different names, for fewer than eleven components, unless a dataset is called `inv_rho` or its name begins with a digit. -/
theorem C81_names (d : ℕ) (v w : Var) (hv : Allowed v) (hw : Allowed w) (h : v.name d = w.name d) : v = w := name_inj d hv hw h

/-- C81: with twelve components the second flux at the last point and the last flux at the second point of an order 13 WENO stencil share a variable; a dataset `inv_rho` shares one with Roe's factor. -/
theorem C81_names_collide (d : ℕ) : (Var.cf 1 11).name d = (Var.cf 11 1).name d ∧ (Var.avg "inv_rho").name d = Var.roeInv.name d ∧
    (Var.avg (toString d ++ "_LEV_00")).name d = (Var.lev 0 0).name d := by
  refine ⟨by simp only [Var.name]; decide, ?_, ?_⟩
  · simp only [Var.name]
    exact String.toList_injective (by simp)
  · simp only [Var.name]
    exact String.toList_injective (by simp)

/-! ## Unset variables -/

/-- C81: with simple averages and an eigensystem without density, as that of one dimension, the kernel divides by a variable which nothing assigns: `inv_AVG_rho = 1/AVG_0_rho` with `AVG_0_rho = 0.0`. -/
theorem C81_unset_average (K : Input D n) (S : Sympy D) (hr : K.roe = false) (ht : "rho" ∉ K.terms) (l : List (Var × Term Var D)) (hl : K.eqs S = some l) :
    (Var.invRho, Term.pow (.var (.avg "rho")) (.num (-1))) ∈ l ∧ ∀ q ∈ l, q.1 ≠ .avg "rho" := by
  simp only [Input.eqs, Input.interp, Option.map_map, Option.map_eq_some_iff, Function.comp] at hl
  obtain ⟨f, hf, rfl⟩ := hl
  refine ⟨?_, fun q hq e => ?_⟩
  · simp [Input.pre, Input.invEqs, Input.inverses]
  · simp only [Input.pre, List.map_append, List.mem_append] at hq
    have hg : ∀ (l : List (Var × Term Var D)), q ∈ l.map (fun q => (q.1, S.gamma q.2)) → q.1 ∈ (l.map fun q => (q.1, S.gamma q.2)).map Prod.fst := fun l h => List.mem_map_of_mem h
    rcases hq with (((hq | hq) | (hq | hq) | hq) | hq) | hq
    · simp only [Input.avgEqs, hr, Bool.false_eq_true, if_false, simpleEqs, List.map_map, List.mem_map, Function.comp] at hq
      obtain ⟨t, h, rfl⟩ := hq
      simp only [Var.avg.injEq] at e
      exact ht (e ▸ h)
    · simp only [Input.invEqs, List.mem_map] at hq
      obtain ⟨q', hq', rfl⟩ := hq
      exact (inverse_kind q' hq').2.1 (.inr ⟨_, e⟩)
    · obtain ⟨i, j, e'⟩ := lev_names _ (hg _ hq)
      rw [e] at e'; simp at e'
    · obtain ⟨i, j, e' | e'⟩ := char_names _ (hg _ hq) <;> (rw [e] at e'; simp at e')
    · have := hg _ hq
      rw [lam_names, List.mem_map] at this
      obtain ⟨r, hr, e'⟩ := this
      obtain ⟨i, hr⟩ := mem_lamAll.1 hr
      rw [emit_fst hr, e] at e'
      simp at e'
    · simp only [Input.ctEqs, List.mem_map] at hq
      obtain ⟨_, _, rfl⟩ := hq
      simp at e
    · simp only [List.mem_flatMap, List.mem_append] at hq
      obtain ⟨i, _, hq⟩ := hq
      have hrec : ∀ side i, ∀ q ∈ f side i, q.1 ≠ .avg "rho" := by
        intro side i q hq
        unfold Input.recipe at hf
        cases hs : K.C.scheme with
        | weno form k dz w =>
          rw [hs] at hf
          simp only [Option.map_eq_some_iff] at hf
          obtain ⟨al, _, rfl⟩ := hf
          simp only [wenoEqs, List.mem_append, List.mem_map, List.mem_singleton] at hq
          rcases hq with (((⟨r, _, rfl⟩ | ⟨r, _, rfl⟩) | rfl) | ⟨r, _, rfl⟩) | rfl <;> simp
        | teno o eps CT =>
          rw [hs] at hf
          simp only [Option.some.injEq] at hf
          subst hf
          simp only [tenoEqs, List.mem_append, List.mem_map, List.mem_singleton] at hq
          rcases hq with ((((⟨r, _, rfl⟩ | ⟨r, _, rfl⟩) | rfl) | ⟨r, _, rfl⟩) | rfl) | rfl <;> simp
      rcases hq with hq | hq
      · exact hrec _ _ q hq e
      · exact hrec _ _ q hq e

end OpenSBLI.Recon
