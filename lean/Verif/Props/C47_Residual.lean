import Verif.Model.Residual
import Mathlib.Tactic.Ring
import Mathlib.Tactic.NormNum
import Mathlib.Tactic.Linarith

/-!
# C47 Residuals
-/
namespace OpenSBLI.Res

/-- The specification: the sum of all discretised terms. -/
def Eqn.total (e : Eqn) : ℝ := (e.terms.map Term.value).sum

theorem sum_filter_split (l : List Term) (p : Term → Bool) (f : Term → ℝ) :
    ((l.filter fun t => !p t).map f).sum + ((l.filter p).map f).sum = (l.map f).sum := by
  induction l with
  | nil => simp
  | cons a l ih =>
    cases h : p a
    · simp only [List.filter_cons, h, Bool.not_false, if_true, Bool.false_eq_true, if_false, List.map_cons, List.sum_cons]
      linarith
    · simp only [List.filter_cons, h, Bool.not_true, if_true, Bool.false_eq_true, if_false, List.map_cons, List.sum_cons]
      linarith

theorem zipWith_map_map {α : Type} (l : List α) (f g : α → ℝ) : List.zipWith (· + ·) (l.map f) (l.map g) = l.map fun a => f a + g a := by
  induction l with
  | nil => rfl
  | cons a l ih => simp [ih]

theorem classified_of {e : Eqn} (h : e.shape ≠ .bare) : e.classified = e.terms := by
  cases hs : e.shape <;> simp_all [Eqn.classified]

theorem split_total (e : Eqn) (hs : e.shape ≠ .bare) (ht : ∀ t ∈ e.terms, t.weno = false ∧ t.other = false) : e.convective + e.viscous = e.total := by
  unfold Eqn.convective Eqn.viscous
  rw [classified_of hs, sum_filter_split, Eqn.total]
  congr 1
  refine List.map_congr_left fun t h => ?_
  simp [Term.forCentral, ht t h]

/-- C47, partial: central scheme alone, any number of equations and terms of central derivatives and plain expressions. If some term without `Re` has a derivative, and some
term with `Re` has a derivative whenever there are terms with `Re`, then every residual is the sum of the discretised terms, whatever it held before. Missing: the cases of the findings
below. -/
theorem C47_central_partial (eqs : List Eqn) (res : List ℝ) (hshape : ∀ e ∈ eqs, e.shape ≠ .bare)
    (hterms : ∀ e ∈ eqs, ∀ t ∈ e.terms, t.weno = false ∧ t.other = false)
    (hconv : ∃ e ∈ eqs, ∃ t ∈ e.terms, t.re = false ∧ t.central = true)
    (hvisc : (∃ e ∈ eqs, ∃ t ∈ e.terms, t.re = true) → ∃ e ∈ eqs, ∃ t ∈ e.terms, t.re = true ∧ t.central = true) :
    residual [.central] eqs res = eqs.map Eqn.total := by
  have hc : eqs.any (Eqn.hasCentral false) = true := by
    obtain ⟨e, he, t, ht, h1, h2⟩ := hconv
    rw [List.any_eq_true]
    refine ⟨e, he, ?_⟩
    rw [Eqn.hasCentral, classified_of (hshape e he), List.any_eq_true]
    exact ⟨t, ht, by simp [h1, h2, hterms e he t ht]⟩
  simp only [residual, List.foldl_cons, List.foldl_nil, centralPass, hc, if_true]
  by_cases hv : ∃ e ∈ eqs, ∃ t ∈ e.terms, t.re = true
  · have hc' : eqs.any (Eqn.hasCentral true) = true := by
      obtain ⟨e, he, t, ht, h1, h2⟩ := hvisc hv
      rw [List.any_eq_true]
      refine ⟨e, he, ?_⟩
      rw [Eqn.hasCentral, classified_of (hshape e he), List.any_eq_true]
      exact ⟨t, ht, by simp [h1, h2, hterms e he t ht]⟩
    rw [if_pos hc', zipWith_map_map]
    exact List.map_congr_left fun e he => split_total e (hshape e he) (hterms e he)
  · have hc' : eqs.any (Eqn.hasCentral true) = false := by
      rw [Bool.eq_false_iff]
      intro h
      rw [List.any_eq_true] at h
      obtain ⟨e, he, h⟩ := h
      rw [Eqn.hasCentral, classified_of (hshape e he), List.any_eq_true] at h
      obtain ⟨t, ht, h⟩ := h
      simp only [Bool.and_eq_true, beq_iff_eq] at h
      exact hv ⟨e, he, t, ht, h.1.1⟩
    rw [hc', if_neg (by simp)]
    refine List.map_congr_left fun e he => ?_
    rw [← split_total e (hshape e he) (hterms e he)]
    have : e.viscous = 0 := by
      have : e.classified.filter (fun t => t.re) = [] := by
        rw [classified_of (hshape e he), List.filter_eq_nil_iff]
        intro t ht h
        exact hv ⟨e, he, t, ht, h⟩
      simp [Eqn.viscous, this]
    rw [this, add_zero]

/-- C47: shock capturing scheme alone, terms of WENO derivatives and plain expressions: every residual is the sum of the discretised terms. -/
theorem C47_weno (eqs : List Eqn) (res : List ℝ) (hterms : ∀ e ∈ eqs, ∀ t ∈ e.terms, t.central = false ∧ t.other = false)
    (hw : ∃ e ∈ eqs, ∃ t ∈ e.terms, t.weno = true) : residual [.weno] eqs res = eqs.map Eqn.total := by
  have h : (eqs.any fun e => e.terms.any fun t => t.weno) = true := by
    obtain ⟨e, he, t, ht, h⟩ := hw
    exact List.any_eq_true.mpr ⟨e, he, List.any_eq_true.mpr ⟨t, ht, h⟩⟩
  simp only [residual, List.foldl_cons, List.foldl_nil, wenoPass, h, if_true]
  refine List.map_congr_left fun e he => ?_
  rw [Eqn.total]
  congr 1
  exact List.map_congr_left fun t ht => by simp [Term.forWeno, hterms e he t ht]

/-- C47, partial: shock capturing scheme followed by the central scheme, the usual set-up for the compressible Navier-Stokes equations. If the terms with central derivatives
are exactly the ones with `Re`, no term mixes the two kinds, and there are derivatives of both kinds, then every residual is the sum of all discretised terms. -/
theorem C47_hybrid_partial (eqs : List Eqn) (res : List ℝ) (hshape : ∀ e ∈ eqs, e.shape ≠ .bare)
    (hother : ∀ e ∈ eqs, ∀ t ∈ e.terms, t.other = false) (hmix : ∀ e ∈ eqs, ∀ t ∈ e.terms, t.central = t.re ∧ (t.central && t.weno) = false)
    (hw : ∃ e ∈ eqs, ∃ t ∈ e.terms, t.weno = true) (hv : ∃ e ∈ eqs, ∃ t ∈ e.terms, t.re = true) :
    residual [.weno, .central] eqs res = eqs.map Eqn.total := by
  have h : (eqs.any fun e => e.terms.any fun t => t.weno) = true := by
    obtain ⟨e, he, t, ht, h⟩ := hw
    exact List.any_eq_true.mpr ⟨e, he, List.any_eq_true.mpr ⟨t, ht, h⟩⟩
  have hc : eqs.any (Eqn.hasCentral false) = false := by
    rw [Bool.eq_false_iff]
    intro h
    rw [List.any_eq_true] at h
    obtain ⟨e, he, h⟩ := h
    rw [Eqn.hasCentral, classified_of (hshape e he), List.any_eq_true] at h
    obtain ⟨t, ht, h⟩ := h
    simp only [Bool.and_eq_true, beq_iff_eq] at h
    have := (hmix e he t ht).1
    rw [h.1.1, h.1.2] at this
    cases this
  have hc' : eqs.any (Eqn.hasCentral true) = true := by
    obtain ⟨e, he, t, ht, h1⟩ := hv
    rw [List.any_eq_true]
    refine ⟨e, he, ?_⟩
    rw [Eqn.hasCentral, classified_of (hshape e he), List.any_eq_true]
    obtain ⟨h2, h3⟩ := hmix e he t ht
    rw [h1] at h2
    rw [h2] at h3
    refine ⟨t, ht, ?_⟩
    simp only [Bool.true_and] at h3
    simp [h1, h2, h3, hother e he t ht]
  simp only [residual, List.foldl_cons, List.foldl_nil, wenoPass, h, if_true, centralPass, hc, hc', Bool.false_eq_true, if_false]
  rw [zipWith_map_map]
  refine List.map_congr_left fun e he => ?_
  unfold Eqn.viscous
  rw [classified_of (hshape e he), Eqn.total, ← sum_filter_split e.terms (fun t => t.re) Term.value]
  have a : ∀ l : List Term, (∀ t ∈ l, t ∈ e.terms) → (l.map Term.forWeno).sum = ((l.filter fun t => !t.re).map Term.value).sum := by
    intro l
    induction l with
    | nil => simp
    | cons t l ih =>
      intro hl
      have ih := ih fun x hx => hl x (List.mem_cons_of_mem _ hx)
      have ht := hl t List.mem_cons_self
      have hm := (hmix e he t ht).1
      have ho := hother e he t ht
      by_cases hr : t.re = true
      · rw [hr] at hm
        simp [Term.forWeno, hm, ih, hr]
      · have hr : t.re = false := by simpa using hr
        rw [hr] at hm
        simp [Term.forWeno, hm, ih, hr, ho]
  have b : ((e.terms.filter fun t => t.re).map Term.forCentral) = ((e.terms.filter fun t => t.re).map Term.value) := by
    refine List.map_congr_left fun t ht => ?_
    rw [List.mem_filter] at ht
    obtain ⟨h2, h3⟩ := hmix e he t ht.1
    rw [ht.2] at h2
    rw [h2, Bool.true_and] at h3
    simp [Term.forCentral, h3, hother e he t ht.1]
  rw [a e.terms fun _ h => h, b]

/-! ## Findings: the property does not hold in general -/

/-- C47 (finding): if all derivatives come with `Re`, as in a heat equation with diffusivity `1/Re` and no advection, the residual is never set, only increased: it accumulates over all
evaluations. -/
theorem C47_stale_residual (v stale : ℝ) :
    residual [.central] [⟨.mul, [⟨true, false, true, false, v⟩]⟩] [stale] = [stale + v] := by
  simp [residual, centralPass, Eqn.hasCentral, Eqn.classified, Eqn.viscous, Term.forCentral]

/-- C47 (finding): a source term with `Re` in equations without viscous derivatives is dropped. -/
theorem C47_source_dropped (c s stale : ℝ) :
    residual [.central] [⟨.add, [⟨false, false, true, false, c⟩, ⟨true, false, false, false, s⟩]⟩] [stale] = [c] := by
  simp [residual, centralPass, Eqn.hasCentral, Eqn.classified, Eqn.convective, Term.forCentral]

/-- C47 (finding): source terms that are functions, for example a sine of the position, are replaced by zero by both kinds of schemes. -/
theorem C47_function_dropped (c s : ℝ) (res : List ℝ) :
    residual [.central] [⟨.add, [⟨false, false, true, false, c⟩, ⟨false, false, false, true, s⟩]⟩] res = [c] ∧
      residual [.weno] [⟨.add, [⟨false, true, false, false, c⟩, ⟨false, false, false, true, s⟩]⟩] res = [c] := by
  constructor
  · simp [residual, centralPass, Eqn.hasCentral, Eqn.classified, Eqn.convective, Term.forCentral]
  · simp [residual, wenoPass, Term.forWeno]

/-- C47 (finding): a right hand side that is a single derivative without coefficient is dropped. Here it is the second of two equations. -/
theorem C47_bare_dropped (c d : ℝ) (res : List ℝ) :
    residual [.central] [⟨.mul, [⟨false, false, true, false, c⟩]⟩, ⟨.bare, [⟨false, false, true, false, d⟩]⟩] res = [c, 0] := by
  simp [residual, centralPass, Eqn.hasCentral, Eqn.classified, Eqn.convective, Term.forCentral]

/-- C47 (finding): with both schemes, a source term with `Re` next to viscous derivatives is counted twice. -/
theorem C47_source_twice (w v s : ℝ) (res : List ℝ) :
    residual [.weno, .central] [⟨.add, [⟨false, true, false, false, w⟩, ⟨true, false, true, false, v⟩, ⟨true, false, false, false, s⟩]⟩] res =
      [w + v + 2 * s] := by
  simp [residual, wenoPass, centralPass, Eqn.hasCentral, Eqn.classified, Eqn.viscous, Term.forWeno, Term.forCentral]
  ring

/-- C47 (finding): with both schemes, a central derivative without `Re` overwrites what the shock capturing scheme computed. -/
theorem C47_overwritten (w c : ℝ) (res : List ℝ) :
    residual [.weno, .central] [⟨.add, [⟨false, true, false, false, w⟩, ⟨false, false, true, false, c⟩]⟩] res = [c] := by
  simp [residual, wenoPass, centralPass, Eqn.hasCentral, Eqn.classified, Eqn.convective, Term.forWeno, Term.forCentral]

/-- C47 (finding): the order of the schemes matters: with the central scheme first its viscous terms are overwritten, in any system. -/
theorem C47_scheme_order (eqs : List Eqn) (res : List ℝ) (hw : ∃ e ∈ eqs, ∃ t ∈ e.terms, t.weno = true) :
    residual [.central, .weno] eqs res = residual [.weno] eqs res := by
  have h : (eqs.any fun e => e.terms.any fun t => t.weno) = true := by
    obtain ⟨e, he, t, ht, h⟩ := hw
    exact List.any_eq_true.mpr ⟨e, he, List.any_eq_true.mpr ⟨t, ht, h⟩⟩
  simp [residual, wenoPass, h]

/-- Mass and momentum with central derivatives: convective terms without `Re`, a viscous term with it. The old contents 7 and 8 do not matter. -/
example : residual [.central] [⟨.mul, [⟨false, false, true, false, -2⟩]⟩, ⟨.add, [⟨false, false, true, false, 3⟩, ⟨true, false, true, false, 4⟩]⟩] [7, 8] =
    [-2, 7] := by
  rw [C47_central_partial]
  · simp [Eqn.total]; norm_num
  · simp
  · simp
  · exact ⟨_, List.mem_cons_self, _, List.mem_cons_self, rfl, rfl⟩
  · intro _
    exact ⟨_, List.mem_cons_of_mem _ List.mem_cons_self, _, List.mem_cons_of_mem _ List.mem_cons_self, rfl, rfl⟩

/-- The same with a shock capturing scheme for the convective terms. -/
example : residual [.weno, .central] [⟨.mul, [⟨false, true, false, false, -2⟩]⟩, ⟨.add, [⟨false, true, false, false, 3⟩, ⟨true, false, true, false, 4⟩]⟩] [7, 8] =
    [-2, 7] := by
  rw [C47_hybrid_partial]
  · simp [Eqn.total]; norm_num
  · simp
  · simp
  · simp
  · exact ⟨_, List.mem_cons_self, _, List.mem_cons_self, rfl⟩
  · exact ⟨_, List.mem_cons_of_mem _ List.mem_cons_self, _, List.mem_cons_of_mem _ List.mem_cons_self, rfl⟩

end OpenSBLI.Res
