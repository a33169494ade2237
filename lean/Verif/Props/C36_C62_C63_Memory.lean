import Verif.Lemmas.Memory
import Verif.Props.C46_Names
import Mathlib.Data.Fin.VecNotation

/-!
# C36 memory bounds, C62 halos read are halos filled, C63 evaluation of inner derivatives
-/
namespace OpenSBLI.Mem
open Ranges

variable {n : ℕ}

/-- Every access of the kernel is inside the memory of the array. -/
def Safe (np : Fin n → ℤ) (a : Access n) : Prop := ∀ name y, a.Touches name y → Allocated np name y

/-- The points inside the grid and the halos of the given depths, which boundary conditions are asked to fill. -/
def Filled (np : Fin n → ℤ) (t : HaloType) (y : Fin n → ℤ) : Prop := ∀ d, t.1 ≤ y d ∧ y d < np d + t.2

theorem halos_of_ordinary {name : String} (h : ¬ noHalos name) : declaredHalos name = (-5, 5) := if_neg h

theorem allocated_iff_filled {np : Fin n → ℤ} {name : String} (h : ¬ noHalos name) {y : Fin n → ℤ} :
    Allocated np name y ↔ Filled np (-5, 5) y := by
  rw [Allocated, halos_of_ordinary h]; rfl

theorem Filled.mono {np : Fin n → ℤ} {t u : HaloType} {y : Fin n → ℤ} (h : Filled np t y) (h1 : u.1 ≤ t.1) (h2 : t.2 ≤ u.2) : Filled np u y :=
  fun d => ⟨le_trans h1 (h d).1, by have := (h d).2; omega⟩

/-! ## C62 -/

/-- C62: a derivative kernel of a central scheme, differentiated further in any other directions, only reads points in the halos that the
scheme requests from the boundary conditions. -/
theorem C62_central_partial (np : Fin n → ℤ) (order : ℕ) (arg work : String) (direction : Fin n) (outer : List (Fin n)) (hd : direction ∉ outer)
    (name : String) (y : Fin n → ℤ) (h : (centralDerivative np order arg work direction outer).Touches name y) :
    Filled np (Central.halos order) y := by
  obtain ⟨x, o, hx, ho, rfl⟩ := h
  rw [centralDerivative, visits_requestBoth] at hx
  intro d
  have hxd := hx d
  simp only [Central.halos] at hxd ⊢
  rcases ho with ho | ⟨j, hj, ho⟩
  · obtain ⟨-, rfl⟩ := Prod.mk.inj ho
    by_cases hm : d ∈ outer
    · have := hxd.1 hm; simp only [Pi.zero_apply]; omega
    · have := hxd.2 hm; simp only [Pi.zero_apply]; omega
  · obtain ⟨-, rfl⟩ := Prod.mk.inj ho
    rw [mem_points] at hj
    by_cases hdd : d = direction
    · subst hdd
      have := hxd.2 hd
      simp only [along_self]; omega
    · simp only [along_ne hdd]
      by_cases hm : d ∈ outer
      · have := hxd.1 hm; omega
      · have := hxd.2 hm; omega

/-- C62: the kernels of constituent relations only touch the grid and the halos of the scheme. -/
theorem C62_pointwise (np : Fin n → ℤ) (t : HaloType) (ht : t.1 ≤ 0 ∧ 0 ≤ t.2) (names : Set String) (dirs : List (Fin n)) (name : String)
    (y : Fin n → ℤ) (h : (pointwise np t names dirs).Touches name y) : Filled np t y := by
  obtain ⟨x, o, hx, ⟨-, ho⟩, rfl⟩ := h
  rw [pointwise, visits_requestBoth] at hx
  intro d
  simp only at ho
  subst ho
  have hxd := hx d
  by_cases hm : d ∈ dirs
  · simpa using hxd.1 hm
  · have := hxd.2 hm; simp only [Pi.zero_apply]; omega

/-- C62: the shock capturing reconstruction, including the extra interface on each side, only reads points in the halos the scheme requests. -/
theorem C62_reconstruction (np : Fin n → ℤ) (s : Llf.Scheme) (hs : s.Valid) (args works : Set String) (direction : Fin n) (name : String)
    (y : Fin n → ℤ) (h : (reconstruction np s args works direction).Touches name y) : Filled np (schemeHalos s) y := by
  obtain ⟨x, o, hx, ho, rfl⟩ := h
  rw [reconstruction, visits_requestBoth] at hx
  have hneg : (schemeHalos s).1 ≤ -1 ∧ 1 ≤ (schemeHalos s).2 := by
    cases s with
    | weno form k dz w => have := hs.1; simp only [schemeHalos]; omega
    | teno => simp [schemeHalos]
  have hpts : ∀ j : ℤ, (j ∈ s.stencilPoints ∨ j = 0 ∨ j = 1) → (schemeHalos s).1 + 1 ≤ j ∧ j + 1 ≤ (schemeHalos s).2 := by
    intro j hj
    cases s with
    | weno form k dz w =>
      have := hs.1
      rw [weno_points (by omega)] at hj
      simp only [schemeHalos]; omega
    | teno o eps CT =>
      rw [teno_points] at hj
      simp only [schemeHalos]; omega
  intro d
  have hxd := hx d
  simp only [List.mem_singleton] at hxd
  rcases ho with ⟨-, ho⟩ | ⟨-, j, hj, ho⟩ <;> simp only at ho <;> subst ho
  · simp only [Pi.zero_apply]
    by_cases hm : d = direction
    · have := hxd.1 hm; omega
    · have := hxd.2 hm; omega
  · have := hpts j hj
    by_cases hm : d = direction
    · subst hm
      have := hxd.1 rfl
      simp only [along_self]; omega
    · have := hxd.2 hm
      simp only [along_ne hm]; omega

/-- The request is not larger than needed: on a grid with at least one point per direction, the deepest requested points are read. -/
theorem C62_reconstruction_tight (np : Fin n → ℤ) (hnp : ∀ d, 1 ≤ np d) (form : Weno.Formulation) (k : ℕ) (hk : 2 ≤ k) (dz : ℝ)
    (w : Weno.Side → ℕ → ℝ) (args works : Set String) (name : String) (hn : name ∈ args) (direction : Fin n) :
    (∃ y, (reconstruction np (.weno form k dz w) args works direction).Touches name y ∧ y direction = -(k : ℤ)) ∧
    (∃ y, (reconstruction np (.weno form k dz w) args works direction).Touches name y ∧ y direction = np direction + k) := by
  have key : ∀ x0 j : ℤ, -1 ≤ x0 → x0 < np direction + 1 → -((k : ℤ) - 1) ≤ j → j ≤ k →
      ∃ y, (reconstruction np (.weno form k dz w) args works direction).Touches name y ∧ y direction = x0 + j := by
    intro x0 j h1 h2 h3 h4
    refine ⟨_, ⟨Function.update (fun _ => 0) direction x0, along direction j, ?_, Or.inr ⟨hn, j, Or.inl ?_, rfl⟩, rfl⟩, ?_⟩
    · rw [reconstruction, visits_requestBoth]
      intro d
      constructor
      · intro hd
        rw [List.mem_singleton] at hd
        subst hd
        simp only [Function.update_self]; omega
      · intro hd
        rw [List.mem_singleton] at hd
        rw [Function.update_of_ne hd]
        have := hnp d
        omega
    · rw [weno_points (by omega)]; omega
    · simp [along_self]
  have := hnp direction
  constructor
  · obtain ⟨y, h1, h2⟩ := key (-1) (-((k : ℤ) - 1)) (by omega) (by omega) (by omega) (by omega)
    exact ⟨y, h1, by omega⟩
  · obtain ⟨y, h1, h2⟩ := key (np direction) k (by omega) (by omega) (by omega) (by omega)
    exact ⟨y, h1, by omega⟩

/-- The condition on directions is needed: a derivative differentiated again in its own direction reads twice as deep as the boundary
conditions fill. -/
theorem C62_same_direction (np : Fin n → ℤ) (hnp : ∀ d, 1 ≤ np d) (order : ℕ) (arg work : String) (direction : Fin n) (outer : List (Fin n))
    (hd : direction ∈ outer) :
    ∃ y, (centralDerivative np order arg work direction outer).Touches arg y ∧ y direction = -(2 * ((order / 2 : ℕ) : ℤ)) := by
  refine ⟨_, ⟨Function.update (fun _ => 0) direction (-((order / 2 : ℕ) : ℤ)), along direction (-((order / 2 : ℕ) : ℤ)), ?_,
    Or.inr ⟨_, mem_points.2 ⟨le_rfl, by omega⟩, rfl⟩, rfl⟩, ?_⟩
  · rw [centralDerivative, visits_requestBoth]
    intro d
    by_cases e : d = direction
    · subst e
      have := hnp d
      simp only [Function.update_self, Central.halos]
      exact ⟨fun _ => by omega, fun h => absurd hd h⟩
    · have := hnp d
      rw [Function.update_of_ne e]
      simp only [Central.halos]
      omega
  · simp only [Function.update_self, along_self]; omega

/-! ## C36 -/

/-- C36: the kernel of a central derivative, differentiated further in any other directions, stays inside the memory of its arrays on every
grid exactly for orders up to 11. -/
theorem C36_central_iff (np : Fin n → ℤ) (hnp : ∀ d, 1 ≤ np d) (order : ℕ) (arg work : String) (ha : ¬ noHalos arg) (hw : ¬ noHalos work)
    (direction : Fin n) (outer : List (Fin n)) (hd : direction ∉ outer) :
    Safe np (centralDerivative np order arg work direction outer) ↔ order ≤ 11 := by
  constructor
  · intro h
    have := h arg _ ⟨fun _ => 0, along direction (-((order / 2 : ℕ) : ℤ)), by
      rw [centralDerivative, visits_requestBoth]
      intro d
      have := hnp d
      simp only [Central.halos]
      omega, Or.inr ⟨_, mem_points.2 ⟨le_rfl, by omega⟩, rfl⟩, rfl⟩ direction
    rw [halos_of_ordinary ha, along_self] at this
    simp only at this
    omega
  · intro ho name y hy
    have hf := C62_central_partial np order arg work direction outer hd name y hy
    obtain ⟨x, o, -, hacc, -⟩ := hy
    have hn : ¬ noHalos name := by
      rcases hacc with e | ⟨j, -, e⟩
      · rw [(Prod.mk.inj e).1]; exact hw
      · rw [(Prod.mk.inj e).1]; exact ha
    rw [allocated_iff_filled hn]
    exact hf.mono (by simp only [Central.halos]; omega) (by simp only [Central.halos]; omega)

/-- C36: differentiated again in its own direction, only orders up to 5 stay inside. -/
theorem C36_central_same_direction (np : Fin n → ℤ) (hnp : ∀ d, 1 ≤ np d) (order : ℕ) (ho : 6 ≤ order) (arg work : String) (ha : ¬ noHalos arg)
    (direction : Fin n) (outer : List (Fin n)) (hd : direction ∈ outer) :
    ¬ Safe np (centralDerivative np order arg work direction outer) := by
  intro h
  obtain ⟨y, hy, e⟩ := C62_same_direction np hnp order arg work direction outer hd
  have := h arg y hy direction
  rw [halos_of_ordinary ha] at this
  omega

/-- C36: constituent relations and products evaluated in the halos of a central scheme up to order 11. -/
theorem C36_pointwise (np : Fin n → ℤ) (t : HaloType) (ht : t.1 ≤ 0 ∧ 0 ≤ t.2) (h5 : -5 ≤ t.1 ∧ t.2 ≤ 5) (names : Set String)
    (hn : ∀ m ∈ names, ¬ noHalos m) (dirs : List (Fin n)) : Safe np (pointwise np t names dirs) := by
  intro name y hy
  have hf := C62_pointwise np t ht names dirs name y hy
  obtain ⟨x, o, -, ⟨hm, -⟩, -⟩ := hy
  rw [allocated_iff_filled (hn name hm)]
  exact hf.mono h5.1 h5.2

/-- C36: the WENO reconstruction kernel stays inside the memory of its arrays on every grid exactly for orders up to 7 (`k ≤ 4`). -/
theorem C36_weno_iff (np : Fin n → ℤ) (hnp : ∀ d, 1 ≤ np d) (form : Weno.Formulation) (k : ℕ) (dz : ℝ) (w : Weno.Side → ℕ → ℝ)
    (hs : (Llf.Scheme.weno form k dz w).Valid) (args works : Set String) (hn : ∀ m ∈ args ∪ works, ¬ noHalos m) (hne : args.Nonempty)
    (direction : Fin n) : Safe np (reconstruction np (.weno form k dz w) args works direction) ↔ 2 * k - 1 ≤ 7 := by
  constructor
  · intro h
    obtain ⟨m, hm⟩ := hne
    obtain ⟨-, y, hy, e⟩ := C62_reconstruction_tight np hnp form k hs.1 dz w args works m hm direction
    have := h m y hy direction
    rw [halos_of_ordinary (hn m (Or.inl hm))] at this
    simp only at this
    omega
  · intro hk name y hy
    have hf := C62_reconstruction np _ hs args works direction name y hy
    obtain ⟨x, o, -, hacc, -⟩ := hy
    have hn' : ¬ noHalos name := by
      rcases hacc with ⟨hm, -⟩ | ⟨hm, -⟩
      · exact hn name (Or.inr hm)
      · exact hn name (Or.inl hm)
    rw [allocated_iff_filled hn']
    exact hf.mono (by simp only [schemeHalos]; omega) (by simp only [schemeHalos]; omega)

/-- C36: the TENO reconstruction kernels (orders 5 and 6) stay inside on every grid. -/
theorem C36_teno (np : Fin n → ℤ) (o : Teno.Order) (eps CT : ℝ) (hs : (Llf.Scheme.teno o eps CT).Valid) (args works : Set String)
    (hn : ∀ m ∈ args ∪ works, ¬ noHalos m) (direction : Fin n) : Safe np (reconstruction np (.teno o eps CT) args works direction) := by
  intro name y hy
  have hf := C62_reconstruction np _ hs args works direction name y hy
  obtain ⟨x, o, -, hacc, -⟩ := hy
  have hn' : ¬ noHalos name := by
    rcases hacc with ⟨hm, -⟩ | ⟨hm, -⟩
    · exact hn name (Or.inr hm)
    · exact hn name (Or.inl hm)
  rw [allocated_iff_filled hn']
  exact hf.mono (by simp [schemeHalos]) (by simp [schemeHalos])

/-- C36: the residual kernel stays inside, although the residual array has no halos. -/
theorem C36_flux_difference (np : Fin n → ℤ) (work : Fin n → String) (hw : ∀ d, ¬ noHalos (work d)) (residual : String) :
    Safe np (fluxDifference np work residual) := by
  rintro name y ⟨x, o, hx, ho, rfl⟩ d
  have hxd : 0 ≤ x d ∧ x d < np d := by
    have := hx d
    simpa [fluxDifference, Kernel.totalRange, Kernel.onGrid, minHalo_empty, maxHalo_empty] using this
  rcases ho with ho | ⟨e, j, hj, ho⟩
  · obtain ⟨-, rfl⟩ := Prod.mk.inj ho
    have h0 : (declaredHalos name).1 ≤ 0 ∧ 0 ≤ (declaredHalos name).2 := by
      unfold declaredHalos
      by_cases h : noHalos name
      · rw [if_pos h]; simp
      · rw [if_neg h]; simp
    simp only [Pi.zero_apply]
    omega
  · obtain ⟨rfl, rfl⟩ := Prod.mk.inj ho
    rw [halos_of_ordinary (hw e)]
    by_cases hde : d = e
    · subst hde
      simp only [along_self]
      rcases hj with rfl | rfl <;> omega
    · simp only [along_ne hde]; omega

/-- C36: boundary kernels filling the halos requested by the schemes stay inside when no scheme requests more than five points and the grid
is at least as wide as the halo. -/
theorem C36_boundary (b : Block n) (hb : ∀ d, -5 ≤ minHalo (b.boundaryHalos d).1 ∧ maxHalo (b.boundaryHalos d).2 ≤ 5) (names : Set String)
    (hn : ∀ m ∈ names, ¬ noHalos m) (direction : Fin n) (side : Bool) (depth : ℤ) (h5 : depth ≤ 5) (hw : depth < b.np direction) :
    Safe b.np (boundary b names direction side depth) := by
  rintro name y ⟨x, o, hx, ⟨hm, j, hj1, hj2, ho⟩, rfl⟩ d
  simp only at ho
  subst ho
  rw [halos_of_ordinary (hn name hm)]
  have hxd := hx d
  simp only [boundary, bcPlaneKernel, Kernel.totalRange, Block.ranges] at hxd
  by_cases hde : d = direction
  · subst hde
    simp only [along_self]
    cases side <;> simp [minHalo_empty, maxHalo_empty] at hxd <;> omega
  · simp only [along_ne hde]
    have := hb d
    simp only [if_neg hde, Function.update_of_ne hde, Block.ranges] at hxd
    omega

/-- An array whose name contains `Residual` gets no halos: differentiating it reads outside its memory, for every order from 2. -/
theorem C36_residual_name (np : Fin n → ℤ) (hnp : ∀ d, 1 ≤ np d) (order : ℕ) (ho : 2 ≤ order) (work : String) (direction : Fin n)
    (outer : List (Fin n)) : ¬ Safe np (centralDerivative np order "ResidualSensor" work direction outer) := by
  intro h
  have := h "ResidualSensor" _ ⟨fun _ => 0, along direction (-((order / 2 : ℕ) : ℤ)), by
      rw [centralDerivative, visits_requestBoth]
      intro d
      have := hnp d
      simp only [Central.halos]
      omega, Or.inr ⟨_, mem_points.2 ⟨le_rfl, by omega⟩, rfl⟩, rfl⟩ direction
  have hd : declaredHalos "ResidualSensor" = (0, 0) := by decide
  rw [hd, along_self] at this
  simp only at this
  omega

/-- C36: which arrays are declared without halos, by name. Arrays whose name has no `R` — in particular every work array `wk<i>_B<b>` — have five halo points on
every side; residuals `Residual<i>_B<b>`, and saved and temporary time levels of any array, have none. -/
theorem C36_halos_by_name (i b : ℕ) (x : String) :
    ('R' ∉ x.toList → declaredHalos x = (-5, 5)) ∧ declaredHalos ("wk" ++ toString i ++ "_B" ++ toString b) = (-5, 5) ∧
    declaredHalos ("Residual" ++ toString i ++ "_B" ++ toString b) = (0, 0) ∧ declaredHalos (x ++ "_RKold" ++ "_B" ++ toString b) = (0, 0) ∧
    declaredHalos ("tempRK_" ++ x ++ "_B" ++ toString b) = (0, 0) := by
  have h1 : ∀ x : String, 'R' ∉ x.toList → declaredHalos x = (-5, 5) := by
    intro x hx
    apply halos_of_ordinary
    rintro (h | h | h) <;> exact hx (h.subset (by decide))
  have hd : ∀ n : ℕ, 'R' ∉ (toString n).toList := by
    intro n h
    have := Reg.padded_isDigit 0 n
    rw [Reg.padded_toList] at this
    have h' := this 'R' (by simpa using h)
    exact absurd h' (by decide)
  refine ⟨h1 x, h1 _ ?_, if_pos (Or.inl ?_), if_pos (Or.inr (Or.inr ?_)), if_pos (Or.inr (Or.inl ?_))⟩
  · simp only [String.toList_append, List.mem_append, not_or]
    exact ⟨⟨⟨by decide, hd i⟩, by decide⟩, hd b⟩
  · simp only [String.toList_append, List.append_assoc]
    exact (List.prefix_append _ _).isInfix
  · simp only [String.toList_append, List.append_assoc]
    refine List.IsInfix.trans ?_ (List.suffix_append x.toList _).isInfix
    exact ⟨"_".toList, "_B".toList ++ (toString b).toList, by simp⟩
  · simp only [String.toList_append, List.append_assoc]
    exact ⟨[], "_".toList ++ (x.toList ++ ("_B".toList ++ (toString b).toList)), by simp⟩

/-- The usual names of arrays have halos; residuals and stored time levels do not. -/
example : ¬ noHalos "rho_B0" ∧ ¬ noHalos "wk0_B0" ∧ noHalos "Residual0_B0" ∧ noHalos "rho_RKold_B0" := by decide

/-- Fourth order mixed derivative in two dimensions, as used for viscous terms. -/
example : Safe ![10, 20] (centralDerivative ![10, 20] 4 "u0_B0" "wk3_B0" (0 : Fin 2) [1]) :=
  (C36_central_iff _ (by intro d; fin_cases d <;> simp) 4 _ _ (by decide) (by decide) 0 [1] (by decide)).2 (by norm_num)

/-! ## C63 -/

/-- All derivatives below (and including) an expression: `atoms(CentralDerivative)`, scheme.py 138-143. -/
def atoms (es : List (Dx n)) : List (Dx n) := es.flatMap Dx.postorder

/-- The kernel of derivative `c` covers what the kernel of `der d a`, over the derivatives `cds`, reads of it: every point at which it is
visited and every offset of its stencil. -/
def Covers (np : Fin n → ℤ) (order : ℕ) (cds : List (Dx n)) (d : Fin n) (a c : Dx n) : Prop :=
  ∀ x, (derivativeKernel np order cds (.der d a)).visits x → ∀ j ∈ Central.points order,
    (derivativeKernel np order cds c).visits (fun e => x e + along d j e)

theorem mem_requestedFor {cds : List (Dx n)} {c : Dx n} {d : Fin n} :
    d ∈ requestedFor cds c ↔ ∃ e ∈ cds, (c, d) ∈ e.requests := by
  simp only [requestedFor, List.mem_filterMap, List.mem_flatMap]
  constructor
  · rintro ⟨⟨c', d'⟩, ⟨e, he, hm⟩, h⟩
    simp only [Option.ite_none_right_eq_some, Option.some.injEq] at h
    obtain ⟨rfl, rfl⟩ := h
    exact ⟨e, he, hm⟩
  · rintro ⟨e, he, hm⟩
    exact ⟨(c, d), ⟨e, he, hm⟩, by simp⟩

/-- C63: a derivative of a derivative: the inner derivative is evaluated at every point where the outer derivative reads it, provided the outer
derivative is not itself differentiated (and so not evaluated in halos), whatever other derivatives are in the equations.
Missing from the full claim: sums of inner derivatives and deeper nesting, for which it is false. -/
theorem C63_inner_covers_outer_partial (np : Fin n → ℤ) (order : ℕ) (cds : List (Dx n)) (d d' : Fin n) (a : Dx n)
    (hc : Dx.der d (.der d' a) ∈ cds) (houter : requestedFor cds (.der d (.der d' a)) = []) :
    Covers np order cds d (.der d' a) (.der d' a) := by
  intro x hx j hj
  have hreq : d ∈ requestedFor cds (.der d' a) := by
    rw [mem_requestedFor]
    refine ⟨_, hc, ?_⟩
    simp only [Dx.requests, Dx.postorder, List.mem_filterMap]
    refine ⟨(.der d' a, .der d (.der d' a)), ?_, by simp [Dx.dir?]⟩
    rw [List.append_assoc]
    have : ∀ l : List (Dx n), ∀ p q, (p, q) ∈ (l ++ [p] ++ [q]).zip (l ++ [p] ++ [q]).tail := by
      intro l p q
      induction l with
      | nil => simp
      | cons y l ih =>
        cases l with
        | nil => simp
        | cons z l =>
          simp only [List.cons_append, List.tail_cons, List.zip_cons_cons, List.mem_cons]
          right
          simpa using ih
    simpa using this a.postorder _ _
  rw [derivativeKernel, houter, visits_requestBoth] at hx
  rw [derivativeKernel, visits_requestBoth]
  rw [mem_points] at hj
  intro e
  have hxe := (hx e).2 (by simp)
  by_cases he : e = d
  · subst he
    simp only [along_self]
    simp only [Central.halos]
    exact ⟨fun _ => by omega, fun h => absurd hreq h⟩
  · simp only [along_ne he]
    simp only [Central.halos]
    omega

/-- In `d/dx (du/dx + dv/dy)` the inner derivative `du/dx` is requested in the halos of `y`, the direction of the *next* derivative, and not of
`x`: the outer derivative reads values that were never computed. -/
theorem C63_sum_of_inner_derivatives (np : Fin 2 → ℤ) (hnp : ∀ d, 1 ≤ np d) (order : ℕ) (ho : 2 ≤ order) :
    let u : Dx 2 := .der 0 .atom
    let v : Dx 2 := .der 1 .atom
    ¬ Covers np order (atoms [.der 0 (.op u v)]) 0 (.op u v) u := by
  intro u v h
  have h1 : requestedFor (atoms [Dx.der 0 (.op u v)]) (.der 0 (.op u v)) = [] := by decide
  have h2 : requestedFor (atoms [Dx.der 0 (.op u v)]) u = [1] := by decide
  have := h (fun _ => 0) (by
    rw [derivativeKernel, h1, visits_requestBoth]
    intro d; have := hnp d; simp only [List.not_mem_nil, Central.halos]; omega) (-1) (mem_points.2 (by omega))
  rw [derivativeKernel, h2, visits_requestBoth] at this
  have := (this 0).2 (by decide)
  rw [along_self] at this
  omega

/-- A third level of nesting: in `d/dx d/dy d/dz u` the innermost derivative is not evaluated in the halos in `x`, where the kernel of the
middle one reads it. -/
theorem C63_three_levels (np : Fin 3 → ℤ) (hnp : ∀ d, 1 ≤ np d) (order : ℕ) (ho : 2 ≤ order) :
    let w : Dx 3 := .der 2 .atom
    ¬ Covers np order (atoms [.der 0 (.der 1 w)]) 1 w w := by
  intro w h
  have h1 : requestedFor (atoms [Dx.der 0 (.der 1 w)]) (.der 1 w) = [0] := by decide
  have h2 : requestedFor (atoms [Dx.der 0 (.der 1 w)]) w = [1, 1] := by decide
  have := h (along 0 (-1)) (by
    rw [derivativeKernel, h1, visits_requestBoth]
    intro d
    have := hnp d
    simp only [List.mem_singleton, Central.halos]
    by_cases hd : d = 0
    · subst hd; simp only [along_self]; exact ⟨fun _ => by omega, fun h => absurd trivial h⟩
    · simp only [along_ne hd]; omega) 0 (mem_points.2 (by omega))
  rw [derivativeKernel, h2, visits_requestBoth] at this
  have := (this 0).2 (by decide)
  rw [along_self] at this
  simp [along] at this

/-- The mixed derivatives of a viscous term meet the hypotheses. -/
example : requestedFor (atoms [Dx.der 0 (.der 1 .atom), .der (1 : Fin 2) (.der 1 .atom)]) (.der 0 (.der 1 .atom)) = [] := by decide

end OpenSBLI.Mem
