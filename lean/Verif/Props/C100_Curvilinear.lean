import Verif.Props.C100_Second
import Verif.Props.C87_Order
import Verif.Lemmas.CurvilinearSecond

/-!
# C100: the order of first and second derivatives, and of whole right hand sides, on curvilinear grids
-/
namespace OpenSBLI.Sim
open OpenSBLI.Metric (fdValue sdStored Describes)
open OpenSBLI.Order (E pd pos Tame)
open OpenSBLI.Curv (jac Mapping)
open scoped ContDiff

variable {D n : ℕ} {τ : Type}

section Differences
variable {S : Setup D n} {I : Interp D} {delta : Fin D → ℝ}

/-- The differences of the program are those of functions of a continuous position. -/
theorem cd_position (hI : IsCentral S I delta) (d : Fin D) (k : ℕ) {u : E D → ℝ} {f : P D → ℝ} (x₀ : E D) {x : P D} (hf : ∀ q, |q| ≤ S.h → f (shift x d q) = u (pos x₀ delta (shift x d q))) :
    I.cd d k f x = Curv.fd S.order delta k d u (pos x₀ delta x) := by
  rw [central_eval hI]
  unfold Curv.fd Order.formula
  congr 1
  refine Eq.trans ?_ (Order.centralList_sum S.order k fun q => u (pos x₀ delta x + ((q : ℝ) * delta d) • Pi.single d 1)).symm
  refine Finset.sum_congr rfl fun q hq => ?_
  rw [hf q (points_abs S hq), shift, Order.pos_shift]

theorem jacobi_position (hI : IsCentral S I delta) (χ : E D → E D) (x₀ : E D) (y : P D) : jacobi I (fun i y => χ (pos x₀ delta y) i) y = Curv.jacFd S.order delta χ (pos x₀ delta y) := by
  ext i j
  exact cd_position hI j 1 (u := fun ξ => χ ξ i) x₀ fun _ _ => rfl

theorem second_position (hI : IsCentral S I delta) (k l : Fin D) {u : E D → ℝ} {f : P D → ℝ} (x₀ : E D) {x : P D} (hx : Grid S.np x) (hf : ∀ k l y, Box S.np S.h [k, l] y → f y = u (pos x₀ delta y)) :
    secondDiff I k l f x = Curv.fdSecond S.order delta k l u (pos x₀ delta x) := by
  have h1 : ∀ k q, |q| ≤ S.h → Box S.np S.h [k] (shift x k q) := fun k q hq => Box.shift' S.h_nonneg ((box_nil _ _ _).2 hx) (by simp) (.inl hq)
  have hkk : ∀ k y, Box S.np S.h [k] y → Box S.np S.h [k, k] y := fun k y hy e => by simpa using hy e
  unfold secondDiff Curv.fdSecond
  split_ifs with hkl
  · exact cd_position hI k 2 x₀ fun q hq => hf k k _ (hkk k _ (h1 k q hq))
  · have hne : max k l ≠ min k l := fun h => hkl (by rcases le_total k l with h' | h' <;> simp [h'] at h <;> simp [h])
    refine cd_position hI _ 1 x₀ fun q hq => cd_position hI _ 1 x₀ fun q' hq' => ?_
    exact hf (min k l) (max k l) _ (Box.shift' S.h_nonneg (h1 _ q hq) (by simpa using hne.symm) (.inl hq'))

end Differences

/-- C100: on curvilinear grids first and second derivatives have the order of the scheme. For every smooth mapping `χ` with bounded derivatives and determinant bounded away from zero, of the structure the flags of the directions describe,
and smooth functions `φ t` of the Cartesian coordinates with bounded derivatives along the grid, there are a constant and a largest spacing such that, with differences of order `2p`, the points of the grid given by `χ`, and values of
some `φ t` in an expression: the matrices of the differences of the coordinates are invertible, and, as long as the arrays of the metric terms and of their derivatives are as at the beginning of the time loop, the transformed derivatives in Cartesian directions `i`, and `i` and `j`, differ from those of `φ t` by at most the
constant times the power `2p` of the largest spacing, at every point which is away from the sides of the directions which are not periodic. -/
theorem C100_curvilinear (p : ℕ) (hp1 : 1 ≤ p) {χ : E D → E D} {c : ℝ} (hχ : Mapping χ c) {cur str : Fin D → Bool} (hd : ∀ ξ, Describes cur str (jac χ ξ)) [Nonempty τ] {φ : τ → E D → ℝ} (hφ : ∀ t, ContDiff ℝ ∞ (φ t))
    (hψ : ∀ k, Tame fun t => pd k fun ξ => φ t (χ ξ)) : ∃ C h0 : ℝ, 0 < h0 ∧
    ∀ {n : ℕ} {S : Setup D n} {M : Metrics2 D} {orig : Fin n → List (Term D)} {I : Interp D} {delta : Fin D → ℝ} {pts : Ranges.Kernel D → List (P D)} {inp : Alg.Input (Call D)} {B : Sol D n → Sol D n} {m : Mem D},
    OnMapping2 S M orig inp → Enumerates pts → S.order = 2 * p → IsCentral S I delta → M.cur = cur → M.str = str → ∀ h ≤ h0, (∀ d, 0 < delta d ∧ delta d ≤ h) → ∀ x₀ : E D,
    HoldsCoordinates M.toMetrics S.np S.h (fun i y => χ (pos x₀ delta y) i) (atStart I pts S.sol B inp m) →
    (∀ y, (jacobi I (fun i y => χ (pos x₀ delta y) i) y).det ≠ 0) ∧
    ∀ x, Grid S.np x → (∀ l, (M.fill l = .periodic ∧ ∀ i, ∃ L : ℝ, ∀ x, χ (pos x₀ delta (shift x l (S.np l))) i = χ (pos x₀ delta x) i + L) ∨ (S.h ≤ x l ∧ x l + S.h < S.np l)) →
    ∀ (t : τ) (mem : Mem D), (∀ k j : Fin D, mem (.data (metricName k j)) = atStart I pts S.sol B inp m (.data (metricName k j))) →
    (∀ k i l : Fin D, mem (.data (sdName k i l)) = atStart I pts S.sol B inp m (.data (sdName k i l))) →
    ∀ e : Ex D, (∀ k l y, Box S.np S.h [k, l] y → e.eval I mem y = φ t (χ (pos x₀ delta y))) →
    (∀ i, |(transformed M.cur M.str i e).eval I mem x - pd i (φ t) (χ (pos x₀ delta x))| ≤ C * h ^ (2 * p)) ∧
    ∀ i j, |(secondTransformed M.cur M.str i j e).eval I mem x - pd j (pd i (φ t)) (χ (pos x₀ delta x))| ≤ C * h ^ (2 * p) := by
  obtain ⟨C, h0, hpos, hle, hC⟩ := Curv.orders hp1 hχ hφ hψ hd
  refine ⟨C, h0, hpos, fun {n S M orig I delta pts inp B m} hO hp hord hI hcur hstr h hh hδ x₀ hH => ?_⟩
  by_cases hD : Nonempty (Fin D)
  swap
  · have hE : IsEmpty (Fin D) := not_nonempty_iff.1 hD
    exact ⟨fun y => by rw [Matrix.det_isEmpty]; exact one_ne_zero, fun x _ _ t mem _ _ e _ => ⟨fun i => isEmptyElim i, fun i => isEmptyElim i⟩⟩
  have hh0 : 0 ≤ h := ((hδ hD.some).1.le.trans (hδ hD.some).2)
  obtain ⟨hdet, hmain⟩ := hC ⟨delta, h, fun d => (hδ d).1, fun d => (hδ d).2, hh0, hh.trans hle⟩ hh
  simp only at hdet hmain
  have hj : ∀ y, jacobi I (fun i y => χ (pos x₀ delta y) i) y = Curv.jacFd (2 * p) delta χ (pos x₀ delta y) := fun y => by rw [jacobi_position hI, hord]
  have hdes : ∀ y, Describes M.cur M.str (jacobi I (fun i y => χ (pos x₀ delta y) i) y) := fun y => by
    rw [hj, hcur, hstr]
    exact Curv.describes_fd hp1 (fun d => (hδ d).1) hχ.smooth hd _
  have hdetj : ∀ y, (jacobi I (fun i y => χ (pos x₀ delta y) i) y).det ≠ 0 := fun y => by rw [hj]; exact hdet _
  refine ⟨hdetj, fun x hx hline t mem hmemD hmemS e he => ?_⟩
  obtain ⟨hm1, hm2⟩ := hmain t (pos x₀ delta x)
  have hmet : ∀ k j, metricValue M.cur M.str mem k j x = (Curv.jacFd (2 * p) delta χ (pos x₀ delta x))⁻¹ k j := fun k j => by
    have := congrFun (congrFun ((C100_second_metrics hO hp (central_local hI) hH (fun y _ => hdes y) fun y _ => hdetj y).1 x hx) k) j
    rw [hj] at this
    refine Eq.trans ?_ this
    simp only [metricValue, Matrix.of_apply, hmemD]
  have hsd : ∀ k i l, sdValue M.cur M.str mem k i l x =
      if sdStored cur str k i l then Curv.fd (2 * p) delta 1 l (fun ξ => (Curv.jacFd (2 * p) delta χ ξ)⁻¹ k i) (pos x₀ delta x) else 0 := by
    intro k i l
    unfold sdValue
    rw [hcur, hstr]
    split_ifs with hs
    · rw [hmemS, C100_derivatives hO hp hI hH (fun y _ => hdes y) (fun y _ => hdetj y) k i l (by rw [hcur, hstr]; exact hs) x hx (hline l), ← hord]
      exact cd_position hI l 1 (u := fun ξ => (Curv.jacFd S.order delta χ ξ)⁻¹ k i) x₀ fun q _ => by rw [hj, hord]
    · rfl
  have hfirst : ∀ k, I.cd k 1 (e.eval I mem) x = Curv.fd (2 * p) delta 1 k (fun ξ => φ t (χ ξ)) (pos x₀ delta x) := fun k => by
    rw [← hord]
    exact cd_position hI k 1 (u := fun ξ => φ t (χ ξ)) x₀ fun q hq => he k k _ fun e => by
      simpa using (Box.shift' S.h_nonneg ((box_nil _ _ _).2 hx) (by simp) (.inl hq) : Box S.np S.h [k] (shift x k q)) e
  have hsec : ∀ k l, secondDiff I k l (e.eval I mem) x = Curv.fdSecond (2 * p) delta k l (fun ξ => φ t (χ ξ)) (pos x₀ delta x) := fun k l => by
    rw [← hord]
    exact second_position hI k l (u := fun ξ => φ t (χ ξ)) x₀ hx he
  refine ⟨fun i => ?_, fun i j => ?_⟩
  · rw [transformed_eval]
    simp only [hmet, hfirst]
    exact hm1 i
  · rw [secondTransformed_eval]
    simp only [hmet, hfirst, hsec, hsd]
    exact hm2 i j

/-! ## Right hand sides -/

/-- A term with true derivatives in Cartesian directions. -/
noncomputable def Term.exact (I₀ : Interp D) (U : String → E D → ℝ) (T : Term D) (y : E D) : ℝ :=
  Order.exact I₀ (Order.ofData U) T.coef y * match T.second with
    | none => pd T.dir (Order.exact I₀ (Order.ofData U) T.arg) y
    | some j => pd j (pd T.dir (Order.exact I₀ (Order.ofData U) T.arg)) y

/-- Expressions without derivatives are evaluated point by point. -/
theorem plain_point (I : Interp D) {f f' : String → P D → ℝ} (e : Ex D) (hc : e.cds = []) {y : P D} (hf : ∀ s ∈ e.datas, f s y = f' s y) : e.eval I (memOf f) y = e.eval I (memOf f') y := by
  induction e with
  | num _ | const _ | indexed _ => rfl
  | arr a =>
    cases a with
    | data s => exact hf s (by simp [Ex.datas, Ex.arrs])
    | _ => rfl
  | cd d k e _ => simp [Ex.cds] at hc
  | add a b iha ihb | mul a b iha ihb | pow a b iha ihb =>
    simp only [Ex.cds, List.append_eq_nil_iff] at hc
    simp only [Ex.eval]
    rw [iha hc.1 fun s hs => hf s (by rw [mem_datas] at hs ⊢; simp [Ex.arrs, hs]), ihb hc.2 fun s hs => hf s (by rw [mem_datas] at hs ⊢; simp [Ex.arrs, hs])]
  | fn f e ih =>
    simp only [Ex.cds] at hc
    simp only [Ex.eval]
    rw [ih hc fun s hs => hf s (by rw [mem_datas] at hs ⊢; simpa [Ex.arrs] using hs)]

/-- Expressions without derivatives, of fields carried to the coordinates of the grid. -/
theorem exact_comp (I₀ : Interp D) (U : String → E D → ℝ) (χ : E D → E D) (e : Ex D) (hc : e.cds = []) (ξ : E D) :
    Order.exact I₀ (Order.ofData fun s ξ => U s (χ ξ)) e ξ = Order.exact I₀ (Order.ofData U) e (χ ξ) := by
  induction e with
  | num _ | const _ | indexed _ => rfl
  | arr a => cases a <;> rfl
  | cd d k e _ => simp [Ex.cds] at hc
  | add a b iha ihb | mul a b iha ihb | pow a b iha ihb =>
    simp only [Ex.cds, List.append_eq_nil_iff] at hc
    simp only [Order.exact]
    rw [iha hc.1, ihb hc.2]
  | fn f e ih =>
    simp only [Ex.cds] at hc
    simp only [Order.exact]
    rw [ih hc]

theorem coef_datas (cur str : Fin D → Bool) (l : List (Term D)) (t : Term D) (ht : t ∈ l) (s : String) (hs : s ∈ t.coef.datas) : s ∈ (mappedTerms cur str l).datas := by
  have h : Arr.data s ∈ (t.mapped cur str).arrs := List.mem_append_left _ ((mem_datas _ s).1 hs)
  rw [mem_datas]
  cases l with
  | nil => cases ht
  | cons a l =>
    simp only [mappedTerms]
    rw [show l.foldl (fun e t => Ex.add e (t.mapped cur str)) (a.mapped cur str) = (l.map (·.mapped cur str)).foldl Ex.add (a.mapped cur str) by rw [List.foldl_map]]
    refine mem_foldl_arrs _ _ _ ?_
    rcases List.mem_cons.1 ht with rfl | ht
    · exact .inl h
    · exact .inr ⟨_, List.mem_map_of_mem ht, h⟩

theorem list_error {α : Type} (l : List α) (f g b : α → ℝ) (h : ∀ a ∈ l, |f a - g a| ≤ b a) : |(l.map f).sum - (l.map g).sum| ≤ (l.map b).sum := by
  induction l with
  | nil => simp
  | cons a l ih =>
    simp only [List.map_cons, List.sum_cons]
    have h1 := h a (List.mem_cons_self ..)
    have h2 := ih fun a ha => h a (List.mem_cons_of_mem _ ha)
    rw [show f a + (l.map f).sum - (g a + (l.map g).sum) = (f a - g a) + ((l.map f).sum - (l.map g).sum) by ring]
    exact (abs_add_le _ _).trans (add_le_add h1 h2)

theorem list_min {α : Type} (l : List α) (f : α → ℝ) (h : ∀ a ∈ l, 0 < f a) : ∃ m : ℝ, 0 < m ∧ ∀ a ∈ l, m ≤ f a := by
  induction l with
  | nil => exact ⟨1, one_pos, by simp⟩
  | cons a l ih =>
    obtain ⟨m, hm, hl⟩ := ih fun a ha => h a (List.mem_cons_of_mem _ ha)
    refine ⟨min m (f a), lt_min hm (h a (List.mem_cons_self ..)), fun b hb => ?_⟩
    rcases List.mem_cons.1 hb with rfl | hb
    · exact min_le_right _ _
    · exact (min_le_left _ _).trans (hl b hb)

/-- The arrays of the metric terms and of their derivatives are not components of the solution nor given by relations. -/
def Apart (S : Setup D n) : Prop := ∀ s, ((∃ k j : Fin D, s = metricName k j) ∨ ∃ k i l : Fin D, s = sdName k i l) → (∀ e, (s, e) ∉ S.rel) ∧ ∀ i, s ≠ S.sol i

/-- C100: whole right hand sides on curvilinear grids. When the solution arrays hold the values of smooth fields of the Cartesian coordinates at the points of the grid and in the halos, the fields of the other datasets are those given by the
constituent relations, and the metric arrays are those of the beginning of the time loop, the right hand sides, sums of coefficients times transformed first and second derivatives, differ from the differential equations in Cartesian
coordinates by at most a constant times the power `2p` of the largest spacing, away from sides which are not periodic; the constant is the same for all grids given by the mapping. -/
theorem C100_right_hand_sides (p : ℕ) (hp1 : 1 ≤ p) {χ : E D → E D} {c : ℝ} (hχ : Mapping χ c) {cur str : Fin D → Bool} (hd : ∀ ξ, Describes cur str (jac χ ξ)) [Nonempty τ] (I₀ : Interp D) (U : τ → String → E D → ℝ) (terms : List (Term D))
    (hplain : ∀ T ∈ terms, T.coef.cds = [] ∧ T.arg.cds = []) (hsmooth : ∀ T ∈ terms, ∀ t, ContDiff ℝ ∞ (Order.exact I₀ (Order.ofData (U t)) T.arg))
    (htame : ∀ T ∈ terms, ∀ k, Tame fun t => pd k fun ξ => Order.exact I₀ (Order.ofData (U t)) T.arg (χ ξ)) (K : ℝ) (hK : ∀ T ∈ terms, ∀ t y, |Order.exact I₀ (Order.ofData (U t)) T.coef y| ≤ K) : ∃ C h0 : ℝ, 0 < h0 ∧
    ∀ {n : ℕ} {S : Setup D n} {M : Metrics2 D} {orig : Fin n → List (Term D)} {I : Interp D} {delta : Fin D → ℝ} {pts : Ranges.Kernel D → List (P D)} {inp : Alg.Input (Call D)} {B : Sol D n → Sol D n} {m : Mem D} {ks : List (Ker D)},
    OnMapping2 S M orig inp → Apart S → Enumerates pts → S.Valid → S.spatial = .ok ks → S.order = 2 * p → IsCentral S I delta → M.cur = cur → M.str = str → ∀ h ≤ h0, (∀ d, 0 < delta d ∧ delta d ≤ h) → ∀ x₀ : E D,
    HoldsCoordinates M.toMetrics S.np S.h (fun i y => χ (pos x₀ delta y) i) (atStart I pts S.sol B inp m) →
    ∀ i, orig i = terms → (∀ T ∈ terms, ∀ s ∈ T.coef.datas, (S.relation s).isSome ∨ ∃ k, s = S.sol k) →
    (∀ e, ((∃ T ∈ terms, e = T.coef ∨ e = T.arg) ∨ ∃ s, (s, e) ∈ S.rel) → Order.SameReading I I₀ e) → ∀ t, Order.Satisfies S I₀ (U t) →
    ∀ (q : Sol D n) (full : String → P D → ℝ), (∀ j y, Allocated S.np S.h y → q j y = U t (S.sol j) (χ (pos x₀ delta y))) → Consistent S I (fun s => atStart I pts S.sol B inp m (.data s)) q full →
    ∀ x, Grid S.np x → (∀ l, (M.fill l = .periodic ∧ ∀ i, ∃ L : ℝ, ∀ x, χ (pos x₀ delta (shift x l (S.np l))) i = χ (pos x₀ delta x) i + L) ∨ (S.h ≤ x l ∧ x l + S.h < S.np l)) →
    |(S.rhs i).eval I (memOf full) x - (terms.map fun T => T.exact I₀ (U t) (χ (pos x₀ delta x))).sum| ≤ C * h ^ (2 * p) := by
  have hone := fun T : { T // T ∈ terms } => C100_curvilinear p hp1 hχ hd (hsmooth T.1 T.2) (htame T.1 T.2)
  choose C h0 hpos hmain using hone
  obtain ⟨h1, h1pos, h1le⟩ := list_min terms.attach h0 fun T _ => hpos T
  refine ⟨(terms.attach.map fun T => |K| * |C T|).sum, h1, h1pos, fun {n S M orig I delta pts inp B m ks} hO hap hp hS hks hord hI hcur hstr h hh hδ x₀ hH i hi hcl hsame t hU q full hq hfull x hx hline => ?_⟩
  obtain ⟨order, horder⟩ := spatial_order hks
  -- the fields at the points of the grid
  set smp : String → P D → ℝ := fun s y => U t s (χ (pos x₀ delta y)) with hsmp
  have hexact : ∀ e : Ex D, e.cds = [] → Order.SameReading I I₀ e → ∀ y, e.eval I (memOf smp) y = Order.exact I₀ (Order.ofData (U t)) e (χ (pos x₀ delta y)) := fun e he hr y => by
    rw [← exact_comp I₀ (U t) χ e he]
    exact Order.exact_eval I I₀ (fun s ξ => U t s (χ ξ)) x₀ delta e he hr y
  have hcons : Consistent S I smp (fun j => smp (S.sol j)) smp := by
    refine ⟨fun _ => rfl, fun s e' hr hs y => ?_, fun _ _ _ => rfl⟩
    have hrel := (relation_iff hS.relNodup s e').2 hs
    rw [hexact e' (hS.relPlain s e' hrel).1 (hsame e' (.inr ⟨s, hs⟩))]
    exact hU s e' hs _
  have hagree : ∀ s ∈ (S.rhs i).datas, ((S.relation s).isSome ∨ ∃ k, s = S.sol k) → ∀ y, Allocated S.np S.h y → full s y = smp s y := fun s hs hs' y hy =>
    required_two hS.relations horder hO.relations hfull hcons (fun j => hq j y hy) s (rhs_required hS i s hs) hs'
  have hval : ∀ e : Ex D, e.cds = [] → Order.SameReading I I₀ e → (∀ s ∈ e.datas, s ∈ (S.rhs i).datas ∧ ((S.relation s).isSome ∨ ∃ k, s = S.sol k)) → ∀ y, Allocated S.np S.h y →
      e.eval I (memOf full) y = Order.exact I₀ (Order.ofData (U t)) e (χ (pos x₀ delta y)) := fun e he hr hs y hy => by
    rw [plain_point I e he fun s h => hagree s (hs s h).1 (hs s h).2 y hy, hexact e he hr]
  have hbox : ∀ k l y, Box S.np S.h [k, l] y → Allocated S.np S.h y := fun k l y hy d => by
    have h1 := hy d
    have h2 := S.h_nonneg
    split_ifs at h1 <;> omega
  have hgrid : Allocated S.np S.h x := fun d => by
    have := hx d
    have := S.h_nonneg
    omega
  rw [hO.rhs i, hi, mappedTerms_eval]
  have hatt : ∀ F : Term D → ℝ, (terms.map F).sum = (terms.attach.map fun T => F T.1).sum := fun F => by rw [List.attach_map_val]
  rw [hatt, hatt, ← List.sum_map_mul_right]
  refine list_error _ _ _ _ fun T _ => ?_
  have hh1 : h ≤ h0 T := hh.trans (h1le T (List.mem_attach _ _))
  have hTi : T.1 ∈ orig i := by rw [hi]; exact T.2
  obtain ⟨_, hx1⟩ := hmain T hO hp hord hI hcur hstr h hh1 hδ x₀ hH
  obtain ⟨hfirst, hsecond⟩ := hx1 x hx hline t (memOf full) (fun k j => hfull.rest _ (hap _ (.inl ⟨k, j, rfl⟩)).1 (hap _ (.inl ⟨k, j, rfl⟩)).2)
    (fun k i l => hfull.rest _ (hap _ (.inr ⟨k, i, l, rfl⟩)).1 (hap _ (.inr ⟨k, i, l, rfl⟩)).2) T.1.arg (fun k l y hy =>
      hval T.1.arg (hplain T.1 T.2).2 (hsame _ (.inl ⟨T.1, T.2, .inr rfl⟩)) (fun s hs => ⟨by rw [hO.rhs i]; exact terms_datas _ _ _ _ hTi s hs, hO.fluxes i T.1 hTi s hs⟩) y (hbox k l y hy))
  have hcoef := hval T.1.coef (hplain T.1 T.2).1 (hsame _ (.inl ⟨T.1, T.2, .inl rfl⟩)) (fun s hs => ⟨by rw [hO.rhs i]; exact coef_datas _ _ _ _ hTi s hs, hcl T.1 T.2 s hs⟩) x hgrid
  have hh0 : 0 ≤ h ^ (2 * p) := by rw [pow_mul]; positivity
  have hbound : ∀ a b : ℝ, |a - b| ≤ C T * h ^ (2 * p) → ∀ k : ℝ, |k| ≤ K → |k * a - k * b| ≤ |K| * |C T| * h ^ (2 * p) := by
    intro a b hab k hk
    rw [← mul_sub, abs_mul, mul_assoc]
    exact mul_le_mul (hk.trans (le_abs_self K)) (hab.trans (mul_le_mul_of_nonneg_right (le_abs_self _) hh0)) (abs_nonneg _) (abs_nonneg _)
  simp only [Term.mapped, Term.exact, Ex.eval, hcoef]
  cases hs : T.1.second with
  | none => exact hbound _ _ (hfirst _) _ (hK T.1 T.2 t _)
  | some j => exact hbound _ _ (hsecond _ _) _ (hK T.1 T.2 t _)

end OpenSBLI.Sim
