import Verif.Lemmas.OrderTame
import Verif.Props.C78_Conservation
import Verif.Props.C85_Closures

/-!
# C87: order of accuracy in space

The errors of derivatives of smooth functions, and of the right hand sides of the equations for smooth fields, as the grid is refined.
-/
namespace OpenSBLI.Order
open Sim
open scoped ContDiff

variable {D n : ℕ} {τ : Type}

/-! ## One derivative -/

/-- C87: the error of first and second derivatives by central differences of order `2m` is of order `2m` in the spacing, with a constant that does not depend on the function except for a bound of its derivative of order `2m+k`. -/
theorem C87_central (m : ℕ) (hm : 1 ≤ m) (k : ℕ) (hk : k = 1 ∨ k = 2) :
    ∃ C : ℝ, ∀ (f : ℝ → ℝ), ContDiff ℝ ∞ f → ∀ M, (∀ z, |iteratedDeriv (2 * m + k) f z| ≤ M) → ∀ (x₀ δ : ℝ), 0 < δ → ∀ j : ℤ,
      |Central.discretise (2 * m) k δ (fun i => f (x₀ + i * δ)) j - iteratedDeriv k f (x₀ + j * δ)| ≤ C * M * δ ^ (2 * m) := by
  obtain ⟨N, hN, hNk, hmom⟩ : ∃ N, N + 1 = 2 * m + k ∧ k ≤ N ∧ ∀ i ≤ N, moment (centralList (2 * m) k) i = if i = k then (k.factorial : ℝ) else 0 := by
    rcases hk with rfl | rfl
    · exact ⟨2 * m, rfl, by omega, fun i hi => central_moment m 1 i (.inl hi)⟩
    · exact ⟨2 * m + 1, rfl, by omega, fun i hi => central_moment m 2 i (.inr ⟨even_two, by omega, hi⟩)⟩
  refine ⟨errorConst (centralList (2 * m) k) N, fun f hf M hM x₀ δ hδ j => ?_⟩
  have h := formula_accurate hf N k hNk _ hmom (x₀ + j * δ) δ M hδ fun q _ z _ => by rw [hN]; exact hM z
  rw [centralList_sum (2 * m) k fun p => f (x₀ + j * δ + p * δ), hN, Nat.add_sub_cancel] at h
  convert h using 3
  rw [Central.discretise]
  congr 1
  refine Finset.sum_congr rfl fun p _ => ?_
  congr 2
  push_cast
  ring

/-- C87: near a boundary with a closure the order is the design degree of its formula plus one minus the order of the derivative. Partial: not the second derivative of the reduced order closure on the right, which has the wrong sign. -/
theorem C87_closure_partial (K : Closure.Kind) (k : ℕ) (hk : k = 1 ∨ k = 2) (side : Bool) (hbug : ¬ (K = .reducedOrder ∧ k = 2 ∧ side = true)) (j : ℕ) (hj : j < Closure.closurePoints K k) :
    ∃ C : ℝ, ∀ (m : Closure.Mods) (order : ℕ) (np x : ℤ), (if side then m.right else m.left) = some K → x = (if side then np - 1 - j else j) → (side = true → Closure.leftPoints m k ≤ x) →
      ∀ (f : ℝ → ℝ), ContDiff ℝ ∞ f → ∀ M, (∀ z, |iteratedDeriv (Closure.designDegree K k j + 1) f z| ≤ M) → ∀ (x₀ δ : ℝ), 0 < δ →
        ∃ v, Closure.discretised m order k 0 np δ (fun i => f (x₀ + i * δ)) x = some v ∧ |v - iteratedDeriv k f (x₀ + x * δ)| ≤ C * M * δ ^ (Closure.designDegree K k j + 1 - k) := by
  obtain ⟨ds, hds⟩ := Option.isSome_iff_exists.1 ((Closure.rows_isSome K side k).2 hk)
  have hlen := Closure.rows_length K side k ds hds
  have hlt : j < ds.length := hlen ▸ hj
  refine ⟨errorConst ds[j] (Closure.designDegree K k j), fun m order np x hm hx hleft f hf M hM x₀ δ hδ => ?_⟩
  have hat : Closure.rowAt m order k 0 np x = some ds[j] := by
    cases side
    · obtain ⟨ds', h1, h2, h3⟩ := Closure.C23_left_points m order k 0 np x hk K (by simpa using hm) j hj (by simpa using hx)
      rw [hds] at h1
      cases h1
      exact h3
    · obtain ⟨ds', h1, h2, h3⟩ := Closure.C23_right_points m order k 0 np x hk K (by simpa using hm) j hj (by simpa using hx) (by rw [zero_add]; exact hleft rfl)
      rw [hds] at h1
      cases h1
      exact h3
  have hdd : k ≤ Closure.designDegree K k j := by
    rcases hk with rfl | rfl <;> cases K <;> rcases j with _ | j <;> simp [Closure.designDegree]
  refine ⟨_, by rw [Closure.discretised, hat]; rfl, ?_⟩
  have h := formula_accurate hf _ k hdd ds[j] (fun i hi => Closure.rows_moments k K side ds hds hbug j hlt i hi) (x₀ + x * δ) δ M hδ fun q _ z _ => hM z
  have e : Closure.Row.eval ds[j] (fun i => f (x₀ + i * δ)) x = (ds[j].map fun q => q.2 * f (x₀ + x * δ + q.1 * δ)).sum := by
    rw [Closure.Row.eval]
    refine congrArg List.sum (List.map_congr_left fun q _ => ?_)
    congr 2
    push_cast
    ring
  rw [← e] at h
  exact h

/-- C87: for a function that is not a polynomial: the sine. The fourth order formula on a grid of spacing `1/10` has an error below a multiple of `1/10000`. -/
example : ∃ C : ℝ, ∀ j : ℤ, |Central.discretise 4 1 (1/10 : ℝ) (fun i => Real.sin (0 + i * (1/10))) j - Real.cos (0 + j * (1/10))| ≤ C * (1 / 10000) := by
  obtain ⟨C, h⟩ := C87_central 2 (by norm_num) 1 (.inl rfl)
  refine ⟨C, fun j => ?_⟩
  have hb : ∀ z, |iteratedDeriv (2 * 2 + 1) Real.sin z| ≤ 1 := fun z => by
    simp [iteratedDeriv_succ, Real.abs_cos_le_one]
  have := h Real.sin Real.contDiff_sin 1 hb 0 (1 / 10) (by norm_num) j
  simp only [iteratedDeriv_one, Real.deriv_sin] at this
  norm_num at this ⊢
  linarith

/-! ## Expressions and right hand sides -/

/-- C87: for smooth fields, expressions with derivatives (of sums, products, and of derivatives as in viscous terms) which are discretised with central differences of order `2m` differ from those with true derivatives by at most `C h^(2m)`, when the spacings in all directions
are at most `h`. The constant is the same for all grids, all grid points and all times. -/
theorem C87_expressions (m : ℕ) (hm : 1 ≤ m) (I₀ : Interp D) (fields : τ → Arr → E D → ℝ) (e : Ex D) (he : TameEx I₀ fields e) :
    ∃ C : ℝ, ∀ (I : Interp D) (δ : E D) (h : ℝ), SameReading I I₀ e → CentralReading (2 * m) δ I → (∀ d, 0 < δ d ∧ δ d ≤ h) → 0 ≤ h → h ≤ 1 → ∀ (t : τ) (x₀ : E D) (x : P D),
      |e.eval I (sample (fields t) x₀ δ) x - exact I₀ (fields t) e (pos x₀ δ x)| ≤ C * h ^ (2 * m) := by
  obtain ⟨C, _, hC⟩ := (ext_near hm I₀ fields e he).error.bound []
  refine ⟨C, fun I δ h hI hc hδ h0 h1 t x₀ x => ?_⟩
  rw [eval_ext I₀ I _ x₀ δ _ e hI hc]
  exact hC (⟨δ, h, fun d => (hδ d).1, fun d => (hδ d).2, h0, h1⟩, t) _

/-- Smooth fields for the datasets. -/
def ofData (U : String → E D → ℝ) : Arr → E D → ℝ
  | .data s => U s
  | _ => fun _ => 0

/-- Fields of all datasets which satisfy the constituent relations of a problem. -/
def Satisfies (S : Setup D n) (I : Interp D) (U : String → E D → ℝ) : Prop := ∀ s e, (s, e) ∈ S.rel → ∀ x, U s x = exact I (ofData U) e x

theorem exact_eval (I I₀ : Interp D) (U : String → E D → ℝ) (x₀ δ : E D) (e : Ex D) (hc : e.cds = []) (hI : SameReading I I₀ e) (x : P D) :
    e.eval I (memOf fun s x => U s (pos x₀ δ x)) x = exact I₀ (ofData U) e (pos x₀ δ x) := by
  induction e with
  | num _ => rfl
  | const c => exact hI.const c (by simp [Ex.constNames])
  | indexed t => simp only [Ex.eval, exact, hI.table, hI.stage]
  | arr a => cases a <;> rfl
  | cd d k e _ => simp [Ex.cds] at hc
  | add a b iha ihb | mul a b iha ihb =>
    simp only [Ex.cds, List.append_eq_nil_iff] at hc
    simp only [Ex.eval, exact]
    rw [iha hc.1 (hI.sub fun c hc => by simp [Ex.constNames, hc]), ihb hc.2 (hI.sub fun c hc => by simp [Ex.constNames, hc])]
  | pow a b iha ihb =>
    simp only [Ex.cds, List.append_eq_nil_iff] at hc
    simp only [Ex.eval, exact]
    rw [iha hc.1 (hI.sub fun c hc => by simp [Ex.constNames, hc]), ihb hc.2 (hI.sub fun c hc => by simp [Ex.constNames, hc]), hI.pow]
  | fn f e ih =>
    simp only [Ex.cds] at hc
    simp only [Ex.eval, exact]
    rw [ih hc (hI.sub fun c hc => by simpa [Ex.constNames] using hc), hI.fn]

/-- C87: the right hand sides of a problem, from the solution arrays. When these hold the values of smooth fields on the grid and in the halos, and the fields of the other datasets are those given by the constituent relations, the right hand sides computed from
the solution arrays (the functions of the solution that C77 and C85 say the generated program integrates) differ from the differential equations by at most `C h^(2m)` at all grid points; the constant is the same for all grids. -/
theorem C87_right_hand_sides (m : ℕ) (hm : 1 ≤ m) (I₀ : Interp D) (U : τ → String → E D → ℝ) (e : Ex D) (he : TameEx I₀ (fun t => ofData (U t)) e) :
    ∃ C : ℝ, ∀ (S : Setup D n) (i : Fin n) (I : Interp D) (δ : E D) (h : ℝ) (ks : List (Ker D)) (init : String → P D → ℝ) (t : τ) (x₀ : E D) (q : Sol D n) (full : String → P D → ℝ),
      S.Valid → S.spatial = .ok ks → Closed S → S.rhs i = e → e.nest [] = true → S.order = 2 * m → (∀ e', (e' = e ∨ ∃ s, (s, e') ∈ S.rel) → SameReading I I₀ e') → IsCentral S I δ →
      (∀ d, 0 < δ d ∧ δ d ≤ h) → 0 ≤ h → h ≤ 1 → Satisfies S I₀ (U t) →
      (∀ j x, Allocated S.np S.h x → q j x = U t (S.sol j) (pos x₀ δ x)) → Consistent S I init q full →
      ∀ x, Grid S.np x → |(S.rhs i).eval I (memOf full) x - exact I₀ (ofData (U t)) e (pos x₀ δ x)| ≤ C * h ^ (2 * m) := by
  obtain ⟨C, hC⟩ := C87_expressions m hm I₀ _ e he
  refine ⟨C, fun S i I δ h ks init t x₀ q full hS hks hcl hi hnest ho hsame hI hδ h0 h1 hU hq hfull x hx => ?_⟩
  obtain ⟨order, hord⟩ := spatial_order hks
  set smp : String → P D → ℝ := fun s x => U t s (pos x₀ δ x) with hsmp
  have hcons : Consistent S I smp (fun j => smp (S.sol j)) smp := by
    refine ⟨fun _ => rfl, fun s e' hr hs x => ?_, fun _ _ _ => rfl⟩
    have hrel := (relation_iff hS.relNodup s e').2 hs
    rw [exact_eval I I₀ (U t) x₀ δ e' (hS.relPlain s e' hrel).1 (hsame e' (.inr ⟨s, hs⟩))]
    exact hU s e' hs _
  have hagree : ∀ s ∈ (S.rhs i).datas, ∀ y, Allocated S.np S.h y → full s y = smp s y := fun s hs y hy =>
    required_two hS.relations hord (fun t e he s hs => hcl s (.inr ⟨t, e, he, hs⟩)) hfull hcons (fun j => hq j y hy) s (rhs_required hS i s hs) (hcl s (.inl ⟨i, hs⟩))
  rw [nest_two hI (S.rhs i) hagree [] (by rw [hi]; exact hnest) ((box_nil _ _ _).2 hx), hi]
  have := hC I δ h (hsame e (.inl rfl)) (fun d k f x => by rw [hI, ho]) hδ h0 h1 t x₀ x
  have hmem : e.eval I (memOf smp) = e.eval I (sample (ofData (U t)) x₀ δ) := by
    congr 1
    funext a
    cases a <;> rfl
  rw [hmem]
  exact this

end OpenSBLI.Order
