import Verif.Lemmas.Llf
import Verif.Props.C03_C05_RungeKutta
import Verif.Props.C16_Eigen

/-!
# C14 and C15: conservation of the shock capturing derivative, local Lax-Friedrichs splitting
-/
namespace OpenSBLI.Llf
open Weno Matrix

/-! ## C15 -/

theorem maxWave_congr (pts : List ℤ) (e e' : ℤ → ℝ) (h : ∀ p ∈ pts, e p = e' p) :
    maxWave pts e = maxWave pts e' := by
  unfold maxWave
  generalize (0:ℝ) = a
  induction pts generalizing a with
  | nil => rfl
  | cons x l ih =>
    simp only [List.foldl_cons]
    rw [h x (List.mem_cons_self ..)]
    exact ih (fun p hp => h p (List.mem_cons_of_mem _ hp)) _

/-- **C15.** The two split fluxes add up to the flux, and their difference is the dissipation
`alpha` times the solution. -/
theorem C15_split_sum (CF CS alpha : ℝ) :
    positive CF CS alpha + negative CF CS alpha = CF ∧
    positive CF CS alpha - negative CF CS alpha = alpha * CS := by
  unfold positive negative
  constructor <;> ring

/-- **C15.** The splitting speed is exactly the largest absolute eigenvalue over the stencil: it
bounds all of them and is the least such nonnegative number. -/
theorem C15_max_wave_speed (s : Scheme) (ev : ℤ → ℝ) :
    (∀ side, ∀ p ∈ s.funcPoints side, |ev p| ≤ maxWave s.stencilPoints ev) ∧
    0 ≤ maxWave s.stencilPoints ev ∧
    (∀ c, 0 ≤ c → (∀ side, ∀ p ∈ s.funcPoints side, |ev p| ≤ c) → maxWave s.stencilPoints ev ≤ c) := by
  refine ⟨fun side p hp => abs_le_foldl_max ev _ 0 p (mem_stencilPoints s side p hp),
    le_foldl_max ev _ 0, fun c hc h => foldl_max_le ev _ 0 c hc fun p hp => ?_⟩
  unfold Scheme.stencilPoints at hp
  rw [Finset.mem_sort, Finset.mem_union] at hp
  rcases hp with hp | hp
  · exact h .right p hp
  · exact h .left p hp

/-- **C15.** The interface flux uses no value outside the declared stencil points. -/
theorem C15_stencil_local {n : ℕ} (s : Scheme) (hs : s.Valid) (l l' : Line n) (x : ℤ)
    (hL : l.LEV x = l'.LEV x) (hR : l.REV x = l'.REV x)
    (h : ∀ p ∈ s.stencilPoints, l.f (x+p) = l'.f (x+p) ∧ l.q (x+p) = l'.q (x+p) ∧
      l.ev (x+p) = l'.ev (x+p)) :
    interfaceFlux s l x = interfaceFlux s l' x := by
  have ha : ∀ i, maxWave s.stencilPoints (fun p => l.ev (x+p) i) =
      maxWave s.stencilPoints (fun p => l'.ev (x+p) i) := by
    intro i
    exact maxWave_congr _ _ _ fun p hp => by rw [(h p hp).2.2]
  unfold interfaceFlux
  rw [hR]
  congr 1
  funext i
  simp only [characteristic, ha, hL]
  congr 1
  · congr 1
    exact recon_congr s hs _ _ _ fun p hp => by
      obtain ⟨h1, h2, _⟩ := h p (mem_stencilPoints s _ p hp)
      rw [h1, h2]
  · exact recon_congr s hs _ _ _ fun p hp => by
      obtain ⟨h1, h2, _⟩ := h p (mem_stencilPoints s _ p hp)
      rw [h1, h2]

/-- **C15.** The WENO stencil reaches from `-(k-1)` to `k`, the TENO stencils from `-2` to `3`. -/
theorem C15_stencil_points (s : Scheme) (p : ℤ) : p ∈ s.stencilPoints ↔
    match s with
    | .weno _ k _ _ => 0 < k ∧ -((k:ℤ)-1) ≤ p ∧ p ≤ k
    | .teno _ _ _ => -2 ≤ p ∧ p ≤ 3 := by
  unfold Scheme.stencilPoints
  rw [Finset.mem_sort, Finset.mem_union]
  cases s with
  | weno form k dz d =>
    simp only [Scheme.funcPoints, Finset.mem_biUnion, Finset.mem_image, Finset.mem_range, funcPoint,
      Side.c]
    constructor
    · rintro (⟨r, hr, j, hj, rfl⟩ | ⟨r, hr, j, hj, rfl⟩) <;> omega
    · rintro ⟨hk, h1, h2⟩
      rcases le_or_gt p 0 with hp | hp
      · exact Or.inl ⟨(-p).toNat, by omega, 0, hk, by omega⟩
      · exact Or.inr ⟨0, hk, (p-1).toNat, by omega, by omega⟩
  | teno o eps CT =>
    cases o
    · have : (∃ i ∈ Finset.range 3, p ∈ (Teno.points .right i).toFinset) ∨
          (∃ i ∈ Finset.range 3, p ∈ (Teno.points .left i).toFinset) ↔ -2 ≤ p ∧ p ≤ 3 := by
        simp [Finset.range_add_one, Teno.points]
        omega
      simpa [Scheme.funcPoints, Teno.Order.n] using this
    · have : (∃ i ∈ Finset.range 4, p ∈ (Teno.points .right i).toFinset) ∨
          (∃ i ∈ Finset.range 4, p ∈ (Teno.points .left i).toFinset) ↔ -2 ≤ p ∧ p ≤ 3 := by
        simp [Finset.range_add_one, Teno.points]
        omega
      simpa [Scheme.funcPoints, Teno.Order.n] using this

/-- **C15.** Consistency: if flux and solution are the same at all points of the stencil, and the
interface eigenvector matrices are inverse, the interface flux is that flux.  Any scheme, any
eigenvalues, any system size. -/
theorem C15_uniform_flux {n : ℕ} (s : Scheme) (hs : s.Valid) (l : Line n) (x : ℤ)
    (f₀ q₀ : Fin n → ℝ) (hRL : l.REV x * l.LEV x = 1)
    (h : ∀ p ∈ s.stencilPoints, l.f (x+p) = f₀ ∧ l.q (x+p) = q₀) :
    interfaceFlux s l x = f₀ := by
  have hc : characteristic s l x = l.LEV x *ᵥ f₀ := by
    funext i
    simp only [characteristic]
    rw [recon_congr s hs .right _ (fun _ => positive ((l.LEV x *ᵥ f₀) i) ((l.LEV x *ᵥ q₀) i)
        (maxWave s.stencilPoints fun p => l.ev (x+p) i)) (fun p hp => by
          obtain ⟨h1, h2⟩ := h p (mem_stencilPoints s _ p hp)
          rw [h1, h2]),
      recon_congr s hs .left _ (fun _ => negative ((l.LEV x *ᵥ f₀) i) ((l.LEV x *ᵥ q₀) i)
        (maxWave s.stencilPoints fun p => l.ev (x+p) i)) (fun p hp => by
          obtain ⟨h1, h2⟩ := h p (mem_stencilPoints s _ p hp)
          rw [h1, h2]),
      recon_const s hs, recon_const s hs, zero_add, (C15_split_sum _ _ _).1]
  unfold interfaceFlux
  rw [hc, mulVec_mulVec, hRL, one_mulVec]

/-- **C15.** Upwinding for a linear system `f = R diag(λ) L q` with constant matrices: each
characteristic variable is reconstructed from one side only, the one its wave comes from. -/
theorem C15_upwind_linear {n : ℕ} (s : Scheme) (hs : s.Valid) (l : Line n) (x : ℤ)
    (R L : Matrix (Fin n) (Fin n) ℝ) (ev : Fin n → ℝ) (hLR : L * R = 1)
    (hL : l.LEV x = L) (hev : ∀ y, l.ev y = ev)
    (hf : ∀ y, l.f y = (R * diagonal ev * L) *ᵥ l.q y) (i : Fin n) :
    (0 ≤ ev i → characteristic s l x i = s.recon .right fun p => ev i * (L *ᵥ l.q (x+p)) i) ∧
    (ev i ≤ 0 → characteristic s l x i = s.recon .left fun p => ev i * (L *ᵥ l.q (x+p)) i) := by
  have hne : s.stencilPoints ≠ [] := by
    have : (0:ℤ) ∈ s.stencilPoints := by
      rw [C15_stencil_points]
      cases s with
      | weno form k dz d => have := hs.1; simp only; omega
      | teno o eps CT => simp
    exact List.ne_nil_of_mem this
  have ha : (maxWave s.stencilPoints fun p => l.ev (x+p) i) = |ev i| := by
    obtain ⟨p, hp⟩ := List.exists_mem_of_ne_nil _ hne
    apply le_antisymm
    · exact foldl_max_le _ _ 0 _ (abs_nonneg _) fun p _ => by rw [hev]
    · have := abs_le_foldl_max (fun p => l.ev (x+p) i) s.stencilPoints 0 p hp
      simp only [hev] at this ⊢
      exact this
  have hcf : ∀ y, (L *ᵥ l.f y) i = ev i * (L *ᵥ l.q y) i := by
    intro y
    rw [hf, mulVec_mulVec, ← Matrix.mul_assoc, ← Matrix.mul_assoc, hLR, Matrix.one_mul,
      ← mulVec_mulVec, mulVec_diagonal]
  have h0 : ∀ side, s.recon side (fun _ => (0:ℝ)) = 0 := fun side => recon_const s hs side 0
  constructor
  · intro hpos
    have hp : (fun p => positive (ev i * (L *ᵥ l.q (x+p)) i) ((L *ᵥ l.q (x+p)) i) (ev i)) =
        fun p => ev i * (L *ᵥ l.q (x+p)) i := by funext p; unfold positive; ring
    have hn : (fun p => negative (ev i * (L *ᵥ l.q (x+p)) i) ((L *ᵥ l.q (x+p)) i) (ev i)) =
        fun _ => (0:ℝ) := by funext p; unfold negative; ring
    simp only [characteristic, ha, hL, hcf, abs_of_nonneg hpos, hp, hn, h0, zero_add, add_zero]
  · intro hneg
    have hp : (fun p => positive (ev i * (L *ᵥ l.q (x+p)) i) ((L *ᵥ l.q (x+p)) i) (-ev i)) =
        fun _ => (0:ℝ) := by funext p; unfold positive; ring
    have hn : (fun p => negative (ev i * (L *ᵥ l.q (x+p)) i) ((L *ᵥ l.q (x+p)) i) (-ev i)) =
        fun p => ev i * (L *ᵥ l.q (x+p)) i := by funext p; unfold negative; ring
    simp only [characteristic, ha, hL, hcf, abs_of_nonpos hneg, hp, hn, h0, zero_add]

/-- **C15.** One-signed wave speeds for the Euler equations: at a state of the stencil, the
positive split flux `½(f(q) + R diag(alpha) L q)` changes along the `j`-th right eigenvector with a
nonnegative speed, the negative split flux with a nonpositive one (any dimension, any eigensystem
satisfying C16). -/
theorem C15_split_speeds {n : ℕ} (g : ℝ) (k : Fin n → ℝ) (q : Fin (n+2) → ℝ)
    (R L : Matrix (Fin (n+2)) (Fin (n+2)) ℝ) (s : Scheme) (ev : ℤ → Fin (n+2) → ℝ) (side : Side)
    (p : ℤ) (hp : p ∈ s.funcPoints side) (hLR : L * R = 1)
    (he : ∀ j, HasDerivAt (fun t : ℝ => Spec.eulerFlux g k (q + t • fun i => R i j))
      (ev p j • fun i => R i j) 0) (j : Fin (n+2)) :
    ∃ cp cn : ℝ, 0 ≤ cp ∧ cn ≤ 0 ∧ cp + cn = ev p j ∧
      HasDerivAt (fun t : ℝ => fun i => positive ((L *ᵥ Spec.eulerFlux g k (q + t • fun i => R i j)) i)
        ((L *ᵥ (q + t • fun i => R i j)) i) (maxWave s.stencilPoints fun p => ev p i))
        (cp • Pi.single j 1) 0 ∧
      HasDerivAt (fun t : ℝ => fun i => negative ((L *ᵥ Spec.eulerFlux g k (q + t • fun i => R i j)) i)
        ((L *ᵥ (q + t • fun i => R i j)) i) (maxWave s.stencilPoints fun p => ev p i))
        (cn • Pi.single j 1) 0 := by
  set α : Fin (n+2) → ℝ := fun i => maxWave s.stencilPoints fun p => ev p i with hα
  have hb : |ev p j| ≤ α j :=
    abs_le_foldl_max (fun p => ev p j) _ 0 p (mem_stencilPoints s side p hp)
  obtain ⟨hb1, hb2⟩ := abs_le.1 hb
  have hcol : L *ᵥ (fun i => R i j) = Pi.single j 1 := by
    funext i
    have := congrFun (congrFun hLR i) j
    rw [Matrix.mul_apply] at this
    simp only [mulVec, dotProduct]
    rw [this, Matrix.one_apply, Pi.single_apply]
  have hF : ∀ i, HasDerivAt (fun t : ℝ => (L *ᵥ Spec.eulerFlux g k (q + t • fun i => R i j)) i)
      (ev p j * (Pi.single j (1:ℝ) : Fin (n+2) → ℝ) i) 0 := by
    intro i
    have h1 : HasDerivAt (fun t : ℝ => ∑ m, L i m *
        Spec.eulerFlux g k (q + t • fun i => R i j) m) (∑ m, L i m * (ev p j * R m j)) 0 :=
      HasDerivAt.fun_sum fun m _ => ((hasDerivAt_pi.1 (he j)) m).const_mul (L i m)
    refine h1.congr_deriv ?_
    rw [← hcol]
    simp only [mulVec, dotProduct, Finset.mul_sum]
    exact Finset.sum_congr rfl fun m _ => by ring
  have hS : ∀ i, HasDerivAt (fun t : ℝ => (L *ᵥ (q + t • fun i => R i j)) i)
      ((Pi.single j (1:ℝ) : Fin (n+2) → ℝ) i) 0 := by
    intro i
    have h1 : HasDerivAt (fun t : ℝ => (L *ᵥ q) i + t * (L *ᵥ fun i => R i j) i)
        (1 * (L *ᵥ fun i => R i j) i) 0 :=
      ((hasDerivAt_id (0:ℝ)).mul_const _).const_add _
    rw [one_mul, hcol] at h1
    refine h1.congr_of_eventuallyEq (Filter.Eventually.of_forall fun t => ?_)
    simp only [mulVec_add, mulVec_smul, hcol, Pi.add_apply, Pi.smul_apply, smul_eq_mul]
  refine ⟨1/2 * (ev p j + α j), 1/2 * (ev p j - α j), by linarith, by linarith, by ring, ?_, ?_⟩
  · refine hasDerivAt_pi.2 fun i => ?_
    unfold positive
    refine (((hF i).add ((hS i).const_mul (α i))).const_mul (1/2)).congr_deriv ?_
    simp only [Pi.smul_apply, smul_eq_mul, Pi.single_apply]
    split_ifs with h
    · subst h; ring
    · ring
  · refine hasDerivAt_pi.2 fun i => ?_
    unfold negative
    refine (((hF i).sub ((hS i).const_mul (α i))).const_mul (1/2)).congr_deriv ?_
    simp only [Pi.smul_apply, smul_eq_mul, Pi.single_apply]
    split_ifs with h
    · subst h; ring
    · ring

/-- A first order WENO like setting meeting the hypotheses: fifth order TENO with the default
parameters is valid, and its splitting speed for eigenvalues `ev p = p` is `3`. -/
example : (Scheme.teno .five (1/10^16) (1/10^5)).Valid := by
  simp only [Scheme.Valid, Teno.Order.n]; norm_num

example : maxWave (Scheme.teno .five (1/10^16) (1/10^5)).stencilPoints (fun p => (p:ℝ)) = 3 := by
  apply le_antisymm
  · refine (C15_max_wave_speed _ _).2.2 3 (by norm_num) fun side p hp => ?_
    have := (C15_stencil_points _ p).1 (mem_stencilPoints _ side p hp)
    simp only at this
    have h1 : (-2:ℝ) ≤ p := by exact_mod_cast this.1
    have h2 : (p:ℝ) ≤ 3 := by exact_mod_cast this.2
    rw [abs_le]; constructor <;> linarith
  · have h := (C15_max_wave_speed (Scheme.teno .five (1/10^16) (1/10^5)) (fun p => (p:ℝ))).1 .left 3 (by
      simp [Scheme.funcPoints, Teno.Order.n, Finset.range_add_one, Teno.points])
    norm_num at h
    norm_num
    exact h

/-- Fifth order WENO-Z with its own optimal weights is valid. -/
example : (Scheme.weno .Z 3 1 fun side => optimal side 3).Valid :=
  ⟨by norm_num, by norm_num, one_ne_zero, fun side => optimal_satisfies side 3⟩

/-! ## C14 -/

/-- **C14.** Over any set of consecutive points the sum of the discretised derivative times the
spacing is the difference of the two end fluxes. -/
theorem C14_telescoping (delta : ℝ) (hd : delta ≠ 0) (work : ℤ → ℝ) (a : ℤ) (n : ℕ) :
    ∑ i ∈ Finset.range n, delta * derivative delta work (a + i) =
      work (a + n - 1) - work (a - 1) := by
  induction n with
  | zero => simp
  | succ n ih =>
    rw [Finset.sum_range_succ, ih]
    unfold derivative
    have e : a + ((n+1:ℕ):ℤ) - 1 = a + n := by push_cast; ring
    rw [mul_div_cancel₀ _ hd, e]
    ring

/-- Pointwise physics of one direction: flux, eigenvalues, and the eigenvector matrices of the
averaged state. -/
structure Physics (n : ℕ) where
  flux : (Fin n → ℝ) → Fin n → ℝ
  ev : (Fin n → ℝ) → Fin n → ℝ
  LEV : (Fin n → ℝ) → (Fin n → ℝ) → Matrix (Fin n) (Fin n) ℝ
  REV : (Fin n → ℝ) → (Fin n → ℝ) → Matrix (Fin n) (Fin n) ℝ

/-- The grid line through `x` in direction `e` of a periodic grid `G`. -/
def lineThrough {G : Type} [AddCommGroup G] {n : ℕ} (ph : Physics n) (e : G) (q : G → Fin n → ℝ)
    (x : G) : Line n where
  f := fun p => ph.flux (q (x + p • e))
  q := fun p => q (x + p • e)
  ev := fun p => ph.ev (q (x + p • e))
  LEV := fun p => ph.LEV (q (x + p • e)) (q (x + (p+1) • e))
  REV := fun p => ph.REV (q (x + p • e)) (q (x + (p+1) • e))

/-- Residual on a periodic grid with `D` directions: minus the sum of the discretised derivatives
(`evaluate_residuals`, shock_capturing.py 21-34, for equations in conservative form). -/
noncomputable def residual {G : Type} [AddCommGroup G] {n D : ℕ} (s : Scheme) (ph : Fin D → Physics n)
    (e : Fin D → G) (delta : Fin D → ℝ) (q : G → Fin n → ℝ) : G → Fin n → ℝ := fun x c =>
  -∑ d, derivative (delta d) (fun p => interfaceFlux s (lineThrough (ph d) (e d) q x) p c) 0

theorem interface_shift {G : Type} [AddCommGroup G] {n : ℕ} (s : Scheme) (ph : Physics n) (e : G)
    (q : G → Fin n → ℝ) (x : G) (p : ℤ) :
    interfaceFlux s (lineThrough ph e q x) p = interfaceFlux s (lineThrough ph e q (x + p • e)) 0 := by
  have h : ∀ m : ℤ, x + (p+m) • e = x + p • e + (0+m) • e := by
    intro m; rw [add_smul, zero_add, add_assoc]
  have h0 : x + p • e = x + p • e + (0:ℤ) • e := by rw [zero_smul, add_zero]
  have hL : (lineThrough ph e q x).LEV p = (lineThrough ph e q (x + p • e)).LEV 0 := by
    simp only [lineThrough, h]; rw [← h0]
  have hR : (lineThrough ph e q x).REV p = (lineThrough ph e q (x + p • e)).REV 0 := by
    simp only [lineThrough, h]; rw [← h0]
  unfold interfaceFlux
  rw [hR]
  congr 1
  funext i
  simp only [characteristic, hL]
  simp only [lineThrough, h]

/-- **C14.** On a periodic grid of any shape and number of dimensions, the sum of every component of
the shock capturing residual over the grid vanishes. -/
theorem C14_periodic_residual_sum {G : Type} [AddCommGroup G] [Fintype G] {n D : ℕ} (s : Scheme)
    (ph : Fin D → Physics n) (e : Fin D → G) (delta : Fin D → ℝ) (q : G → Fin n → ℝ) (c : Fin n) :
    ∑ x, residual s ph e delta q x c = 0 := by
  simp only [residual, Finset.sum_neg_distrib, neg_eq_zero]
  rw [Finset.sum_comm]
  refine Finset.sum_eq_zero fun d _ => ?_
  simp only [derivative]
  rw [← Finset.sum_div, Finset.sum_sub_distrib]
  have h1 : ∀ x : G, interfaceFlux s (lineThrough (ph d) (e d) q x) (0-1) c =
      interfaceFlux s (lineThrough (ph d) (e d) q (x - e d)) 0 c := by
    intro x
    rw [interface_shift s (ph d) (e d) q x (0-1)]
    congr 3
    rw [zero_sub, neg_smul, one_smul, sub_eq_add_neg]
  simp only [h1]
  rw [Fintype.sum_equiv (Equiv.subRight (e d)) (fun x => interfaceFlux s
    (lineThrough (ph d) (e d) q (x - e d)) 0 c) (fun x => interfaceFlux s
    (lineThrough (ph d) (e d) q x) 0 c) (fun x => rfl), sub_self, zero_div]

/-- The discrete integral of component `c`. -/
def total {G : Type} [Fintype G] {n : ℕ} (c : Fin n) : (G → Fin n → ℝ) →ₗ[ℝ] ℝ where
  toFun q := ∑ x, q x c
  map_add' q r := by simp [Finset.sum_add_distrib]
  map_smul' a q := by simp [Finset.mul_sum]

/-- **C14.** On a periodic grid every conserved total is unchanged by any number of steps of the
default Runge-Kutta scheme. -/
theorem C14_periodic_conservation {G : Type} [AddCommGroup G] [Fintype G] {n D : ℕ} (s : Scheme)
    (ph : Fin D → Physics n) (e : Fin D → G) (delta : Fin D → ℝ) (dt : ℝ) (m : ℕ)
    (st : RK.State (G → Fin n → ℝ)) (c : Fin n) :
    ∑ x, (RK.run (residual s ph e delta) id dt m st).new x c = ∑ x, st.new x c :=
  RK.C04_linear_invariants (residual s ph e delta) id dt (total c)
    (fun q => C14_periodic_residual_sum s ph e delta q c) (fun _ => rfl) m st

end OpenSBLI.Llf
