import Verif.Props.C14_C15_Llf

/-!
# C17: interface averages
-/
namespace OpenSBLI.Llf
open Spec Euler Matrix

/-- **C17.** The simple average is consistent, symmetric and lies between its arguments. -/
theorem C17_simple_average (a b : ℝ) :
    simpleAverage a a = a ∧ simpleAverage a b = simpleAverage b a ∧
    min a b ≤ simpleAverage a b ∧ simpleAverage a b ≤ max a b := by
  unfold simpleAverage
  refine ⟨by ring, by ring, ?_, ?_⟩
  · have h1 := min_le_left a b; have h2 := min_le_right a b; linarith
  · have h1 := le_max_left a b; have h2 := le_max_right a b; linarith

example : simpleAverage 1 4 = 5/2 := by unfold simpleAverage; norm_num

/-- A physical state of an ideal gas: positive density and pressure, total energy from the
equation of state. -/
structure Prim.Ideal {n : ℕ} (g : ℝ) (s : Prim n) : Prop where
  rho_pos : 0 < s.rho
  p_pos : 0 < s.p
  energy : s.rhoE = s.p / (g-1) + s.rho * (∑ i, s.u i ^ 2) / 2

/-- Speed of sound. -/
noncomputable def Prim.sound {n : ℕ} (g : ℝ) (s : Prim n) : ℝ := Real.sqrt (g * s.p / s.rho)

theorem enthalpy_ideal {n : ℕ} (g : ℝ) (hg : 1 < g) (s : Prim n) (hs : s.Ideal g) :
    (g-1) * (enthalpy s - (∑ i, s.u i ^ 2) / 2) = g * s.p / s.rho := by
  have h1 := hs.rho_pos.ne'
  have h2 : g - 1 ≠ 0 := by linarith
  unfold enthalpy
  rw [hs.energy]
  field_simp
  ring

/-- **C17.** The Roe averages of two identical states are that state. -/
theorem C17_roe_consistent {n : ℕ} (g : ℝ) (hg : 1 < g) (s : Prim n) (hs : s.Ideal g) :
    roeRho s s = s.rho ∧ (∀ i, roeU s s i = s.u i) ∧ roeH s s = enthalpy s ∧
    roeA g s s = s.sound g := by
  have hq : 0 < Real.sqrt s.rho := Real.sqrt_pos.2 hs.rho_pos
  have hu : ∀ i, roeU s s i = s.u i := by
    intro i
    unfold roeU roeInv
    field_simp
  have hH : roeH s s = enthalpy s := by
    unfold roeH roeInv
    field_simp
  refine ⟨Real.sqrt_mul_self hs.rho_pos.le, hu, hH, ?_⟩
  unfold roeA roeKE Prim.sound
  simp only [hu, hH]
  rw [← enthalpy_ideal g hg s hs]
  congr 2
  ring

/-- **C17.** All Roe averages are symmetric in the two states. -/
theorem C17_roe_symmetric {n : ℕ} (g : ℝ) (l r : Prim n) :
    roeRho l r = roeRho r l ∧ (∀ i, roeU l r i = roeU r l i) ∧ roeH l r = roeH r l ∧
    roeA g l r = roeA g r l := by
  have hi : roeInv l r = roeInv r l := by unfold roeInv; rw [add_comm]
  have hu : ∀ i, roeU l r i = roeU r l i := by
    intro i; unfold roeU; rw [hi, add_comm]
  have hH : roeH l r = roeH r l := by unfold roeH; rw [hi, add_comm]
  refine ⟨by unfold roeRho; rw [mul_comm], hu, hH, ?_⟩
  unfold roeA roeKE
  simp only [hu, hH]

theorem weighted_between (s t x y : ℝ) (hs : 0 < s) (ht : 0 < t) :
    min x y ≤ (s*x + t*y) * (t + s)⁻¹ ∧ (s*x + t*y) * (t + s)⁻¹ ≤ max x y := by
  have hp : 0 < t + s := by positivity
  rw [← div_eq_mul_inv, le_div_iff₀ hp, div_le_iff₀ hp]
  constructor
  · nlinarith [min_le_left x y, min_le_right x y]
  · nlinarith [le_max_left x y, le_max_right x y]

/-- **C17.** Averaged velocities and enthalpy lie between the two states, the averaged density
between the two densities. -/
theorem C17_roe_between {n : ℕ} (l r : Prim n) (hl : 0 < l.rho) (hr : 0 < r.rho) :
    (∀ i, min (l.u i) (r.u i) ≤ roeU l r i ∧ roeU l r i ≤ max (l.u i) (r.u i)) ∧
    (min (enthalpy l) (enthalpy r) ≤ roeH l r ∧ roeH l r ≤ max (enthalpy l) (enthalpy r)) ∧
    (min l.rho r.rho ≤ roeRho l r ∧ roeRho l r ≤ max l.rho r.rho) := by
  have h1 := Real.sqrt_pos.2 hl
  have h2 := Real.sqrt_pos.2 hr
  refine ⟨fun i => weighted_between _ _ _ _ h1 h2, weighted_between _ _ _ _ h1 h2, ?_, ?_⟩
  · unfold roeRho
    apply Real.le_sqrt_of_sq_le
    rw [sq]
    exact mul_le_mul (min_le_left _ _) (min_le_right _ _) (le_min hl.le hr.le) hl.le
  · unfold roeRho
    rw [Real.sqrt_le_left (le_max_of_le_left hl.le), sq]
    exact mul_le_mul (le_max_left _ _) (le_max_right _ _) hr.le (le_max_of_le_left hl.le)

/-- **C17.** The radicand of the averaged sound speed is positive, so the averaged sound speed is a
positive real number, for any two physical states. -/
theorem C17_roe_sound_speed_positive {n : ℕ} (g : ℝ) (hg : 1 < g) (l r : Prim n) (hl : l.Ideal g)
    (hr : r.Ideal g) : 0 < (g-1) * (roeH l r - roeKE l r) ∧ 0 < roeA g l r := by
  have h1 := Real.sqrt_pos.2 hl.rho_pos
  have h2 := Real.sqrt_pos.2 hr.rho_pos
  have hg1 : 0 < g - 1 := by linarith
  have hpos : 0 < roeH l r - roeKE l r := by
    have eL := enthalpy_ideal g hg l hl
    have eR := enthalpy_ideal g hg r hr
    have pL : 0 < enthalpy l - (∑ i, l.u i ^ 2) / 2 := by
      have : 0 < (g-1) * (enthalpy l - (∑ i, l.u i ^ 2) / 2) := by
        rw [eL]; exact div_pos (mul_pos (by linarith) hl.p_pos) hl.rho_pos
      exact pos_of_mul_pos_right this hg1.le
    have pR : 0 < enthalpy r - (∑ i, r.u i ^ 2) / 2 := by
      have : 0 < (g-1) * (enthalpy r - (∑ i, r.u i ^ 2) / 2) := by
        rw [eR]; exact div_pos (mul_pos (by linarith) hr.p_pos) hr.rho_pos
      exact pos_of_mul_pos_right this hg1.le
    unfold roeH roeKE roeU roeInv
    set s := Real.sqrt l.rho
    set t := Real.sqrt r.rho
    have hp : 0 < t + s := by positivity
    have hk : ∑ i, ((s * l.u i + t * r.u i) * (t + s)⁻¹)^2 ≤
        (s * ∑ i, l.u i ^ 2 + t * ∑ i, r.u i ^ 2) * (t + s)⁻¹ := by
      rw [Finset.mul_sum, Finset.mul_sum, ← Finset.sum_add_distrib, Finset.sum_mul]
      refine Finset.sum_le_sum fun i _ => ?_
      rw [← div_eq_mul_inv, ← div_eq_mul_inv, div_pow, div_le_div_iff₀ (by positivity) hp]
      have : (s * l.u i + t * r.u i)^2 ≤ (s * l.u i ^ 2 + t * r.u i ^ 2) * (t + s) := by
        nlinarith [mul_nonneg (mul_nonneg h1.le h2.le) (sq_nonneg (l.u i - r.u i))]
      calc (s * l.u i + t * r.u i)^2 * (t + s) ≤
          (s * l.u i ^ 2 + t * r.u i ^ 2) * (t + s) * (t + s) :=
            mul_le_mul_of_nonneg_right this hp.le
        _ = _ := by ring
    have : 0 < (s * (enthalpy l - (∑ i, l.u i ^ 2) / 2) + t * (enthalpy r - (∑ i, r.u i ^ 2) / 2))
        * (t + s)⁻¹ := by positivity
    have e : (s * (enthalpy l - (∑ i, l.u i ^ 2) / 2) + t * (enthalpy r - (∑ i, r.u i ^ 2) / 2))
        * (t + s)⁻¹ = (s * enthalpy l + t * enthalpy r) * (t + s)⁻¹ -
          1/2 * ((s * ∑ i, l.u i ^ 2 + t * ∑ i, r.u i ^ 2) * (t + s)⁻¹) := by ring
    rw [e] at this
    linarith
  exact ⟨mul_pos hg1 hpos, Real.sqrt_pos.2 (mul_pos hg1 hpos)⟩

/-- Two different states of air, `rho = 1` at rest and `rho = 4` in motion, to which the theorems
apply; the averaged velocity is `2/3` of the right one. -/
noncomputable def exL : Prim 1 := ⟨1, ![0], 1, 5/2⟩
noncomputable def exR : Prim 1 := ⟨4, ![3], 2, 23⟩

example : exL.Ideal (7/5) ∧ exR.Ideal (7/5) ∧ roeRho exL exR = 2 ∧ roeU exL exR 0 = 2 := by
  have h4 : Real.sqrt 4 = 2 := by
    rw [show (4:ℝ) = 2^2 by norm_num]; exact Real.sqrt_sq (by norm_num)
  refine ⟨⟨by norm_num [exL], by norm_num [exL], by norm_num [exL]⟩,
    ⟨by norm_num [exR], by norm_num [exR], by norm_num [exR]⟩, ?_, ?_⟩
  · simp [roeRho, exL, exR, h4]
  · simp [roeU, roeInv, exL, exR, h4]; norm_num

/-- Conserved variables of a primitive state. -/
noncomputable def Prim.cons {n : ℕ} (s : Prim n) : Fin (n+2) → ℝ :=
  Fin.cons s.rho (Fin.snoc (fun j : Fin n => s.rho * s.u j) s.rhoE)

theorem cons_eq_conserved {n : ℕ} (g : ℝ) (hg : 1 < g) (s : Prim n) (hs : s.Ideal g) :
    s.cons = conserved g s.rho (s.sound g) s.u := by
  unfold Prim.cons conserved
  congr 2
  have h1 := hs.rho_pos.ne'
  have h2 : g - 1 ≠ 0 := by linarith
  rw [hs.energy, Prim.sound, Real.sq_sqrt (div_nonneg (mul_nonneg (by linarith) hs.p_pos.le)
    hs.rho_pos.le)]
  field_simp

/-- **C17 / C15 / C16 combined.** Three dimensional Euler equations, any shock capturing scheme, any
metric direction, simple or Roe averages: where the flow is uniform over the stencil the computed
interface flux is the exact physical flux. -/
theorem C15_uniform_euler_3d (g : ℝ) (hg : 1 < g) (s : Scheme) (hs : s.Valid) (st : Prim 3)
    (hst : st.Ideal g) (k : Fin 3 → ℝ) (hk : k 0 ^2 + k 1 ^2 + k 2 ^2 ≠ 0) (l : Line 5) (x : ℤ)
    (rho a : ℝ) (u : Fin 3 → ℝ)
    (havg : (rho = simpleAverage st.rho st.rho ∧ a = simpleAverage (st.sound g) (st.sound g) ∧
        (∀ i, u i = simpleAverage (st.u i) (st.u i))) ∨
      (rho = roeRho st st ∧ a = roeA g st st ∧ (∀ i, u i = roeU st st i)))
    (hL : l.LEV x = lev3 g rho a (u 0) (u 1) (u 2) (k 0) (k 1) (k 2))
    (hR : l.REV x = rev3 g rho a (u 0) (u 1) (u 2) (k 0) (k 1) (k 2))
    (h : ∀ p ∈ s.stencilPoints, l.q (x+p) = st.cons ∧ l.f (x+p) = eulerFlux g k st.cons) :
    interfaceFlux s l x = eulerFlux g k st.cons := by
  have hrho : rho = st.rho := by
    rcases havg with h | h
    · rw [h.1, (C17_simple_average _ st.rho).1]
    · rw [h.1, (C17_roe_consistent g hg st hst).1]
  have ha : a = st.sound g := by
    rcases havg with h | h
    · rw [h.2.1, (C17_simple_average _ (st.sound g)).1]
    · rw [h.2.1, (C17_roe_consistent g hg st hst).2.2.2]
  have ha0 : a ≠ 0 := by
    rw [ha]
    exact (Real.sqrt_pos.2 (div_pos (mul_pos (by linarith) hst.p_pos) hst.rho_pos)).ne'
  refine C15_uniform_flux s hs l x _ st.cons ?_ fun p hp => ⟨(h p hp).2, (h p hp).1⟩
  rw [hL, hR]
  exact (C16_inverse_3d g rho a _ _ _ _ _ _ hg.ne' (hrho ▸ hst.rho_pos.ne') ha0 hk).2

/-! ### The Roe property -/

theorem cons_mom {n : ℕ} (s : Prim n) (i : Fin n) : s.cons i.succ.castSucc = s.rho * s.u i := by
  unfold Prim.cons
  rw [← Fin.succ_castSucc, Fin.cons_succ, Fin.snoc_castSucc]

theorem cons_last {n : ℕ} (s : Prim n) : s.cons (Fin.last _) = s.rhoE := by
  unfold Prim.cons
  rw [← Fin.succ_last, Fin.cons_succ, Fin.snoc_last]

theorem conserved_mom {n : ℕ} (g rho a : ℝ) (u : Fin n → ℝ) (i : Fin n) :
    conserved g rho a u i.succ.castSucc = rho * u i := by
  unfold conserved
  rw [← Fin.succ_castSucc, Fin.cons_succ, Fin.snoc_castSucc]

theorem conserved_last {n : ℕ} (g rho a : ℝ) (u : Fin n → ℝ) :
    conserved g rho a u (Fin.last _) = rho * a^2 / (g * (g-1)) + rho * (∑ i, u i ^ 2) / 2 := by
  unfold conserved
  rw [← Fin.succ_last, Fin.cons_succ, Fin.snoc_last]

/-- Difference of a product `rho x y` in terms of Roe averages. -/
theorem roe_product (s t x y x' y' : ℝ) (h : t + s ≠ 0) :
    t^2*y*y' - s^2*x*x' = ((s*x'+t*y')*(t+s)⁻¹) * (t^2*y - s^2*x)
      + ((s*x+t*y)*(t+s)⁻¹) * (t^2*y' - s^2*x')
      - ((s*x+t*y)*(t+s)⁻¹) * ((s*x'+t*y')*(t+s)⁻¹) * (t^2 - s^2) := by
  field_simp
  ring

theorem pressure_cons {n : ℕ} (g : ℝ) (hg : 1 < g) (s : Prim n) (hs : s.Ideal g) :
    pressure g s.cons = s.p := by
  have h1 := hs.rho_pos.ne'
  have h2 : g - 1 ≠ 0 := by linarith
  have h0 : s.cons 0 = s.rho := rfl
  unfold pressure
  simp only [cons_mom, cons_last, h0, mul_pow, ← Finset.mul_sum]
  rw [hs.energy]
  field_simp
  ring

/-- The derivative of the flux at the Roe average maps the jump of the state to the jump of the
flux, in any dimension and any direction. -/
theorem roe_dFlux {n : ℕ} (g : ℝ) (hg : 1 < g) (k : Fin n → ℝ) (l r : Prim n) (hl : l.Ideal g)
    (hr : r.Ideal g) :
    dFlux g k (conserved g (roeRho l r) (roeA g l r) (roeU l r)) (r.cons - l.cons) =
      eulerFlux g k r.cons - eulerFlux g k l.cons := by
  have h1 := Real.sqrt_pos.2 hl.rho_pos
  have h2 := Real.sqrt_pos.2 hr.rho_pos
  have hts : Real.sqrt r.rho + Real.sqrt l.rho ≠ 0 := by positivity
  have sl : Real.sqrt l.rho ^ 2 = l.rho := Real.sq_sqrt hl.rho_pos.le
  have sr : Real.sqrt r.rho ^ 2 = r.rho := Real.sq_sqrt hr.rho_pos.le
  have hR : roeRho l r ≠ 0 := (Real.sqrt_pos.2 (mul_pos hl.rho_pos hr.rho_pos)).ne'
  have hg1 : g - 1 ≠ 0 := by linarith
  have hg0 : g ≠ 0 := by linarith
  have hl0 := hl.rho_pos.ne'
  have hr0 := hr.rho_pos.ne'
  have ha2 : roeA g l r ^ 2 = (g-1) * (roeH l r - roeKE l r) :=
    Real.sq_sqrt (C17_roe_sound_speed_positive g hg l r hl hr).1.le
  -- the product rule of the averages
  have hprod : ∀ x y x' y' X X' : ℝ,
      X = (Real.sqrt l.rho * x + Real.sqrt r.rho * y) * (Real.sqrt r.rho + Real.sqrt l.rho)⁻¹ →
      X' = (Real.sqrt l.rho * x' + Real.sqrt r.rho * y') * (Real.sqrt r.rho + Real.sqrt l.rho)⁻¹ →
      r.rho*y*y' - l.rho*x*x' = X' * (r.rho*y - l.rho*x) + X * (r.rho*y' - l.rho*x')
        - X * X' * (r.rho - l.rho) := by
    intro x y x' y' X X' hX hX'
    have := roe_product (Real.sqrt l.rho) (Real.sqrt r.rho) x y x' y' hts
    rw [sl, sr, ← hX, ← hX'] at this
    exact this
  have huu : ∀ i j, r.rho * r.u i * r.u j - l.rho * l.u i * l.u j =
      roeU l r j * (r.rho * r.u i - l.rho * l.u i) + roeU l r i * (r.rho * r.u j - l.rho * l.u j)
        - roeU l r i * roeU l r j * (r.rho - l.rho) := fun i j => hprod _ _ _ _ _ _ rfl rfl
  have huH : ∀ i, r.rho * r.u i * enthalpy r - l.rho * l.u i * enthalpy l =
      roeH l r * (r.rho * r.u i - l.rho * l.u i)
        + roeU l r i * (r.rho * enthalpy r - l.rho * enthalpy l)
        - roeU l r i * roeH l r * (r.rho - l.rho) := fun i => hprod _ _ _ _ _ _ rfl rfl
  have eHl : l.rho * enthalpy l = l.rhoE + l.p := by unfold enthalpy; field_simp
  have eHr : r.rho * enthalpy r = r.rhoE + r.p := by unfold enthalpy; field_simp
  -- averaged state
  set ρ := roeRho l r
  set U := roeU l r
  set q := conserved g ρ (roeA g l r) U with hq
  have q0 : q 0 = ρ := rfl
  have qm : ∀ i : Fin n, q i.succ.castSucc = ρ * U i := fun i => conserved_mom _ _ _ _ i
  have qE : q (Fin.last _) = ρ * roeA g l r ^2 / (g * (g-1)) + ρ * (∑ i, U i ^ 2) / 2 :=
    conserved_last _ _ _ _
  have hKE : roeKE l r = 1/2 * ∑ i, U i ^ 2 := rfl
  have hpq : q (Fin.last _) + pressure g q = ρ * roeH l r := by
    unfold pressure
    simp only [qm, q0, mul_pow, ← Finset.mul_sum, qE]
    rw [ha2, hKE]
    field_simp
    ring
  have v0 : (r.cons - l.cons) 0 = r.rho - l.rho := rfl
  have vm : ∀ i : Fin n, (r.cons - l.cons) i.succ.castSucc = r.rho * r.u i - l.rho * l.u i := by
    intro i; rw [Pi.sub_apply, cons_mom, cons_mom]
  have vE : (r.cons - l.cons) (Fin.last _) = r.rhoE - l.rhoE := by
    rw [Pi.sub_apply, cons_last, cons_last]
  have hm : contraMomentum k q = ρ * ∑ i, k i * U i := by
    unfold contraMomentum
    rw [Finset.mul_sum]
    exact Finset.sum_congr rfl fun i _ => by rw [qm]; ring
  have hdm : contraMomentum k (r.cons - l.cons) = ∑ i, k i * (r.rho * r.u i - l.rho * l.u i) := by
    unfold contraMomentum
    exact Finset.sum_congr rfl fun i _ => by rw [vm]
  have hdp : dPressure g q (r.cons - l.cons) = r.p - l.p := by
    have hsum : (∑ i, (r.rho * r.u i ^ 2 - l.rho * l.u i ^ 2)) / 2 =
        ∑ i, U i * (r.rho * r.u i - l.rho * l.u i) - (∑ i, U i ^ 2) * (r.rho - l.rho) / 2 := by
      rw [Finset.sum_mul, Finset.sum_div, Finset.sum_div, ← Finset.sum_sub_distrib]
      refine Finset.sum_congr rfl fun i _ => ?_
      have := huu i i
      linear_combination this / 2
    unfold dPressure
    simp only [qm, q0, v0, vm, vE, mul_pow, ← Finset.mul_sum]
    have e1 : ∑ i, ρ * U i * (r.rho * r.u i - l.rho * l.u i) =
        ρ * ∑ i, U i * (r.rho * r.u i - l.rho * l.u i) := by
      rw [Finset.mul_sum]; exact Finset.sum_congr rfl fun i _ => by ring
    rw [e1, hr.energy, hl.energy]
    rw [Finset.sum_sub_distrib, ← Finset.mul_sum, ← Finset.mul_sum] at hsum
    field_simp
    field_simp at hsum
    linear_combination (g-1) * hsum
  have cm : ∀ s : Prim n, contraMomentum k s.cons = ∑ i, k i * (s.rho * s.u i) := by
    intro s
    unfold contraMomentum
    exact Finset.sum_congr rfl fun i _ => by rw [cons_mom]
  have c0 : ∀ s : Prim n, s.cons 0 = s.rho := fun _ => rfl
  funext i
  rw [Pi.sub_apply]
  refine Fin.cases ?_ (fun i => ?_) i
  · simp only [dFlux, eulerFlux, Fin.cons_zero, hdm, cm, mul_sub, Finset.sum_sub_distrib]
  · refine Fin.lastCases ?_ (fun j => ?_) i
    · simp only [dFlux, eulerFlux, Fin.cons_succ, Fin.snoc_last, hdp, hpq, hm, hdm, q0, v0, vE, cm,
        c0, cons_last, pressure_cons g hg _ hl, pressure_cons g hg _ hr, ← eHl, ← eHr]
      have e : (r.rhoE - l.rhoE + (r.p - l.p)) = r.rho * enthalpy r - l.rho * enthalpy l := by
        rw [eHl, eHr]; ring
      rw [e]
      have e2 : r.rho * enthalpy r * (∑ i, k i * (r.rho * r.u i)) / r.rho -
          l.rho * enthalpy l * (∑ i, k i * (l.rho * l.u i)) / l.rho =
          ∑ i, k i * (r.rho * r.u i * enthalpy r - l.rho * l.u i * enthalpy l) := by
        simp only [mul_sub, Finset.sum_sub_distrib]
        congr 1
        · rw [Finset.mul_sum, Finset.sum_div]
          exact Finset.sum_congr rfl fun i _ => by field_simp
        · rw [Finset.mul_sum, Finset.sum_div]
          exact Finset.sum_congr rfl fun i _ => by field_simp
      rw [e2]
      simp only [huH]
      have e3 : ∑ i, k i * (roeH l r * (r.rho * r.u i - l.rho * l.u i)
          + U i * (r.rho * enthalpy r - l.rho * enthalpy l)
          - U i * roeH l r * (r.rho - l.rho)) =
          roeH l r * (∑ i, k i * (r.rho * r.u i - l.rho * l.u i))
          + (r.rho * enthalpy r - l.rho * enthalpy l) * (∑ i, k i * U i)
          - roeH l r * (r.rho - l.rho) * ∑ i, k i * U i := by
        simp only [Finset.mul_sum, ← Finset.sum_add_distrib, ← Finset.sum_sub_distrib]
        exact Finset.sum_congr rfl fun i _ => by ring
      rw [e3]
      field_simp
      ring
    · simp only [dFlux, eulerFlux, Fin.cons_succ, Fin.snoc_castSucc, hdp, hm, hdm, q0, v0, vm, cm,
        c0, cons_mom, qm, pressure_cons g hg _ hl, pressure_cons g hg _ hr]
      have e2 : r.rho * r.u j * (∑ i, k i * (r.rho * r.u i)) / r.rho -
          l.rho * l.u j * (∑ i, k i * (l.rho * l.u i)) / l.rho =
          ∑ i, k i * (r.rho * r.u i * r.u j - l.rho * l.u i * l.u j) := by
        simp only [mul_sub, Finset.sum_sub_distrib]
        congr 1
        · rw [Finset.mul_sum, Finset.sum_div]
          exact Finset.sum_congr rfl fun i _ => by field_simp
        · rw [Finset.mul_sum, Finset.sum_div]
          exact Finset.sum_congr rfl fun i _ => by field_simp
      have e3 : ∑ i, k i * (U j * (r.rho * r.u i - l.rho * l.u i)
          + U i * (r.rho * r.u j - l.rho * l.u j) - U i * U j * (r.rho - l.rho)) =
          U j * (∑ i, k i * (r.rho * r.u i - l.rho * l.u i))
          + (r.rho * r.u j - l.rho * l.u j) * (∑ i, k i * U i)
          - U j * (r.rho - l.rho) * ∑ i, k i * U i := by
        simp only [Finset.mul_sum, ← Finset.sum_add_distrib, ← Finset.sum_sub_distrib]
        exact Finset.sum_congr rfl fun i _ => by ring
      simp only [huu] at e2
      rw [e3] at e2
      have e4 : ∀ A B C D : ℝ, A + B - (C + D) = (A - C) + (B - D) := fun _ _ _ _ => by ring
      rw [e4, e2]
      field_simp
      ring

/-- **C17.** Roe property in three dimensions: with the code's eigensystem evaluated at the code's
Roe averages, `R diag(λ) L (q_R - q_L) = f(q_R) - f(q_L)` for any two physical states and any
metric direction. -/
theorem C17_roe_property_3d (g : ℝ) (hg : 1 < g) (k0 k1 k2 : ℝ) (hk : k0^2 + k1^2 + k2^2 ≠ 0)
    (l r : Prim 3) (hl : l.Ideal g) (hr : r.Ideal g) :
    (rev3 g (roeRho l r) (roeA g l r) (roeU l r 0) (roeU l r 1) (roeU l r 2) k0 k1 k2
      * diagonal (ev3 (roeA g l r) (roeU l r 0) (roeU l r 1) (roeU l r 2) k0 k1 k2)
      * lev3 g (roeRho l r) (roeA g l r) (roeU l r 0) (roeU l r 1) (roeU l r 2) k0 k1 k2)
      *ᵥ (r.cons - l.cons) = eulerFlux g ![k0, k1, k2] r.cons - eulerFlux g ![k0, k1, k2] l.cons := by
  have hrho : roeRho l r ≠ 0 := (Real.sqrt_pos.2 (mul_pos hl.rho_pos hr.rho_pos)).ne'
  have hU : ![roeU l r 0, roeU l r 1, roeU l r 2] = roeU l r := by
    funext i; fin_cases i <;> rfl
  have h := C16_jacobian_3d g (roeRho l r) (roeA g l r) (roeU l r 0) (roeU l r 1) (roeU l r 2)
    k0 k1 k2 hg.ne' (by linarith) hrho
    (C17_roe_sound_speed_positive g hg l r hl hr).2.ne' hk (r.cons - l.cons)
  rw [hU] at h
  rw [← roe_dFlux g hg _ l r hl hr]
  exact h.unique (hasDerivAt_flux g _ _ _ hrho)

/-- **C17.** Roe property in two dimensions. -/
theorem C17_roe_property_2d (g : ℝ) (hg : 1 < g) (k0 k1 : ℝ) (hk : k0^2 + k1^2 ≠ 0)
    (l r : Prim 2) (hl : l.Ideal g) (hr : r.Ideal g) :
    (rev2 g (roeRho l r) (roeA g l r) (roeU l r 0) (roeU l r 1) k0 k1
      * diagonal (ev2 (roeA g l r) (roeU l r 0) (roeU l r 1) k0 k1)
      * lev2 g (roeRho l r) (roeA g l r) (roeU l r 0) (roeU l r 1) k0 k1)
      *ᵥ (r.cons - l.cons) = eulerFlux g ![k0, k1] r.cons - eulerFlux g ![k0, k1] l.cons := by
  have hrho : roeRho l r ≠ 0 := (Real.sqrt_pos.2 (mul_pos hl.rho_pos hr.rho_pos)).ne'
  have hU : ![roeU l r 0, roeU l r 1] = roeU l r := by
    funext i; fin_cases i <;> rfl
  have h := C16_jacobian_2d g (roeRho l r) (roeA g l r) (roeU l r 0) (roeU l r 1)
    k0 k1 hg.ne' (by linarith) hrho
    (C17_roe_sound_speed_positive g hg l r hl hr).2.ne' hk (r.cons - l.cons)
  rw [hU] at h
  rw [← roe_dFlux g hg _ l r hl hr]
  exact h.unique (hasDerivAt_flux g _ _ _ hrho)

/-- **C17.** Roe property in one dimension. -/
theorem C17_roe_property_1d (g : ℝ) (hg : 1 < g) (l r : Prim 1) (hl : l.Ideal g) (hr : r.Ideal g) :
    (rev1 g (roeA g l r) (roeU l r 0) * diagonal (ev1 (roeA g l r) (roeU l r 0))
      * lev1 g (roeA g l r) (roeU l r 0))
      *ᵥ (r.cons - l.cons) = eulerFlux g ![1] r.cons - eulerFlux g ![1] l.cons := by
  have hrho : roeRho l r ≠ 0 := (Real.sqrt_pos.2 (mul_pos hl.rho_pos hr.rho_pos)).ne'
  have hU : ![roeU l r 0] = roeU l r := by
    funext i; fin_cases i; rfl
  have h := C16_jacobian_1d g (roeRho l r) (roeA g l r) (roeU l r 0) hg.ne' (by linarith) hrho
    (C17_roe_sound_speed_positive g hg l r hl hr).2.ne' (r.cons - l.cons)
  rw [hU] at h
  rw [← roe_dFlux g hg _ l r hl hr]
  exact h.unique (hasDerivAt_flux g _ _ _ hrho)

end OpenSBLI.Llf
