import Verif.Lemmas.Forcing
import Mathlib.Tactic.NormNum
import Mathlib.Tactic.Positivity
import Mathlib.Tactic.FinCases

/-!
# C64 forcing strip wall

`st` is the store before the kernel; `pAt`, `tAt`, `uAt` are pressure, temperature and velocity of a store at an offset
(`Spec.pressureOf`, `Spec.temperatureOf`, momentum over density). The equation for the wall normal momentum, `normal`, and the equations
`user` are passed by the user.
-/
namespace OpenSBLI.Bc
open Expr

variable {d : ℕ}

/-- Members of the zero momentum equations. -/
theorem mem_forcingZero {dir : Fin d} {a : Assign d} :
    a ∈ ((List.finRange d).map fun (i : Fin d) => (⟨.data (.mom i) 0, .num 0⟩ : Assign d)).eraseIdx dir.1 ↔
      ∃ i : Fin d, i ≠ dir ∧ a = ⟨.data (.mom i) 0, .num 0⟩ := by
  rw [List.mem_eraseIdx_iff_getElem]
  simp only [List.getElem_map, List.getElem_finRange, List.length_map, List.length_finRange]
  constructor
  · rintro ⟨k, hk, hne, rfl⟩
    refine ⟨⟨k, hk⟩, ?_, by simp⟩
    intro h; apply hne; rw [← h]
  · rintro ⟨i, hne, rfl⟩
    refine ⟨i.1, i.2, ?_, by simp⟩
    intro h; exact hne (Fin.ext h)

/-- The halo part does not change the wall point. -/
theorem forcing_wall_kept (γ M Tw : ℝ) (dir : Fin d) (normal : Assign d) (user : List (Assign d)) (shock : Bool)
    (s : Side) (n : ℕ) (st : Cell d → ℝ) (v : Var d) :
    run (forcingStrip d γ M Tw dir normal user shock s n) st (.data v 0) =
      run (forcingWallPart d dir normal user) st (.data v 0) := by
  rw [forcingStrip, run_append]
  cases shock with
  | false => rfl
  | true => simp only [if_true]; rw [forcing_run, isoFinal_wall]

/-- **C64, wall momentum.** The wall normal momentum is the prescribed one, every other component is zero, for all
dimensions, directions, sides and halo depths, with or without a shock capturing scheme, and whatever further equations the user passes as
long as they leave the wall momentum alone. -/
theorem C64_wall_momentum (γ M Tw : ℝ) (dir : Fin d) (normal : Assign d) (user : List (Assign d)) (shock : Bool)
    (s : Side) (n : ℕ) (st : Cell d → ℝ) (hn : normal.target = .data (.mom dir) 0)
    (huser : ∀ a ∈ user, ∀ i, a.target ≠ .data (.mom i) 0) (i : Fin d) :
    run (forcingStrip d γ M Tw dir normal user shock s n) st (.data (.mom i) 0) =
      if i = dir then normal.rhs.eval st else 0 := by
  rw [forcing_wall_kept, forcingWallPart, run_append, run_unwritten _ _ _ (fun a ha => huser a ha i), run_append]
  split_ifs with h
  · subst h
    rw [run_unwritten, run_cons, run_nil, hn, Function.update_self]
    intro a ha
    obtain ⟨j, hj, rfl⟩ := mem_forcingZero.1 ha
    simpa using hj
  · obtain ⟨a, ha, e1, e2⟩ := run_indep
      (((List.finRange d).map fun (i : Fin d) => (⟨.data (.mom i) 0, .num 0⟩ : Assign d)).eraseIdx dir.1)
      (run [normal] st) (c := .data (.mom i) 0)
      (by
        intro a ha c hc
        obtain ⟨j, -, rfl⟩ := mem_forcingZero.1 ha
        simp at hc)
      ⟨_, mem_forcingZero.2 ⟨i, h, rfl⟩, rfl⟩
    obtain ⟨j, -, rfl⟩ := mem_forcingZero.1 ha
    rw [e2, eval_num]

/-- Store at the wall when the user passes the wall energy equation of the shipped applications. -/
theorem forcing_wall_state (γ M Tw : ℝ) (dir : Fin d) (normal : Assign d) (shock : Bool)
    (s : Side) (n : ℕ) (st : Cell d → ℝ) (hn : normal.target = .data (.mom dir) 0) :
    run (forcingStrip d γ M Tw dir normal [wallEnergy d γ M Tw] shock s n) st (.data .rho 0) = st (.data .rho 0) ∧
    run (forcingStrip d γ M Tw dir normal [wallEnergy d γ M Tw] shock s n) st (.data .rhoE 0) =
      st (.data .rho 0) * Tw / (M * M * γ * (γ - 1)) := by
  have hρ' : run ([normal] ++ (((List.finRange d).map fun (i : Fin d) =>
      (⟨.data (.mom i) 0, .num 0⟩ : Assign d)).eraseIdx dir.1)) st (.data .rho 0) = st (.data .rho 0) := by
    apply run_unwritten
    intro a ha
    rcases List.mem_append.1 ha with h | h
    · simp only [List.mem_singleton] at h; subst h; rw [hn]; simp
    · obtain ⟨j, -, rfl⟩ := mem_forcingZero.1 h; simp
  constructor
  · rw [forcing_wall_kept, forcingWallPart, run_append, run_unwritten _ _ _ (by simp [wallEnergy]), hρ']
  · rw [forcing_wall_kept, forcingWallPart, run_append, run_cons, run_nil]
    simp only [wallEnergy, Function.update_self, eval_div, eval_mul, eval_dat, eval_num, eval_sub]
    rw [hρ']

/-- **C64, wall temperature.** With the wall energy equation of the shipped applications the wall temperature is below the
prescribed one by the kinetic energy of the forcing. The full claim, wall temperature equal to the prescribed one, holds where the forcing
is zero only. -/
theorem C64_wall_temperature_partial (γ M Tw : ℝ) (dir : Fin d) (normal : Assign d) (shock : Bool)
    (s : Side) (n : ℕ) (st : Cell d → ℝ) (hn : normal.target = .data (.mom dir) 0)
    (hγ : γ ≠ 0) (hγ1 : γ ≠ 1) (hM : M ≠ 0) (hρ : st (.data .rho 0) ≠ 0) :
    tAt γ M (run (forcingStrip d γ M Tw dir normal [wallEnergy d γ M Tw] shock s n) st) 0 =
      Tw - γ * (γ - 1) * M ^ 2 / 2 * (normal.rhs.eval st / st (.data .rho 0)) ^ 2 := by
  obtain ⟨h1, h2⟩ := forcing_wall_state γ M Tw dir normal shock s n st hn
  have hm := fun i => C64_wall_momentum γ M Tw dir normal [wallEnergy d γ M Tw] shock s n st hn
    (by simp [wallEnergy]) i
  have hg : γ - 1 ≠ 0 := sub_ne_zero.2 hγ1
  simp only [tAt, Spec.temperatureOf, Spec.pressureOf, h1, h2, hm]
  simp only [ite_pow, ne_eq, OfNat.ofNat_ne_zero, not_false_eq_true, zero_pow, Finset.sum_ite_eq', Finset.mem_univ,
    if_true]
  field_simp

/-- **C64, finding.** Wherever the strip is forced the wall is colder than prescribed. -/
theorem C64_forced_wall_too_cold (γ M Tw : ℝ) (dir : Fin d) (normal : Assign d) (shock : Bool)
    (s : Side) (n : ℕ) (st : Cell d → ℝ) (hn : normal.target = .data (.mom dir) 0)
    (hγ : 1 < γ) (hM : M ≠ 0) (hρ : st (.data .rho 0) ≠ 0) (hf : normal.rhs.eval st ≠ 0) :
    tAt γ M (run (forcingStrip d γ M Tw dir normal [wallEnergy d γ M Tw] shock s n) st) 0 < Tw := by
  rw [C64_wall_temperature_partial γ M Tw dir normal shock s n st hn (by linarith) (by linarith) hM hρ]
  have h1 : 0 < (normal.rhs.eval st / st (.data .rho 0)) ^ 2 := by positivity
  have h2 : 0 < γ * (γ - 1) * M ^ 2 / 2 := by
    have : 0 < M ^ 2 := by positivity
    have : 0 < γ - 1 := by linarith
    positivity
  nlinarith [mul_pos h2 h1]

/-- **C64, halo points**, for every store `st` reached after the wall equations: the halo point `i` levels outside has the pressure
of the wall point, the temperature extrapolated linearly through the prescribed wall temperature and the first interior temperature, and
the negated velocity of the point `i` levels inside. -/
theorem C64_halo (γ M Tw : ℝ) (s : Side) (n : ℕ) (st : Cell d → ℝ) (i : ℕ) (h1 : 1 ≤ i) (hn : i ≤ n)
    (hγ : γ ≠ 0) (hγ1 : γ ≠ 1) (hM : M ≠ 0) (hp : pAt γ st 0 ≠ 0)
    (hT : (i + 1) * Tw - i * tAt γ M st s.toF ≠ 0) :
    let st' := run (forcingHaloPart d γ M Tw s n) st
    pAt γ st' (s.fromF * (i : ℤ)) = pAt γ st 0 ∧
    tAt γ M st' (s.fromF * (i : ℤ)) = Tw - i * (tAt γ M st s.toF - Tw) ∧
    (∀ j, uAt st' (s.fromF * (i : ℤ)) j = - uAt st (s.toF * (i : ℤ)) j) := by
  intro st'
  have cond : 1 ≤ s.fromF * (s.fromF * (i : ℤ)) ∧ s.fromF * (s.fromF * (i : ℤ)) ≤ n := by rw [from_from]; omega
  have tn : (s.fromF * (s.fromF * (i : ℤ))).toNat = i := by rw [from_from]; simp
  have er : st' (.data .rho (s.fromF * (i : ℤ))) = isoRho γ M Tw s st i := by
    simp only [st']; rw [forcing_run]; simp only [isoFinal]; rw [if_pos cond, tn]
  have em : ∀ j, st' (.data (.mom j) (s.fromF * (i : ℤ))) =
      - isoRho γ M Tw s st i * uAt st (s.toF * (i : ℤ)) j := by
    intro j; simp only [st']; rw [forcing_run]; simp only [isoFinal]; rw [if_pos cond, tn]
  have eE : st' (.data .rhoE (s.fromF * (i : ℤ))) = pAt γ st 0 / (γ - 1) + 1 / 2 * isoRho γ M Tw s st i *
      ∑ j, uAt st (s.toF * (i : ℤ)) j * uAt st (s.toF * (i : ℤ)) j := by
    simp only [st']; rw [forcing_run]; simp only [isoFinal]; rw [if_pos cond, tn]
  have hT' : isoT γ M Tw s st i ≠ 0 := hT
  have hρ : isoRho γ M Tw s st i ≠ 0 := by
    rw [isoRho]; positivity
  have hg : γ - 1 ≠ 0 := sub_ne_zero.2 hγ1
  have hp' : pAt γ st' (s.fromF * (i : ℤ)) = pAt γ st 0 := by
    rw [pAt, Spec.pressureOf, er, eE]
    simp only [em]
    have : ∑ j, (- isoRho γ M Tw s st i * uAt st (s.toF * (i : ℤ)) j) ^ 2 =
        isoRho γ M Tw s st i ^ 2 * ∑ j, uAt st (s.toF * (i : ℤ)) j * uAt st (s.toF * (i : ℤ)) j := by
      rw [Finset.mul_sum]; exact Finset.sum_congr rfl fun j _ => by ring
    rw [this]
    field_simp; ring
  refine ⟨hp', ?_, ?_⟩
  · have : tAt γ M st' (s.fromF * (i : ℤ)) = γ * M ^ 2 * pAt γ st' (s.fromF * (i : ℤ)) /
        st' (.data .rho (s.fromF * (i : ℤ))) := rfl
    rw [this, hp', er, isoRho]
    have e2 : Tw - i * (tAt γ M st s.toF - Tw) = isoT γ M Tw s st i := by rw [isoT]; ring
    rw [e2]
    field_simp
  · intro j
    show st' (.data (.mom j) _) / st' (.data .rho _) = _
    rw [em, er]; field_simp

/-- **C64, frame.** The kernel changes the wall point and, if a shock capturing scheme is used, the halo points; nothing else. -/
theorem C64_frame (γ M Tw : ℝ) (dir : Fin d) (normal : Assign d) (user : List (Assign d)) (shock : Bool)
    (s : Side) (n : ℕ) (st : Cell d → ℝ) (v : Var d) (k : ℤ) (hn : normal.target = .data (.mom dir) 0)
    (huser : ∀ a ∈ user, a.target ≠ .data v k) (h0 : k ≠ 0)
    (hk : shock = true → ∀ i : ℕ, 1 ≤ i → i ≤ n → k ≠ s.fromF * (i : ℤ)) :
    run (forcingStrip d γ M Tw dir normal user shock s n) st (.data v k) = st (.data v k) := by
  have hw : run (forcingWallPart d dir normal user) st (.data v k) = st (.data v k) := by
    apply run_unwritten
    intro a ha
    rw [forcingWallPart] at ha
    rcases List.mem_append.1 ha with h | h
    · rcases List.mem_append.1 h with h | h
      · simp only [List.mem_singleton] at h; subst h; rw [hn]; simp [Ne.symm h0]
      · obtain ⟨j, -, rfl⟩ := mem_forcingZero.1 h; simp [Ne.symm h0]
    · exact huser a h
  rw [forcingStrip, run_append]
  cases shock with
  | false => simpa [run_nil] using hw
  | true =>
    simp only [if_true]
    rw [forcing_run]
    simp only [isoFinal]
    rw [if_neg, hw]
    intro h
    apply hk rfl (s.fromF * k).toNat (by omega) (by omega)
    rw [Int.toNat_of_nonneg (by omega), from_from]

/-- **C64, finding.** Halo and mirror point are not symmetric about the prescribed wall velocity: their velocities average to zero, so
wherever the strip is forced the interpolated wall velocity is not the prescribed one. -/
theorem C64_halo_not_about_wall_velocity (γ M Tw : ℝ) (dir : Fin d) (normal : Assign d)
    (s : Side) (n : ℕ) (hn1 : 1 ≤ n) (st : Cell d → ℝ) (hn : normal.target = .data (.mom dir) 0)
    (hγ : 1 < γ) (hM : M ≠ 0) (hρ : st (.data .rho 0) ≠ 0) (hf : normal.rhs.eval st ≠ 0)
    (st1 st' : Cell d → ℝ) (h1 : st1 = run (forcingWallPart d dir normal [wallEnergy d γ M Tw]) st)
    (h' : st' = run (forcingStrip d γ M Tw dir normal [wallEnergy d γ M Tw] true s n) st)
    (hp : pAt γ st1 0 ≠ 0) (hT : 2 * Tw ≠ tAt γ M st1 s.toF) :
    (uAt st' s.fromF dir + uAt st' s.toF dir) / 2 = 0 ∧ uAt st' 0 dir ≠ 0 := by
  have hst' : st' = run (forcingHaloPart d γ M Tw s n) st1 := by
    rw [h', h1, forcingStrip, run_append, if_pos rfl]
  have hu := (C64_halo γ M Tw s n st1 1 le_rfl hn1 (by linarith) (by linarith) hM hp (by
    intro h; apply hT; push_cast at h; linarith)).2.2 dir
  rw [← hst'] at hu
  have e : uAt st' s.toF dir = uAt st1 s.toF dir := by
    simp only [uAt, hst']
    rw [forcing_run, forcing_run]
    have := fun v => isoFinal_inside γ M Tw s n st1 v 1
    simp only [Nat.cast_one, mul_one] at this
    rw [this, this]
  constructor
  · simp only [Nat.cast_one, mul_one] at hu
    rw [hu, e]; ring
  · have hm := C64_wall_momentum γ M Tw dir normal [wallEnergy d γ M Tw] true s n st hn (by simp [wallEnergy]) dir
    have hr := (forcing_wall_state γ M Tw dir normal true s n st hn).1
    rw [← h'] at hm hr
    simp only [if_true] at hm
    rw [uAt, hm, hr]
    exact div_ne_zero hf hρ

/-- A case of the hypotheses: two dimensions, normal direction 1, blowing with momentum 1/10, a wall and an interior at different
temperatures. -/
example : ∃ (st : Cell 2 → ℝ) (normal : Assign 2), normal.target = .data (.mom 1) 0 ∧ st (.data .rho 0) ≠ 0 ∧
    normal.rhs.eval st ≠ 0 ∧
    tAt (7 / 5) 2 (run (forcingStrip 2 (7 / 5) 2 1 1 normal [wallEnergy 2 (7 / 5) 2 1] true .left 3) st) 0 < 1 := by
  refine ⟨fun c => match c with
    | .data .rho _ => 1 | .data (.mom _) _ => 1 | .data .rhoE _ => 2 | _ => 0,
    ⟨.data (.mom 1) 0, .num (1 / 10)⟩, rfl, by simp, by norm_num, ?_⟩
  exact C64_forced_wall_too_cold _ _ _ _ _ _ _ _ _ rfl (by norm_num) (by norm_num) (by simp) (by norm_num)

end OpenSBLI.Bc
