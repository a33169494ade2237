import Verif.Props.C81_ReconKernel
import Verif.Props.C78_Examples
import Verif.Props.C17_Averaging
import Mathlib.Tactic.Positivity

/-!
# C81: the Euler equations in one dimension
-/
namespace OpenSBLI.Recon
open Sim Weno Euler1

/-- SymPy without simplifications: entries are zero if they are the number zero, `subs` replaces what is literally there. -/
noncomputable def literal (D : ℕ) : Sympy D where
  factor := id
  isZero := fun t => match t with | .num r => decide (r = 0) | _ => false
  subs := fun l t => t.replaceAll l
  gamma := id

theorem literal_sound {D : ℕ} (I : Interp D) : (literal D).Sound I where
  factor := fun _ _ _ _ _ h => ⟨h, rfl⟩
  zero := fun m d x σ t h _ => by
    cases t <;> simp [literal] at h
    simp [Term.eval, h]
  subs := fun _ _ _ _ l t h ht => replaceAll_spec l h t ht
  gamma := fun _ _ _ _ _ _ _ => rfl
  factor_vars := fun _ _ h => h
  subs_vars := fun l t v h => replaceAll_vars l t v h
  gamma_vars := fun _ _ h => h

/-- The kernel of the Euler equations of C78. -/
noncomputable def eulerKernel : Input 1 3 := ⟨euler, 0, true, none, none⟩

theorem euler_terms (t : String) (h : t ∈ eulerKernel.terms) : t = "u0" ∨ t = "a" := by
  obtain ⟨i, h⟩ := mem_terms.1 h
  fin_cases i <;> simp [eulerKernel, euler, Fin.exists_fin_succ, Ex.datas, Ex.arrs, H, den, neg, half, square, inv, gm1, u0, a] at h <;> tauto

theorem euler_named : eulerKernel.Named where
  comps := by norm_num
  terms := fun t h => by
    rcases euler_terms t h with rfl | rfl <;> refine ⟨by decide, fun c hc => ?_⟩ <;> simp at hc <;> subst hc <;> decide
  metric := fun e h => by simp [eulerKernel] at h

/-- Gases with a ratio of heat capacities of 7/5, and the derived constant which goes with it. -/
theorem euler_ok {I : Interp 1} (hg : I.const "gama" = 7/5) (hg' : I.const "gamma_m1" = 2/5) : eulerKernel.Ok I where
  avg := by simp [eulerKernel, euler, hg]
  lev_cds := fun i j => (euler_core.lev 0 (by simp [euler]) i j).2
  rev_cds := fun i j => (euler_core.rev 0 (by simp [euler]) i j).2
  metric := fun e h => by simp [eulerKernel] at h
  gamma := by rw [hg, hg']; norm_num
  weno := fun form k dz w h => by
    simp only [eulerKernel, euler, Llf.Scheme.weno.injEq] at h
    obtain ⟨_, rfl, _⟩ := h
    exact ⟨by norm_num, fun _ => by norm_num⟩
  eps := fun o eps CT h => by simp [eulerKernel, euler] at h
  ct := fun o eps CT h => by simp [eulerKernel, euler] at h

/-- C81: for the Euler equations in one dimension every state with ideal gases on both sides of the interface is regular: whatever the values at the other points of the stencil. -/
theorem C81_euler_regular {I : Interp 1} (hp : ∀ (x : ℝ) (z : ℤ), I.pow x z = x ^ z) (hg : I.const "gama" = 7/5) (m : Mem 1) (x : P 1) (h0 : (primOf 1 fun s => m (.data s) x).Ideal (7/5))
    (h1 : (primOf 1 fun s => m (.data s) (shift x 0 1)).Ideal (7/5)) : eulerKernel.RegularAt I m x := by
  obtain ⟨hr, ha⟩ := Llf.C17_roe_sound_speed_positive (7/5) (by norm_num) _ _ h0 h1
  have ha' : 0 < eulerKernel.mean m x (.data "a") x := by
    simpa [Input.mean, averaged, eulerKernel, euler, roeAvg] using ha
  have e2 : ∀ y : ℝ, I.pow y (((2 : ℚ)) : ℝ) = y ^ 2 := fun y => by
    have := hp y 2
    push_cast at this ⊢
    rw [this]
    norm_cast
  have e1 : ∀ y : ℝ, I.pow y (((-1 : ℚ)) : ℝ) = y⁻¹ := fun y => by
    have := hp y (-1)
    push_cast at this ⊢
    rw [this, zpow_neg_one]
  generalize hM : eulerKernel.mean m x = M at ha'
  have hgm : gm1.eval I M x = 2/5 := by simp only [gm1, Ex.eval, hg]; norm_num
  have hden : den.eval I M x = 5 * (M (.data "a") x)^2 := by
    simp only [den, H, Ex.eval, neg, half, square, inv, u0, a, hgm, e2, e1]
    push_cast
    ring
  have hden' : den.eval I M x ≠ 0 := by rw [hden]; positivity
  have two : ∀ M' : Mem 1, ∀ y, exRegular I M' (inv (.num 2)) y := fun M' y => ⟨trivial, trivial, .inr (.inl ⟨⟨_, rfl⟩, by simp [Ex.eval]⟩)⟩
  have hsq : ∀ s : String, exRegular I M (square (.arr (.data s))) x := fun s => ⟨trivial, trivial, .inl ⟨2, rfl⟩⟩
  have hgr : exRegular I M gm1 x := ⟨trivial, trivial⟩
  have hH : exRegular I M H x := ⟨⟨hsq _, hgr, trivial, .inr (.inl ⟨⟨_, rfl⟩, by rw [hgm]; norm_num⟩)⟩, hsq _, two _ _⟩
  have hD : exRegular I M den x := ⟨⟨trivial, hH⟩, trivial, hsq _⟩
  have hid : exRegular I M (inv den) x := ⟨hD, trivial, .inr (.inl ⟨⟨_, rfl⟩, hden'⟩)⟩
  have hau : ∀ c : Ex 1, exRegular I M c x → c.eval I M x ≠ 0 → exRegular I M (inv (.mul c den)) x := fun c hc hc' => ⟨⟨hc, hD⟩, trivial, .inr (.inl ⟨⟨_, rfl⟩, mul_ne_zero hc' hden'⟩)⟩
  have ha0 : a.eval I M x ≠ 0 := ha'.ne'
  have h2a : (Ex.mul (.num 2) a : Ex 1).eval I M x ≠ 0 := mul_ne_zero (by simp [Ex.eval]) ha0
  have hm : exRegular I M (inv (.add (neg (.mul (.num 2) H)) (square u0))) x := by
    refine ⟨⟨⟨trivial, trivial, hH⟩, hsq _⟩, trivial, .inr (.inl ⟨⟨_, rfl⟩, ?_⟩)⟩
    have : (Ex.add (neg (.mul (.num 2) H)) (square u0) : Ex 1).eval I M x = - den.eval I M x := by
      simp only [den, neg, Ex.eval]
      push_cast
      ring
    rw [this]
    exact neg_ne_zero.2 hden'
  refine ⟨fun i p _ => ?_, fun i p _ => ?_, fun i j => ?_, fun i j => ?_, fun _ => ⟨h0.rho_pos, h1.rho_pos, by rw [hg]; exact hr.le⟩⟩
  · fin_cases i <;> simp [eulerKernel, euler, exRegular, rhou0, u0, Euler1.p, rhoE]
  · fin_cases i <;> simp [eulerKernel, euler, exRegular, neg, u0, a]
  · rw [hM]
    fin_cases i <;> fin_cases j
    · exact ⟨⟨trivial, ⟨⟨trivial, hH⟩, trivial, trivial⟩, trivial, hsq _⟩, hau _ ⟨trivial, trivial⟩ h2a⟩
    · exact ⟨⟨⟨⟨trivial, hH⟩, trivial, trivial, trivial⟩, hsq _, two _ _⟩, hau _ trivial ha0⟩
    · exact hid
    · exact ⟨⟨trivial, hH, trivial, hsq _⟩, hid⟩
    · exact ⟨⟨trivial, trivial⟩, hid⟩
    · exact ⟨trivial, hm⟩
    · exact ⟨⟨trivial, ⟨⟨trivial, trivial, hH⟩, trivial, trivial⟩, hsq _⟩, hau _ ⟨trivial, trivial⟩ h2a⟩
    · exact ⟨⟨⟨hH, trivial, trivial, trivial⟩, trivial, hsq _, two _ _⟩, hau _ trivial ha0⟩
    · exact hid
  · rw [hM]
    fin_cases i <;> fin_cases j
    · trivial
    · trivial
    · trivial
    · exact ⟨trivial, trivial, trivial⟩
    · trivial
    · exact ⟨trivial, trivial⟩
    · exact ⟨hH, trivial, trivial, trivial⟩
    · exact ⟨hsq _, two _ _⟩
    · exact ⟨hH, trivial, trivial⟩

/-- C81: so for two ideal gases the generated equations compute the flux of the WENO-Z scheme with Roe averages. -/
theorem C81_euler {I : Interp 1} (hp : ∀ (x : ℝ) (z : ℤ), I.pow x z = x ^ z) (hg : I.const "gama" = 7/5) (hg' : I.const "gamma_m1" = 2/5) (S : Sympy 1) (hS : S.Sound I) (m : Mem 1) (x : P 1)
    (h0 : (primOf 1 fun s => m (.data s) x).Ideal (7/5)) (h1 : (primOf 1 fun s => m (.data s) (shift x 0 1)).Ideal (7/5)) : eulerKernel.stored S I m x = some (euler.interface I m 0 x) :=
  C81_interface eulerKernel S I hS (euler_ok hg hg') euler_named rfl m x (C81_euler_regular hp hg m x h0 h1)

/-- Interpretation with the derived constant. -/
noncomputable def eulerInterp' : Interp 1 := { eulerInterp with const := fun c => if c = "gamma_m1" then 2/5 else eulerInterp.const c }

/-- Sod's initial state. -/
noncomputable def sod : Mem 1
  | .data s => fun x => if s = "rho" then (if x 0 < 10 then 1 else 1/8) else if s = "p" then (if x 0 < 10 then 1 else 1/10) else if s = "rhoE" then (if x 0 < 10 then 5/2 else 1/4) else 0
  | _ => fun _ => 0

theorem sod_ideal (x : P 1) : (primOf 1 fun s => sod (.data s) x).Ideal (7/5) := by
  have e : sod (.data s!"u{0}") x = 0 := by
    have : s!"u{0}" = "u0" := by decide
    rw [this]
    simp [sod]
  have e' : ∀ i : Fin 1, (primOf 1 fun s => sod (.data s) x).u i = 0 := fun i => by
    rw [Subsingleton.elim i 0]
    exact e
  by_cases h : x 0 < 10 <;> refine ⟨?_, ?_, ?_⟩ <;> (try simp only [e']) <;> simp [primOf, sod, h] <;> norm_num

/-- The whole loop from Sod's initial state. -/
example (pts : Ranges.Kernel 1 → List (P 1)) (hp : Enumerates pts) : runFn eulerInterp' pts (eulerKernel.kernel (literal 1)) sod = runFn eulerInterp' pts (euler.reconKernel 0) sod :=
  C81_loop eulerKernel (literal 1) eulerInterp' (literal_sound _) (euler_ok (by simp [eulerInterp', eulerInterp]) (by simp [eulerInterp'])) euler_named rfl euler_core (by simp [eulerKernel, euler]) hp sod
    fun x _ => C81_euler_regular (fun x z => Real.rpow_intCast x z) (by simp [eulerInterp', eulerInterp]) sod x (sod_ideal _) (sod_ideal _)

/-- With simple averages the same problem divides by a variable which nothing assigns. -/
example (l : List (Var × Term Var 1)) (hl : ({ eulerKernel with roe := false } : Input 1 3).eqs (literal 1) = some l) :
    (Var.invRho, Term.pow (.var (.avg "rho")) (.num (-1))) ∈ l ∧ ∀ q ∈ l, q.1 ≠ .avg "rho" :=
  C81_unset_average _ _ rfl (fun h => by rcases euler_terms _ h with h | h <;> simp at h) l hl

end OpenSBLI.Recon
