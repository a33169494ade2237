import Verif.Lemmas.ReconKernel

/-!
# The reconstruction of a component: helper lemmas for C81
-/
namespace OpenSBLI.Recon
open Sim Weno

variable {D n : ℕ} {I : Interp D} {m : Mem D} {d : Fin D} {x : P D}

theorem sum_range_list (k : ℕ) (f : ℕ → ℝ) : ((List.range k).map f).sum = ∑ r ∈ Finset.range k, f r := by
  induction k with
  | zero => simp
  | succ k ih => rw [List.range_succ, List.map_append, List.sum_append, ih, Finset.sum_range_succ]; simp

/-- Variables assigned by the reconstructions. -/
def Scratch : Var → Prop
  | .beta _ | .alpha _ | .invAlpha | .omega _ | .delta _ | .invOmega | .recon _ => True
  | _ => False

/-- The first values assigned are `B`. -/
theorem run_block {name : ℕ → Var} (hname : ∀ r s, name r = name s → r = s) {k : ℕ} {t : ℕ → Term Var D} {σ : Var → ℝ} {B : ℕ → ℝ}
    (h : ∀ r < k, ∀ σ', (∀ v, (∀ r, v ≠ name r) → σ' v = σ v) → (t r).eval I m d x σ' = B r) {r : ℕ} (hr : r < k) :
    run I m d x ((List.range k).map fun r => (name r, t r)) σ (name r) = B r := by
  classical
  have hl : ∀ v, (∀ r, v ≠ name r) → v ∉ (((List.range k).map fun r => (name r, t r)).map Prod.fst : List Var) := by
    intro v hv hm
    simp only [List.map_map, List.mem_map, List.mem_range, Function.comp] at hm
    obtain ⟨s, _, hs⟩ := hm
    exact hv s hs.symm
  refine (run_value (g := fun v => if h : ∃ r, v = name r then B h.choose else 0) ?_ ?_).trans ?_
  · intro q hq σ' hσ
    simp only [List.mem_map, List.mem_range] at hq
    obtain ⟨s, hs, rfl⟩ := hq
    rw [dif_pos ⟨s, rfl⟩]
    have : (⟨s, rfl⟩ : ∃ r, name s = name r).choose = s := (hname _ _ (⟨s, rfl⟩ : ∃ r, name s = name r).choose_spec).symm
    rw [this]
    exact h s hs σ' fun v hv => hσ v (hl v hv)
  · simp only [List.map_map, List.mem_map, List.mem_range, Function.comp]
    exact ⟨r, hr, rfl⟩
  · rw [dif_pos ⟨r, rfl⟩]
    exact congrArg B (hname _ _ (⟨r, rfl⟩ : ∃ s, name r = name s).choose_spec).symm

theorem block_frame {name : ℕ → Var} {k : ℕ} {t : ℕ → Term Var D} {σ : Var → ℝ} {v : Var} (hv : ∀ r, v ≠ name r) :
    run I m d x ((List.range k).map fun r => (name r, t r)) σ v = σ v := by
  refine run_frame ?_
  simp only [List.map_map, List.mem_map, Function.comp, not_exists, not_and]
  exact fun r _ h => hv r h.symm

theorem run_one {v w : Var} {t : Term Var D} {σ : Var → ℝ} : run I m d x [(v, t)] σ w = if w = v then t.eval I m d x σ else σ w := by
  simp [run, Function.update_apply]

/-- The equations of a WENO reconstruction add it to the variable of the component. -/
theorem weno_run {alpha : ℕ → Term Var D} {side : Side} {k : ℕ} {dz : ℝ} {i : ℕ} {f : ℤ → Term Var D} {σ : Var → ℝ} {F : ℤ → ℝ} {A : ℕ → ℝ}
    (hF : ∀ p σ', (∀ v, ¬ Scratch v → σ' v = σ v) → (f p).eval I m d x σ' = F p)
    (hA : ∀ r < k, ∀ σ' : Var → ℝ, (∀ s < k, σ' (.beta s) = Weno.beta side k s dz F) → (alpha r).eval I m d x σ' = A r) :
    run I m d x (wenoEqs alpha side k dz i f) σ (.recon i) = σ (.recon i) + reconstruction side k (Weno.omega k A) F := by
  unfold wenoEqs
  simp only [run_append]
  set σ1 := run I m d x ((List.range k).map fun r => (Var.beta r, wenoBeta side k dz f r)) σ with h1
  have e1 : ∀ r < k, σ1 (.beta r) = Weno.beta side k r dz F := fun r hr => by
    refine run_block (name := Var.beta) (B := fun r => Weno.beta side k r dz F) (by intro r s h; simpa using h) (fun s hs σ' hσ => ?_) hr
    have hp : ∀ p, (f p).eval I m d x σ' = F p := fun p => hF p σ' fun v hv => hσ v (by rintro r rfl; exact hv trivial)
    simp only [wenoBeta, eval_sum, List.map_map, Weno.beta]
    congr 1
    refine List.map_congr_left fun e _ => ?_
    simp only [Function.comp, Term.eval, hp]
  have f1 : ∀ v, (∀ r, v ≠ .beta r) → σ1 v = σ v := fun v hv => block_frame (name := Var.beta) hv
  set σ2 := run I m d x ((List.range k).map fun r => (Var.alpha r, alpha r)) σ1 with h2
  have e2 : ∀ r < k, σ2 (.alpha r) = A r := fun r hr => by
    refine run_block (name := Var.alpha) (by intro r s h; simpa using h) (fun s hs σ' hσ => hA s hs σ' fun t ht => ?_) hr
    rw [hσ _ (by simp), e1 t ht]
  have f2 : ∀ v, (∀ r, v ≠ .alpha r) → σ2 v = σ1 v := fun v hv => block_frame (name := Var.alpha) hv
  set σ3 := run I m d x [(Var.invAlpha, Term.inv (Term.sum ((List.range k).map fun r => .var (.alpha r))))] σ2 with h3
  have e3 : σ3 .invAlpha = 1 / ∑ r ∈ Finset.range k, A r := by
    rw [h3, run_one, if_pos rfl]
    simp only [Term.eval, eval_sum, List.map_map, one_div]
    rw [← sum_range_list]
    congr 2
    refine List.map_congr_left fun r hr => ?_
    simp only [Function.comp, Term.eval]
    exact e2 r (List.mem_range.1 hr)
  have f3 : ∀ v, v ≠ .invAlpha → σ3 v = σ2 v := fun v hv => by rw [h3, run_one, if_neg hv]
  set σ4 := run I m d x ((List.range k).map fun r => (Var.omega r, Term.mul (.var (.alpha r)) (.var .invAlpha))) σ3 with h4
  have e4 : ∀ r < k, σ4 (.omega r) = Weno.omega k A r := fun r hr => by
    refine run_block (name := Var.omega) (by intro r s h; simpa using h) (fun s hs σ' hσ => ?_) hr
    simp only [Term.eval, Weno.omega]
    rw [hσ _ (by simp), hσ _ (by simp), e3, f3 _ (by simp), e2 s hs]
  have f4 : ∀ v, (∀ r, v ≠ .omega r) → σ4 v = σ3 v := fun v hv => block_frame (name := Var.omega) hv
  have g4 : ∀ v, ¬ Scratch v → σ4 v = σ v := fun v hv => by
    rw [f4 v (by rintro r rfl; exact hv trivial), f3 v (by rintro rfl; exact hv trivial), f2 v (by rintro r rfl; exact hv trivial), f1 v (by rintro r rfl; exact hv trivial)]
  rw [run_one, if_pos rfl]
  simp only [Term.eval, eval_sum, List.map_map]
  rw [f4 _ (by simp), f3 _ (by simp), f2 _ (by simp), f1 _ (by simp), reconstruction, ← sum_range_list]
  congr 2
  refine List.map_congr_left fun r hr => ?_
  simp only [Function.comp, Term.eval, eval_sum, List.map_map, candidate]
  rw [e4 r (List.mem_range.1 hr), ← sum_range_list]
  congr 2
  refine List.map_congr_left fun j _ => ?_
  simp only [Function.comp, Term.eval]
  rw [hF _ σ4 g4]

/-- They change nothing but their variables. -/
theorem weno_frame {alpha : ℕ → Term Var D} {side : Side} {k : ℕ} {dz : ℝ} {i : ℕ} {f : ℤ → Term Var D} {σ : Var → ℝ} {v : Var} (hv : ¬ Scratch v ∨ ∃ j, j ≠ i ∧ v = .recon j) :
    run I m d x (wenoEqs alpha side k dz i f) σ v = σ v := by
  refine run_frame ?_
  simp only [wenoEqs, List.map_append, List.map_map, List.mem_append, List.mem_map, List.map_cons, List.map_nil, List.mem_singleton, Function.comp]
  rcases hv with hv | ⟨j, hj, rfl⟩
  · rintro ((((⟨r, _, rfl⟩ | ⟨r, _, rfl⟩) | rfl) | ⟨r, _, rfl⟩) | rfl) <;> exact hv trivial
  · simp [hj]

theorem tau_eval {k : ℕ} {t : Term Var D} (h : tauTerm k = some t) (σ : Var → ℝ) : tauZ k (fun r => σ (.beta r)) = some (t.eval I m d x σ) := by
  unfold tauTerm at h
  unfold tauZ
  by_cases h2 : k = 2
  · subst h2
    simp only [if_true, Option.some.injEq] at h ⊢
    subst h
    simp only [Term.eval, eval_sum, times, List.map_cons, List.map_nil, List.sum_cons, List.sum_nil]
    congr 1; ring
  rw [if_neg h2] at h ⊢
  by_cases h3 : k = 3
  · subst h3
    simp only [if_true, Option.some.injEq] at h ⊢
    subst h
    simp only [Term.eval, eval_sum, times, List.map_cons, List.map_nil, List.sum_cons, List.sum_nil]
    congr 1; ring
  rw [if_neg h3] at h ⊢
  by_cases h4 : k = 4
  · subst h4
    simp only [if_true, Option.some.injEq] at h ⊢
    subst h
    simp only [Term.eval, eval_sum, times, List.map_cons, List.map_nil, List.sum_cons, List.sum_nil]
    congr 1; ring
  rw [if_neg h4] at h ⊢
  by_cases h5 : k = 5
  · subst h5
    simp only [if_true, Option.some.injEq] at h ⊢
    subst h
    simp only [Term.eval, eval_sum, times, List.map_cons, List.map_nil, List.sum_cons, List.sum_nil]
    congr 1; ring
  rw [if_neg h5] at h ⊢
  by_cases h6 : k = 6
  · subst h6
    simp only [if_true, Option.some.injEq] at h ⊢
    subst h
    simp only [Term.eval, eval_sum, times, List.map_cons, List.map_nil, List.sum_cons, List.sum_nil]
    congr 1; ring
  rw [if_neg h6] at h ⊢
  by_cases h7 : k = 7
  · subst h7
    simp only [if_true, Option.some.injEq] at h ⊢
    subst h
    simp only [Term.eval, eval_sum, times, List.map_cons, List.map_nil, List.sum_cons, List.sum_nil]
    congr 1; ring
  rw [if_neg h7] at h
  simp at h

theorem tauTerm_vars {k : ℕ} {t : Term Var D} (h : tauTerm k = some t) : ∀ v ∈ t.vars, ∃ r < k, v = .beta r := by
  unfold tauTerm at h
  by_cases h2 : k = 2
  · subst h2; simp only [if_true, Option.some.injEq] at h; subst h; simp [Term.vars, Term.sum, times]
  rw [if_neg h2] at h
  by_cases h3 : k = 3
  · subst h3; simp only [if_true, Option.some.injEq] at h; subst h; simp [Term.vars, Term.sum, times]
  rw [if_neg h3] at h
  by_cases h4 : k = 4
  · subst h4; simp only [if_true, Option.some.injEq] at h; subst h; simp [Term.vars, Term.sum, times]
  rw [if_neg h4] at h
  by_cases h5 : k = 5
  · subst h5; simp only [if_true, Option.some.injEq] at h; subst h; simp [Term.vars, Term.sum, times]
  rw [if_neg h5] at h
  by_cases h6 : k = 6
  · subst h6; simp only [if_true, Option.some.injEq] at h; subst h; simp [Term.vars, Term.sum, times]
  rw [if_neg h6] at h
  by_cases h7 : k = 7
  · subst h7; simp only [if_true, Option.some.injEq] at h; subst h; simp [Term.vars, Term.sum, times]
  rw [if_neg h7] at h
  simp at h

/-- The weights. -/
theorem alpha_eval {form : Formulation} {k : ℕ} {al : (ℕ → ℝ) → ℕ → Term Var D} (h : wenoAlpha form k = some al) (w B : ℕ → ℝ) :
    ∃ A, Weno.weights form k w B = some (Weno.omega k A) ∧ ∀ r < k, ∀ σ' : Var → ℝ, (∀ s < k, σ' (.beta s) = B s) → (al w r).eval I m d x σ' = A r := by
  cases form with
  | JS =>
    simp only [wenoAlpha, Option.some.injEq] at h
    subst h
    refine ⟨alphaJS w B, rfl, fun r hr σ' hσ => ?_⟩
    simp only [Term.eval, alphaJS, hσ r hr, div_eq_mul_inv]
  | Z =>
    simp only [wenoAlpha, Option.map_eq_some_iff] at h
    obtain ⟨t, ht, rfl⟩ := h
    have hB := tau_eval (I := I) (m := m) (d := d) (x := x) ht (fun v => match v with | .beta r => B r | _ => 0)
    refine ⟨alphaZ (t.eval I m d x fun v => match v with | .beta r => B r | _ => 0) w B, by simp only [Weno.weights, hB, Option.map_some], fun r hr σ' hσ => ?_⟩
    have ht' : t.eval I m d x σ' = t.eval I m d x fun v => match v with | .beta r => B r | _ => 0 := eval_congr fun v hv => by
      obtain ⟨s, hs, rfl⟩ := tauTerm_vars ht v hv
      exact hσ s hs
    simp only [Term.eval, alphaZ, hσ r hr, div_eq_mul_inv, ht']

theorem tenoBeta_eval {side : Side} {f : ℤ → Term Var D} {F : ℤ → ℝ} {σ : Var → ℝ} (hF : ∀ p, (f p).eval I m d x σ = F p) {r : ℕ} (hr : r < 4) :
    (tenoBeta side f r).eval I m d x σ = Teno.beta side r F := by
  have h : r = 0 ∨ r = 1 ∨ r = 2 ∨ r = 3 := by omega
  rcases h with rfl | rfl | rfl | rfl <;> cases side <;>
    simp only [tenoBeta, Term.eval, times, lin, eval_sum, List.map_cons, List.map_nil, List.sum_cons, List.sum_nil, hF, Teno.beta] <;> ring

theorem tenoTau_eval {o : Teno.Order} {σ : Var → ℝ} {B : ℕ → ℝ} (h : ∀ s < o.n, σ (.beta s) = B s) : (tenoTau o : Term Var D).eval I m d x σ = Teno.tau o B := by
  cases o <;> simp only [tenoTau, Term.eval, times, Teno.tau]
  · rw [h 0 (by decide), h 2 (by decide)]; congr 1; ring
  · rw [h 0 (by decide), h 1 (by decide), h 2 (by decide), h 3 (by decide)]; congr 1; ring

theorem order_lt {o : Teno.Order} {r : ℕ} (h : r < o.n) : r < 4 := by cases o <;> simp [Teno.Order.n] at h <;> omega

/-- The equations of a TENO reconstruction add it to the variable of the component. -/
theorem teno_run {o : Teno.Order} {ct : Term Var D} {side : Side} {i : ℕ} {f : ℤ → Term Var D} {σ : Var → ℝ} {F : ℤ → ℝ} {CT : ℝ}
    (hF : ∀ p σ', (∀ v, ¬ Scratch v → σ' v = σ v) → (f p).eval I m d x σ' = F p) (hct : ∀ σ', (∀ v, ¬ Scratch v → σ' v = σ v) → ct.eval I m d x σ' = CT) :
    run I m d x (tenoEqs o ct side i f) σ (.recon i) = σ (.recon i) + Teno.reconstruct o side (I.const "eps") CT F := by
  unfold tenoEqs
  simp only [run_append]
  set σ1 := run I m d x ((List.range o.n).map fun r => (Var.beta r, tenoBeta side f r)) σ with h1
  have e1 : ∀ r < o.n, σ1 (.beta r) = Teno.beta side r F := fun r hr => by
    refine run_block (name := Var.beta) (B := fun r => Teno.beta side r F) (by intro r s h; simpa using h) (fun s hs σ' hσ => ?_) hr
    exact tenoBeta_eval (fun p => hF p σ' fun v hv => hσ v (by rintro r rfl; exact hv trivial)) (order_lt hs)
  have f1 : ∀ v, (∀ r, v ≠ .beta r) → σ1 v = σ v := fun v hv => block_frame (name := Var.beta) hv
  set A := Teno.alpha o (I.const "eps") (fun r => Teno.beta side r F) with hA
  set σ2 := run I m d x ((List.range o.n).map fun r => (Var.alpha r, Term.npow (.add (.num 1) (.mul (tenoTau o) (.inv (.add (.const "eps") (.var (.beta r)))))) 6)) σ1 with h2
  have e2 : ∀ r < o.n, σ2 (.alpha r) = A r := fun r hr => by
    refine run_block (name := Var.alpha) (by intro r s h; simpa using h) (fun s hs σ' hσ => ?_) hr
    have hb : ∀ t < o.n, σ' (.beta t) = Teno.beta side t F := fun t ht => by rw [hσ _ (by simp), e1 t ht]
    simp only [Term.eval, tenoTau_eval hb, hb s hs, hA, Teno.alpha, div_eq_mul_inv]
  have f2 : ∀ v, (∀ r, v ≠ .alpha r) → σ2 v = σ1 v := fun v hv => block_frame (name := Var.alpha) hv
  set σ3 := run I m d x [(Var.invAlpha, Term.inv (Term.sum ((List.range o.n).map fun r => .var (.alpha r))))] σ2 with h3
  have e3 : σ3 .invAlpha = 1 / ∑ r ∈ Finset.range o.n, A r := by
    rw [h3, run_one, if_pos rfl]
    simp only [Term.eval, eval_sum, List.map_map, one_div]
    rw [← sum_range_list]
    congr 2
    refine List.map_congr_left fun r hr => ?_
    simp only [Function.comp, Term.eval]
    exact e2 r (List.mem_range.1 hr)
  have f3 : ∀ v, v ≠ .invAlpha → σ3 v = σ2 v := fun v hv => by rw [h3, run_one, if_neg hv]
  set σ4 := run I m d x ((List.range o.n).map fun r => (Var.delta r, Term.cut (.mul (.var (.alpha r)) (.var .invAlpha)) ct)) σ3 with h4
  have g3 : ∀ v, ¬ Scratch v → σ3 v = σ v := fun v hv => by
    rw [f3 v (by rintro rfl; exact hv trivial), f2 v (by rintro r rfl; exact hv trivial), f1 v (by rintro r rfl; exact hv trivial)]
  have e4 : ∀ r < o.n, σ4 (.delta r) = Teno.delta o CT A r := fun r hr => by
    refine run_block (name := Var.delta) (by intro r s h; simpa using h) (fun s hs σ' hσ => ?_) hr
    have hc : ct.eval I m d x σ' = CT := hct σ' fun v hv => by rw [hσ v (by rintro r rfl; exact hv trivial), g3 v hv]
    simp only [Term.eval, Teno.delta, hc]
    rw [hσ _ (by simp), hσ _ (by simp), e3, f3 _ (by simp), e2 s hs]
  have f4 : ∀ v, (∀ r, v ≠ .delta r) → σ4 v = σ3 v := fun v hv => block_frame (name := Var.delta) hv
  set σ5 := run I m d x [(Var.invOmega, Term.inv (Term.sum ((List.range o.n).map fun r => times (Teno.opt o r) (.var (.delta r)))))] σ4 with h5
  have e5 : σ5 .invOmega = 1 / Teno.omegaSum o (Teno.delta o CT A) := by
    rw [h5, run_one, if_pos rfl]
    simp only [Term.eval, eval_sum, List.map_map, one_div, Teno.omegaSum]
    rw [← sum_range_list]
    congr 2
    refine List.map_congr_left fun r hr => ?_
    simp only [Function.comp, Term.eval, times]
    rw [e4 r (List.mem_range.1 hr)]
  have f5 : ∀ v, v ≠ .invOmega → σ5 v = σ4 v := fun v hv => by rw [h5, run_one, if_neg hv]
  have g5 : ∀ v, ¬ Scratch v → σ5 v = σ v := fun v hv => by
    rw [f5 v (by rintro rfl; exact hv trivial), f4 v (by rintro r rfl; exact hv trivial), g3 v hv]
  rw [run_one, if_pos rfl]
  simp only [Term.eval, eval_sum, List.map_map]
  rw [f5 _ (by simp), f4 _ (by simp), f3 _ (by simp), f2 _ (by simp), f1 _ (by simp), Teno.reconstruct, ← sum_range_list]
  congr 2
  refine List.map_congr_left fun r hr => ?_
  simp only [Function.comp, Term.eval, eval_sum, List.map_map, times, Teno.weights, Teno.omega, Teno.candidate]
  rw [e5, f5 _ (by simp), e4 r (List.mem_range.1 hr)]
  congr 2
  refine List.map_congr_left fun j _ => ?_
  simp only [Function.comp, Term.eval]
  rw [hF _ σ5 g5]

/-- They change nothing but their variables. -/
theorem teno_frame {o : Teno.Order} {ct : Term Var D} {side : Side} {i : ℕ} {f : ℤ → Term Var D} {σ : Var → ℝ} {v : Var} (hv : ¬ Scratch v ∨ ∃ j, j ≠ i ∧ v = .recon j) :
    run I m d x (tenoEqs o ct side i f) σ v = σ v := by
  refine run_frame ?_
  simp only [tenoEqs, List.map_append, List.map_map, List.mem_append, List.mem_map, List.map_cons, List.map_nil, List.mem_singleton, Function.comp]
  rcases hv with hv | ⟨j, hj, rfl⟩
  · rintro (((((⟨r, _, rfl⟩ | ⟨r, _, rfl⟩) | rfl) | ⟨r, _, rfl⟩) | rfl) | rfl) <;> exact hv trivial
  · simp [hj]

end OpenSBLI.Recon
