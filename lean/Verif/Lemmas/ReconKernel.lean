import Verif.Model.ReconKernel
import Verif.Lemmas.Llf
import Verif.Lemmas.ShockProgram
import Mathlib.Tactic.Ring
import Mathlib.Tactic.NormNum

/-!
# Running the equations of the reconstruction kernel: helper lemmas for C81
-/
namespace OpenSBLI.Recon
open Sim Weno

variable {V W : Type} {D n : ℕ} {I : Interp D} {m : Mem D} {d : Fin D} {x : P D}

/-! ## Values -/

theorem eval_congr {σ σ' : V → ℝ} {t : Term V D} (h : ∀ v ∈ t.vars, σ v = σ' v) : t.eval I m d x σ = t.eval I m d x σ' := by
  induction t with
  | var v => exact h v (by simp [Term.vars])
  | num | const | «at» => rfl
  | add a b ha hb | mul a b ha hb | pow a b ha hb | max a b ha hb | cut a b ha hb =>
    simp only [Term.eval]
    rw [ha fun v hv => h v (by simp [Term.vars, hv]), hb fun v hv => h v (by simp [Term.vars, hv])]
  | npow a _ ha | inv a ha | sqrt a ha | abs a ha | fn _ a ha | tenFloor a ha =>
    simp only [Term.eval]
    rw [ha fun v hv => h v (by simpa [Term.vars] using hv)]

theorem eval_map (g : V → W) (σ : W → ℝ) (t : Term V D) : (t.map g).eval I m d x σ = t.eval I m d x (σ ∘ g) := by
  induction t with
  | num | const | «at» | var => rfl
  | add a b ha hb | mul a b ha hb | pow a b ha hb | max a b ha hb | cut a b ha hb => simp only [Term.map, Term.eval, ha, hb]
  | npow a _ ha | inv a ha | sqrt a ha | abs a ha | fn _ a ha | tenFloor a ha => simp only [Term.map, Term.eval, ha]

theorem eval_sum (σ : V → ℝ) (l : List (Term V D)) : (Term.sum l).eval I m d x σ = (l.map fun t => t.eval I m d x σ).sum := by
  induction l with
  | nil => simp [Term.sum, Term.eval]
  | cons a l ih => simp only [Term.sum, List.foldr_cons, Term.eval, List.map_cons, List.sum_cons] at ih ⊢; rw [ih]

theorem vars_sum (l : List (Term V D)) (v : V) : v ∈ (Term.sum l).vars ↔ ∃ t ∈ l, v ∈ t.vars := by
  induction l with
  | nil => simp [Term.sum, Term.vars]
  | cons a l ih => simp only [Term.sum, List.foldr_cons, Term.vars, List.mem_append, List.mem_cons] at ih ⊢; rw [ih]; simp

theorem regular_sum (σ : V → ℝ) (l : List (Term V D)) : (Term.sum l).Regular I m d x σ ↔ ∀ t ∈ l, t.Regular I m d x σ := by
  induction l with
  | nil => simp [Term.sum, Term.Regular]
  | cons a l ih => simp only [Term.sum, List.foldr_cons, Term.Regular, List.mem_cons] at ih ⊢; rw [ih]; simp

theorem replace_num {old : Term V D} {new : V} {r : ℝ} (h : ∀ r, old ≠ .num r) : (Term.num r).replace old new = .num r := by
  rw [Term.replace.eq_def, if_neg (fun e => h r e.symm)]

theorem replace_spec {σ : V → ℝ} {old : Term V D} {new : V} (hn : ∀ r, old ≠ .num r) (ho : σ new = old.eval I m d x σ) (t : Term V D) (ht : t.Regular I m d x σ) :
    (t.replace old new).Regular I m d x σ ∧ (t.replace old new).eval I m d x σ = t.eval I m d x σ := by
  induction t with
  | num | const | «at» | var =>
    rw [Term.replace.eq_def]
    split
    · next h => exact ⟨trivial, by rw [h]; exact ho⟩
    · exact ⟨ht, rfl⟩
  | add a b ha hb | mul a b ha hb | max a b ha hb | cut a b ha hb =>
    rw [Term.replace.eq_def]
    split
    · next h => exact ⟨trivial, by rw [h]; exact ho⟩
    · obtain ⟨a1, a2⟩ := ha ht.1
      obtain ⟨b1, b2⟩ := hb ht.2
      exact ⟨⟨a1, b1⟩, by simp only [Term.eval, a2, b2]⟩
  | pow a b ha hb =>
    rw [Term.replace.eq_def]
    split
    · next h => exact ⟨trivial, by rw [h]; exact ho⟩
    · obtain ⟨a1, a2⟩ := ha ht.1
      obtain ⟨b1, b2⟩ := hb ht.2.1
      refine ⟨⟨a1, b1, ?_⟩, by simp only [Term.eval, a2, b2]⟩
      rw [a2]
      rcases ht.2.2 with ⟨k, h⟩ | ⟨⟨z, h⟩, h'⟩ | h
      · exact .inl ⟨k, by rw [h, replace_num hn]⟩
      · exact .inr (.inl ⟨⟨z, by rw [h, replace_num hn]⟩, h'⟩)
      · exact .inr (.inr h)
  | npow a _ ha | abs a ha | fn _ a ha | tenFloor a ha =>
    rw [Term.replace.eq_def]
    split
    · next h => exact ⟨trivial, by rw [h]; exact ho⟩
    · obtain ⟨a1, a2⟩ := ha ht
      exact ⟨a1, by simp only [Term.eval, a2]⟩
  | inv a ha | sqrt a ha =>
    rw [Term.replace.eq_def]
    split
    · next h => exact ⟨trivial, by rw [h]; exact ho⟩
    · obtain ⟨a1, a2⟩ := ha ht.1
      exact ⟨⟨a1, by rw [a2]; exact ht.2⟩, by simp only [Term.eval, a2]⟩

theorem replaceAll_spec {σ : V → ℝ} (l : List (Term V D × V)) (h : ∀ q ∈ l, (∀ r, q.1 ≠ .num r) ∧ σ q.2 = q.1.eval I m d x σ) (t : Term V D) (ht : t.Regular I m d x σ) :
    (t.replaceAll l).Regular I m d x σ ∧ (t.replaceAll l).eval I m d x σ = t.eval I m d x σ := by
  induction l generalizing t with
  | nil => exact ⟨ht, rfl⟩
  | cons q l ih =>
    obtain ⟨h1, h2⟩ := h q (by simp)
    obtain ⟨r1, r2⟩ := replace_spec h1 h2 t ht
    obtain ⟨s1, s2⟩ := ih (fun q hq => h q (by simp [hq])) _ r1
    exact ⟨s1, s2.trans r2⟩

theorem replace_vars {old : Term V D} {new : V} (t : Term V D) : ∀ v ∈ (t.replace old new).vars, v ∈ t.vars ∨ v = new := by
  induction t with
  | num | const | «at» | var =>
    rw [Term.replace.eq_def]
    split
    · intro v hv; exact .inr (by simpa [Term.vars] using hv)
    · intro v hv; exact .inl hv
  | add a b ha hb | mul a b ha hb | max a b ha hb | cut a b ha hb | pow a b ha hb =>
    rw [Term.replace.eq_def]
    split
    · intro v hv; exact .inr (by simpa [Term.vars] using hv)
    · intro v hv
      simp only [Term.vars, List.mem_append] at hv ⊢
      rcases hv with hv | hv
      · rcases ha v hv with h | h <;> simp [h]
      · rcases hb v hv with h | h <;> simp [h]
  | npow a _ ha | abs a ha | fn _ a ha | tenFloor a ha | inv a ha | sqrt a ha =>
    rw [Term.replace.eq_def]
    split
    · intro v hv; exact .inr (by simpa [Term.vars] using hv)
    · intro v hv; exact ha v hv

theorem replaceAll_vars (l : List (Term V D × V)) (t : Term V D) : ∀ v ∈ (t.replaceAll l).vars, v ∈ t.vars ∨ v ∈ l.map Prod.snd := by
  induction l generalizing t with
  | nil => exact fun v hv => .inl hv
  | cons q l ih =>
    intro v hv
    rcases ih _ v hv with h | h
    · rcases replace_vars t v h with h | h
      · exact .inl h
      · exact .inr (by simp [h])
    · exact .inr (by simp only [List.map_cons, List.mem_cons]; exact .inr h)

/-! ## Running -/

section
variable [DecidableEq V] [DecidableEq W]

theorem run_append (l l' : List (V × Term V D)) (σ : V → ℝ) : run I m d x (l ++ l') σ = run I m d x l' (run I m d x l σ) := by
  simp [run, List.foldl_append]

theorem run_cons (q : V × Term V D) (l : List (V × Term V D)) (σ : V → ℝ) : run I m d x (q :: l) σ = run I m d x l (Function.update σ q.1 (q.2.eval I m d x σ)) := rfl

theorem run_frame {l : List (V × Term V D)} {σ : V → ℝ} {v : V} (h : v ∉ l.map Prod.fst) : run I m d x l σ v = σ v := by
  induction l generalizing σ with
  | nil => rfl
  | cons q l ih =>
    simp only [List.map_cons, List.mem_cons, not_or] at h
    rw [run_cons, ih h.2, Function.update_of_ne h.1]

/-- If every equation of a list, evaluated wherever the variables not assigned by the list are unchanged, has the value `g` of its variable, then this is what it leaves. -/
theorem run_value {l : List (V × Term V D)} {σ : V → ℝ} {g : V → ℝ} (h : ∀ q ∈ l, ∀ σ', (∀ v, v ∉ l.map Prod.fst → σ' v = σ v) → q.2.eval I m d x σ' = g q.1) {v : V} (hv : v ∈ l.map Prod.fst) :
    run I m d x l σ v = g v := by
  suffices H : ∀ l' : List (V × Term V D), (∀ q ∈ l', q ∈ l) → ∀ σ1, (∀ v, v ∉ l.map Prod.fst → σ1 v = σ v) → ∀ v ∈ l'.map Prod.fst, run I m d x l' σ1 v = g v from H l (fun _ h => h) σ (fun _ _ => rfl) v hv
  intro l'
  induction l' with
  | nil => intro _ _ _ v hv; simp at hv
  | cons q l' ih =>
    intro hl σ1 h1 v hv
    rw [run_cons]
    by_cases hv' : v ∈ l'.map Prod.fst
    · refine ih (fun q hq => hl q (by simp [hq])) _ (fun w hw => ?_) v hv'
      rw [Function.update_of_ne, h1 w hw]
      rintro rfl
      exact hw (List.mem_map_of_mem (hl q (by simp)))
    · have : v = q.1 := by simpa [hv'] using hv
      subst this
      rw [run_frame hv', Function.update_self]
      exact h q (hl q (by simp)) σ1 h1

/-- With variables which keep a value they have already. -/
theorem run_value_or {l : List (V × Term V D)} {σ : V → ℝ} {g : V → ℝ} (h : ∀ q ∈ l, ∀ σ', (∀ v, v ∉ l.map Prod.fst → σ' v = σ v) → q.2.eval I m d x σ' = g q.1) {v : V}
    (hv : v ∉ l.map Prod.fst → σ v = g v) : run I m d x l σ v = g v := by
  by_cases hm : v ∈ l.map Prod.fst
  · exact run_value h hm
  · rw [run_frame hm, hv hm]

/-- Renaming variables. -/
theorem run_map {g : V → W} {s : V → Prop} (hg : ∀ v w, s v → s w → g v = g w → v = w) (l : List (V × Term V D)) (hl : ∀ q ∈ l, s q.1 ∧ ∀ v ∈ q.2.vars, s v) (σ : W → ℝ) (σ' : V → ℝ)
    (h : ∀ v, s v → σ (g v) = σ' v) : ∀ v, s v → run I m d x (l.map fun q => (g q.1, q.2.map g)) σ (g v) = run I m d x l σ' v := by
  induction l generalizing σ σ' with
  | nil => exact h
  | cons q l ih =>
    rw [List.map_cons, run_cons, run_cons]
    obtain ⟨h1, h2⟩ := hl q (by simp)
    have he : (q.2.map g).eval I m d x σ = q.2.eval I m d x σ' := by
      rw [eval_map]
      exact eval_congr fun v hv => h v (h2 v hv)
    refine ih (fun q hq => hl q (by simp [hq])) _ _ fun v hv => ?_
    by_cases hvq : v = q.1
    · subst hvq; simp [he]
    · rw [Function.update_of_ne hvq, Function.update_of_ne (fun e => hvq (hg v q.1 hv h1 e)), h v hv]

end

end OpenSBLI.Recon
