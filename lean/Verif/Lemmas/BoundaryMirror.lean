import Verif.Lemmas.Boundary
import Mathlib.Algebra.BigOperators.Field

/-!
# Lemmas about copied and reflected boundary values
-/
namespace OpenSBLI.Bc
open Expr

variable {d : ℕ}

theorem zip_functional {α β : Type} {L : List α} {R : List β} (h : L.Nodup) {v : α} {e e' : β}
    (h1 : (v, e) ∈ L.zip R) (h2 : (v, e') ∈ L.zip R) : e = e' := by
  induction L generalizing R with
  | nil => simp at h1
  | cons x L ih =>
    cases R with
    | nil => simp at h1
    | cons y R =>
      rw [List.nodup_cons] at h
      rw [List.zip_cons_cons, List.mem_cons] at h1 h2
      rcases h1 with h1 | h1 <;> rcases h2 with h2 | h2
      · simp_all
      · injection h1 with a b; subst a; exact absurd (List.of_mem_zip h2).1 h.1
      · injection h2 with a b; subst a; exact absurd (List.of_mem_zip h1).1 h.1
      · exact ih h.2 h1 h2

theorem mem_cbe {L : List (Var d)} {R : List (Expr d)} {idx : List (ℤ × ℤ)} {a : Assign d} :
    a ∈ createBoundaryEquations L R idx ↔
      ∃ p ∈ idx, ∃ lr ∈ L.zip R, a = ⟨.data lr.1 p.1, lr.2.setLoc p.2⟩ := by
  simp only [createBoundaryEquations, List.mem_flatMap, List.mem_map]; grind

/-- `create_boundary_equations` with right locations that are not written: every left dataset receives the right
expression evaluated at the paired location in the initial store. -/
theorem cbe_value {L : List (Var d)} {R : List (Expr d)} {idx : List (ℤ × ℤ)} (hnd : L.Nodup)
    (hfun : ∀ p ∈ idx, ∀ q ∈ idx, p.1 = q.1 → p.2 = q.2) (hdis : ∀ p ∈ idx, ∀ q ∈ idx, q.1 ≠ p.2)
    {v : Var d} {e : Expr d} (hv : (v, e) ∈ L.zip R) {p : ℤ × ℤ} (hp : p ∈ idx) (st : Cell d → ℝ) :
    run (createBoundaryEquations L R idx) st (.data v p.1) = (e.setLoc p.2).eval st := by
  obtain ⟨a, ha, h1, h2⟩ := run_indep (createBoundaryEquations L R idx) st (c := .data v p.1)
    (by
      intro a ha c hc b hb
      obtain ⟨p, hp, lr, -, rfl⟩ := mem_cbe.1 ha
      obtain ⟨q, hq, lr', -, rfl⟩ := mem_cbe.1 hb
      simp only [setLoc, cells_mapCells, List.mem_map] at hc
      obtain ⟨c', -, rfl⟩ := hc
      have := hdis p hp q hq
      cases c' <;> simp [this])
    ⟨_, mem_cbe.2 ⟨p, hp, _, hv, rfl⟩, rfl⟩
  obtain ⟨q, hq, ⟨w, e'⟩, hlr, rfl⟩ := mem_cbe.1 ha
  simp only [Cell.data.injEq] at h1
  obtain ⟨rfl, h1⟩ := h1
  rw [h2, zip_functional hnd hv hlr, hfun p hp q hq h1.symm]

theorem cbe_unwritten {L : List (Var d)} {R : List (Expr d)} {idx : List (ℤ × ℤ)} {c : Cell d}
    (h : ∀ v ∈ L, ∀ p ∈ idx, c ≠ .data v p.1) (st : Cell d → ℝ) :
    run (createBoundaryEquations L R idx) st c = st c := by
  apply run_unwritten
  intro a ha
  obtain ⟨p, hp, ⟨v, e⟩, hlr, rfl⟩ := mem_cbe.1 ha
  exact (h v (List.of_mem_zip hlr).1 p hp).symm

theorem mem_mirror {s : Side} {n : ℕ} {p : ℤ × ℤ} :
    p ∈ mirrorIndices s n ↔ ∃ t : ℕ, 1 ≤ t ∧ t ≤ n ∧ p = (s.fromF * (t : ℤ), s.toF * (t : ℤ)) := by
  simp only [mirrorIndices, List.mem_map, List.mem_range'_1]
  constructor
  · rintro ⟨t, ⟨h1, h2⟩, rfl⟩; exact ⟨t, h1, by omega, rfl⟩
  · rintro ⟨t, h1, h2, rfl⟩; exact ⟨t, ⟨h1, by omega⟩, rfl⟩

theorem mirror_functional (s : Side) (n : ℕ) :
    ∀ p ∈ mirrorIndices s n, ∀ q ∈ mirrorIndices s n, p.1 = q.1 → p.2 = q.2 := by
  intro p hp q hq h
  obtain ⟨t, -, -, rfl⟩ := mem_mirror.1 hp
  obtain ⟨u, -, -, rfl⟩ := mem_mirror.1 hq
  rw [fromF_mul_inj s h]

theorem mirror_disjoint (s : Side) (n : ℕ) :
    ∀ p ∈ mirrorIndices s n, ∀ q ∈ mirrorIndices s n, q.1 ≠ p.2 := by
  intro p hp q hq
  obtain ⟨t, -, -, rfl⟩ := mem_mirror.1 hp
  obtain ⟨u, hu, -, rfl⟩ := mem_mirror.1 hq
  exact from_ne_to s hu

/-- The pairs of left and right sides of the reflection. -/
theorem zip_reflected (row : Fin d → Expr d) (c : ℝ) (arrays : List (Arr d)) :
    (flatten arrays).zip (reflectedRhs row c arrays) = arrays.flatMap fun
      | .scalar v => [(v, dat v 0)]
      | .vector m => (List.finRange d).map fun (i : Fin d) => (m i, reflected row c m i) := by
  induction arrays with
  | nil => rfl
  | cons a l ih =>
    simp only [flatten, reflectedRhs, List.flatMap_cons] at ih ⊢
    rw [List.zip_append (by cases a <;> simp), ih]
    congr 1
    cases a with
    | scalar v => rfl
    | vector m => simp [List.zip_map']

theorem scalar_mem_zip (row : Fin d → Expr d) (c : ℝ) {arrays : List (Arr d)} {v : Var d}
    (h : Arr.scalar v ∈ arrays) : (v, dat v 0) ∈ (flatten arrays).zip (reflectedRhs row c arrays) := by
  rw [zip_reflected, List.mem_flatMap]; exact ⟨_, h, by simp⟩

theorem vector_mem_zip (row : Fin d → Expr d) (c : ℝ) {arrays : List (Arr d)} {m : Fin d → Var d}
    (h : Arr.vector m ∈ arrays) (i : Fin d) :
    (m i, reflected row c m i) ∈ (flatten arrays).zip (reflectedRhs row c arrays) := by
  rw [zip_reflected, List.mem_flatMap]; exact ⟨_, h, by simp only [List.mem_map, List.mem_finRange, true_and]; exact ⟨i, rfl⟩⟩

theorem copy_mem_zip {cons : List (Var d)} {v : Var d} (h : v ∈ cons) :
    (v, dat v 0) ∈ cons.zip (cons.map fun v => dat v 0) := by
  rw [List.zip_map_right, List.mem_map]
  refine ⟨(v, v), ?_, rfl⟩
  rw [List.mem_iff_getElem] at h ⊢
  obtain ⟨i, hi, rfl⟩ := h
  exact ⟨i, by simpa using hi, by simp⟩

theorem eval_dat_setLoc (v : Var d) (o k : ℤ) (st : Cell d → ℝ) :
    ((dat v o).setLoc k).eval st = st (.data v k) := by rw [eval_setLoc]; rfl

/-- The metric row seen at offset `k`: the (unnormalised) normal used there. -/
noncomputable def normalAt (row : Fin d → Expr d) (st : Cell d → ℝ) (k : ℤ) (i : Fin d) : ℝ :=
  ((row i).setLoc k).eval st

theorem inner_self_nonneg (N : Fin d → ℝ) : 0 ≤ Spec.inner N N :=
  Finset.sum_nonneg fun i _ => mul_self_nonneg (N i)

theorem eval_reflected (row : Fin d → Expr d) (c : ℝ) (m : Fin d → Var d) (i : Fin d) (k : ℤ)
    (st : Cell d → ℝ) :
    ((reflected row c m i).setLoc k).eval st = st (.data (m i) k) -
      c * (Spec.inner (normalAt row st k) (fun j => st (.data (m j) k)) /
        Spec.inner (normalAt row st k) (normalAt row st k)) * normalAt row st k i := by
  rw [eval_setLoc]
  simp only [reflected, unitNormal, eval_sub, eval_mul, eval_num, eval_dat, eval_sum, eval_div, eval_sqrt,
    List.map_map, atLoc_data, Function.comp_def]
  have hN : ∀ j, eval (atLoc st k) (row j) = normalAt row st k j := fun j => by rw [normalAt, eval_setLoc]
  simp only [hN]
  rw [sum_finRange (fun j => normalAt row st k j * normalAt row st k j)]
  rw [sum_finRange (fun j => normalAt row st k j / √(∑ j, normalAt row st k j * normalAt row st k j)
    * st (.data (m j) k))]
  set N := normalAt row st k
  have hS : √(∑ j, N j * N j) * √(∑ j, N j * N j) = Spec.inner N N :=
    Real.mul_self_sqrt (inner_self_nonneg N)
  have h1 : ∑ j, N j / √(∑ j, N j * N j) * st (.data (m j) k) =
      Spec.inner N (fun j => st (.data (m j) k)) / √(∑ j, N j * N j) := by
    rw [Spec.inner, Finset.sum_div]; exact Finset.sum_congr rfl fun j _ => by ring
  rw [h1, ← hS]
  rw [sub_right_inj]
  rw [mul_assoc, div_mul_div_comm, mul_assoc]
  congr 1; rw [div_mul_eq_mul_div]

theorem inner_sub_smul (w m N : Fin d → ℝ) (a : ℝ) :
    Spec.inner w (fun i => m i - a * N i) = Spec.inner w m - a * Spec.inner w N := by
  simp only [Spec.inner, Finset.mul_sum, ← Finset.sum_sub_distrib]
  exact Finset.sum_congr rfl fun i _ => by ring

theorem isMirror_reflect {N m : Fin d → ℝ} (hN : Spec.inner N N ≠ 0) :
    Spec.IsMirror N m (fun i => m i - 2 * (Spec.inner N m / Spec.inner N N) * N i) := by
  constructor
  · rw [inner_sub_smul]; field_simp; ring
  · intro w hw; rw [inner_sub_smul, hw]; ring

theorem isTangential_reflect {N m : Fin d → ℝ} (hN : Spec.inner N N ≠ 0) :
    Spec.IsTangentialPart N m (fun i => m i - 1 * (Spec.inner N m / Spec.inner N N) * N i) := by
  constructor
  · rw [inner_sub_smul]; field_simp; ring
  · intro w hw; rw [inner_sub_smul, hw]; ring

theorem consArrays_nodup (d : ℕ) : (flatten (consArrays d)).Nodup := by
  simp only [flatten, consArrays, List.flatMap_cons, List.flatMap_nil, List.append_nil]
  rw [List.nodup_append, List.nodup_append]
  refine ⟨by simp, ⟨(List.nodup_finRange d).map fun a b h => by simpa using h, by simp, by simp⟩, ?_⟩
  intro a ha b hb
  simp only [List.mem_singleton] at ha
  subst ha
  simp only [List.mem_append, List.mem_map, List.mem_finRange, true_and, List.mem_singleton] at hb
  rcases hb with ⟨i, rfl⟩ | rfl <;> simp

theorem mem_consArrays {v : Var d} :
    v ∈ flatten (consArrays d) ↔ v = .rho ∨ (∃ i, v = .mom i) ∨ v = .rhoE := by
  simp only [flatten, consArrays, List.flatMap_cons, List.flatMap_nil, List.append_nil, List.mem_append,
    List.mem_singleton, List.mem_map, List.mem_finRange, true_and]
  grind

/-- Equations with pairwise different targets, each of which may read its own target but no other assigned cell:
every target receives the value in the initial store. -/
theorem run_indep_nodup (l : List (Assign d)) (st : Cell d → ℝ) (hnd : (l.map Assign.target).Nodup)
    (hread : ∀ a ∈ l, ∀ b ∈ l, b.target ∈ a.rhs.cells → b.target = a.target) (a : Assign d) (ha : a ∈ l) :
    run l st a.target = a.rhs.eval st := by
  obtain ⟨l₁, l₂, rfl⟩ := List.append_of_mem ha
  rw [List.map_append, List.map_cons, List.nodup_append, List.nodup_cons] at hnd
  obtain ⟨-, ⟨h2, -⟩, h3⟩ := hnd
  rw [run_append, run_cons, run_unwritten, Function.update_self]
  · apply eval_congr
    intro c hc
    apply run_unwritten
    intro b hb h
    subst h
    have := hread a (by simp) b (by simp [hb]) hc
    exact h3 _ (List.mem_map_of_mem hb) a.target (by simp) this
  · intro b hb h
    exact h2 (h ▸ List.mem_map_of_mem hb)

end OpenSBLI.Bc
