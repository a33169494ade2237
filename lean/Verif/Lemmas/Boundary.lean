import Verif.Model.Boundary
import Verif.Spec.GasState
import Verif.Lemmas.Closures
import Mathlib.Algebra.BigOperators.Fin
import Mathlib.Tactic.FieldSimp
import Mathlib.Tactic.LinearCombination
import Mathlib.Tactic.Linarith

/-!
# Lemmas about sequential kernel programs
-/
namespace OpenSBLI.Bc
open Expr

variable {d : ℕ}

theorem eval_congr {e : Expr d} {st st' : Cell d → ℝ} (h : ∀ c ∈ e.cells, st c = st' c) :
    e.eval st = e.eval st' := by
  induction e with
  | num r => rfl
  | cell c => exact h c (by simp [cells])
  | neg a iha | sqrt a iha | abs a iha =>
    simp only [eval]; rw [iha (fun c hc => h c (by simpa [cells] using hc))]
  | add a b iha ihb | sub a b iha ihb | mul a b iha ihb | div a b iha ihb | rpow a b iha ihb =>
    simp only [eval]
    rw [iha (fun c hc => h c (by simp [cells, hc])), ihb (fun c hc => h c (by simp [cells, hc]))]
  | ge a b x y iha ihb ihx ihy =>
    simp only [eval]
    rw [iha (fun c hc => h c (by simp [cells, hc])), ihb (fun c hc => h c (by simp [cells, hc])),
      ihx (fun c hc => h c (by simp [cells, hc])), ihy (fun c hc => h c (by simp [cells, hc]))]

theorem eval_mapCells (f : Cell d → Cell d) (e : Expr d) (st : Cell d → ℝ) :
    (e.mapCells f).eval st = e.eval (fun c => st (f c)) := by
  induction e <;> simp_all [mapCells, eval]

theorem cells_mapCells (f : Cell d → Cell d) (e : Expr d) :
    (e.mapCells f).cells = e.cells.map f := by
  induction e <;> simp_all [mapCells, cells]

theorem mapCells_mapCells (f g : Cell d → Cell d) (e : Expr d) :
    (e.mapCells f).mapCells g = e.mapCells (fun c => g (f c)) := by
  induction e <;> simp_all [mapCells]

theorem mapCells_congr {f g : Cell d → Cell d} {e : Expr d} (h : ∀ c ∈ e.cells, f c = g c) :
    e.mapCells f = e.mapCells g := by
  induction e <;> simp_all [mapCells, cells]

@[simp] theorem eval_num (r : ℝ) (st : Cell d → ℝ) : (Expr.num r).eval st = r := rfl
@[simp] theorem eval_dat (v : Var d) (k : ℤ) (st : Cell d → ℝ) : (dat v k).eval st = st (.data v k) := rfl
@[simp] theorem eval_lv (l : Loc) (st : Cell d → ℝ) : (lv l).eval st = st (.loc l) := rfl
@[simp] theorem eval_add (a b : Expr d) (st : Cell d → ℝ) : (a + b).eval st = a.eval st + b.eval st := rfl
@[simp] theorem eval_sub (a b : Expr d) (st : Cell d → ℝ) : (a - b).eval st = a.eval st - b.eval st := rfl
@[simp] theorem eval_mul (a b : Expr d) (st : Cell d → ℝ) : (a * b).eval st = a.eval st * b.eval st := rfl
@[simp] theorem eval_div (a b : Expr d) (st : Cell d → ℝ) : (a / b).eval st = a.eval st / b.eval st := rfl
@[simp] theorem eval_neg (a : Expr d) (st : Cell d → ℝ) : (-a).eval st = -(a.eval st) := rfl
@[simp] theorem eval_sqrt (a : Expr d) (st : Cell d → ℝ) : (Expr.sqrt a).eval st = Real.sqrt (a.eval st) := rfl
@[simp] theorem eval_abs (a : Expr d) (st : Cell d → ℝ) : (Expr.abs a).eval st = |a.eval st| := rfl
@[simp] theorem eval_rpow (a b : Expr d) (st : Cell d → ℝ) :
    (Expr.rpow a b).eval st = (a.eval st) ^ (b.eval st) := rfl
@[simp] theorem eval_ge (a b x y : Expr d) (st : Cell d → ℝ) :
    (Expr.ge a b x y).eval st = if a.eval st ≥ b.eval st then x.eval st else y.eval st := rfl

@[simp] theorem cells_num (r : ℝ) : (Expr.num r : Expr d).cells = [] := rfl
@[simp] theorem cells_dat (v : Var d) (k : ℤ) : (dat v k).cells = [.data v k] := rfl
@[simp] theorem cells_lv (l : Loc) : (lv l : Expr d).cells = [.loc l] := rfl
@[simp] theorem cells_add (a b : Expr d) : (a + b).cells = a.cells ++ b.cells := rfl
@[simp] theorem cells_sub (a b : Expr d) : (a - b).cells = a.cells ++ b.cells := rfl
@[simp] theorem cells_mul (a b : Expr d) : (a * b).cells = a.cells ++ b.cells := rfl
@[simp] theorem cells_div (a b : Expr d) : (a / b).cells = a.cells ++ b.cells := rfl
@[simp] theorem cells_neg (a : Expr d) : (-a).cells = a.cells := rfl
@[simp] theorem cells_sqrt (a : Expr d) : (Expr.sqrt a).cells = a.cells := rfl
@[simp] theorem cells_abs (a : Expr d) : (Expr.abs a).cells = a.cells := rfl
@[simp] theorem cells_rpow (a b : Expr d) : (Expr.rpow a b).cells = a.cells ++ b.cells := rfl
@[simp] theorem cells_ge (a b x y : Expr d) :
    (Expr.ge a b x y).cells = a.cells ++ b.cells ++ (x.cells ++ y.cells) := rfl

theorem eval_foldl_add (l : List (Expr d)) (a : Expr d) (st : Cell d → ℝ) :
    (l.foldl Expr.add a).eval st = a.eval st + (l.map fun e => e.eval st).sum := by
  induction l generalizing a with
  | nil => simp
  | cons x l ih => simp only [List.foldl_cons, ih, List.map_cons, List.sum_cons, eval]; ring

@[simp] theorem eval_sum (l : List (Expr d)) (st : Cell d → ℝ) :
    (Expr.sum l).eval st = (l.map fun e => e.eval st).sum := by
  rw [Expr.sum, eval_foldl_add]; simp

theorem cells_foldl_add (l : List (Expr d)) (a : Expr d) (c : Cell d) :
    c ∈ (l.foldl Expr.add a).cells ↔ c ∈ a.cells ∨ ∃ e ∈ l, c ∈ e.cells := by
  induction l generalizing a with
  | nil => simp
  | cons x l ih => simp only [List.foldl_cons, ih, cells, List.mem_append, List.mem_cons]; grind

@[simp] theorem mem_cells_sum (l : List (Expr d)) (c : Cell d) :
    c ∈ (Expr.sum l).cells ↔ ∃ e ∈ l, c ∈ e.cells := by
  rw [Expr.sum, cells_foldl_add]; simp

theorem sum_finRange (f : Fin d → ℝ) : ((List.finRange d).map f).sum = ∑ i, f i := by
  rw [← List.ofFn_eq_map, List.sum_ofFn]

/-- The store in which every array is read at offset `k`. -/
def atLoc (st : Cell d → ℝ) (k : ℤ) : Cell d → ℝ
  | .data v _ => st (.data v k)
  | .loc l => st (.loc l)

/-- The store in which every array is read displaced by `k`. -/
def displaced (st : Cell d → ℝ) (k : ℤ) : Cell d → ℝ
  | .data v o => st (.data v (o + k))
  | .loc l => st (.loc l)

@[simp] theorem atLoc_data (st : Cell d → ℝ) (k o : ℤ) (v : Var d) :
    atLoc st k (.data v o) = st (.data v k) := rfl
@[simp] theorem atLoc_loc (st : Cell d → ℝ) (k : ℤ) (l : Loc) :
    atLoc st k (.loc l) = st (.loc l) := rfl
@[simp] theorem displaced_data (st : Cell d → ℝ) (k o : ℤ) (v : Var d) :
    displaced st k (.data v o) = st (.data v (o + k)) := rfl

theorem eval_setLoc (e : Expr d) (k : ℤ) (st : Cell d → ℝ) :
    (e.setLoc k).eval st = e.eval (atLoc st k) := by
  rw [setLoc, eval_mapCells]; congr 1; funext c; cases c <;> rfl

theorem eval_shift (e : Expr d) (k : ℤ) (st : Cell d → ℝ) :
    (e.shift k).eval st = e.eval (displaced st k) := by
  rw [shift, eval_mapCells]; congr 1; funext c; cases c <;> rfl

theorem run_nil (st : Cell d → ℝ) : run [] st = st := rfl

theorem run_cons (a : Assign d) (l : List (Assign d)) (st : Cell d → ℝ) :
    run (a :: l) st = run l (Function.update st a.target (a.rhs.eval st)) := rfl

theorem run_append (l l' : List (Assign d)) (st : Cell d → ℝ) :
    run (l ++ l') st = run l' (run l st) := by
  simp [run, List.foldl_append]

/-- Cells that no equation assigns keep their value. -/
theorem run_unwritten (l : List (Assign d)) (st : Cell d → ℝ) (c : Cell d)
    (h : ∀ a ∈ l, a.target ≠ c) : run l st c = st c := by
  induction l generalizing st with
  | nil => rfl
  | cons a l ih =>
    rw [run_cons, ih _ (fun a ha => h a (by simp [ha])),
      Function.update_of_ne (h a (by simp)).symm]

/-- Equations whose right-hand sides read no assigned cell: each assigned cell ends with the value, in the
initial store, of some equation assigning it. -/
theorem run_indep (l : List (Assign d)) (st : Cell d → ℝ)
    (hread : ∀ a ∈ l, ∀ c ∈ a.rhs.cells, ∀ b ∈ l, b.target ≠ c) (c : Cell d)
    (hc : ∃ a ∈ l, a.target = c) : ∃ a ∈ l, a.target = c ∧ run l st c = a.rhs.eval st := by
  have key : ∀ (l₁ l₂ : List (Assign d)), l = l₁ ++ l₂ → (∃ a ∈ l₁, a.target = c) →
      ∃ a ∈ l₁, a.target = c ∧ run l₁ st c = a.rhs.eval st := by
    intro l₁
    induction l₁ using List.reverseRecOn with
    | nil => intro l₂ _ h; simp at h
    | append_singleton l₁ a ih =>
      intro l₂ hl h
      by_cases hac : a.target = c
      · refine ⟨a, by simp, hac, ?_⟩
        rw [run_append, run_cons, run_nil, ← hac, Function.update_self]
        apply eval_congr
        intro x hx
        apply run_unwritten
        intro b hb
        exact hread a (by simp [hl]) x hx b (by simp [hl, hb])
      · obtain ⟨b, hb, hbc⟩ := h
        have hb' : b ∈ l₁ := by
          rcases List.mem_append.1 hb with h | h
          · exact h
          · simp only [List.mem_singleton] at h; exact absurd (h ▸ hbc) hac
        obtain ⟨b', hb', e1, e2⟩ := ih (a :: l₂) (by simp [hl]) ⟨b, hb', hbc⟩
        refine ⟨b', by simp [hb'], e1, ?_⟩
        rw [run_append, run_cons, run_nil, Function.update_of_ne (Ne.symm hac), e2]
  exact key l [] (by simp) hc

/-- A program that computes the store `F`: each equation reads only cells known to have their final value,
and assigns to its target the final value. -/
def Staged (F : Cell d → ℝ) (S : Set (Cell d)) : List (Assign d) → Prop
  | [] => True
  | a :: l => (∀ c ∈ a.rhs.cells, c ∈ S) ∧ a.rhs.eval F = F a.target ∧ Staged F (insert a.target S) l

/-- Cells assigned by a program. -/
def targets (l : List (Assign d)) : Set (Cell d) := {c | ∃ a ∈ l, a.target = c}

theorem Staged.mono {F : Cell d → ℝ} {S S' : Set (Cell d)} (hS : S ⊆ S') {l : List (Assign d)}
    (h : Staged F S l) : Staged F S' l := by
  induction l generalizing S S' with
  | nil => trivial
  | cons a l ih => exact ⟨fun c hc => hS (h.1 c hc), h.2.1, ih (Set.insert_subset_insert hS) h.2.2⟩

theorem Staged.append {F : Cell d → ℝ} {S : Set (Cell d)} {l l' : List (Assign d)}
    (h : Staged F S l) (h' : Staged F (S ∪ targets l) l') : Staged F S (l ++ l') := by
  induction l generalizing S with
  | nil => exact h'.mono (by simp [targets])
  | cons a l ih =>
    refine ⟨h.1, h.2.1, ih h.2.2 (h'.mono ?_)⟩
    intro c hc
    rcases hc with hc | ⟨b, hb, rfl⟩
    · exact Or.inl (Or.inr hc)
    · rcases List.mem_cons.1 hb with rfl | hb
      · exact Or.inl (Or.inl rfl)
      · exact Or.inr ⟨b, hb, rfl⟩

theorem Staged.parallel {F : Cell d → ℝ} {S : Set (Cell d)} {l : List (Assign d)}
    (h : ∀ a ∈ l, (∀ c ∈ a.rhs.cells, c ∈ S) ∧ a.rhs.eval F = F a.target) : Staged F S l := by
  induction l generalizing S with
  | nil => trivial
  | cons a l ih =>
    refine ⟨(h a (by simp)).1, (h a (by simp)).2, ih fun b hb => ?_⟩
    exact ⟨fun c hc => Or.inr ((h b (by simp [hb])).1 c hc), (h b (by simp [hb])).2⟩

/-- A staged program started in a store that agrees with `F` on `S` ends in a store that agrees with `F` on
`S` and on everything it assigned. -/
theorem Staged.run_eq {F : Cell d → ℝ} {S : Set (Cell d)} {l : List (Assign d)} (h : Staged F S l)
    (st : Cell d → ℝ) (hst : ∀ c ∈ S, st c = F c) : ∀ c ∈ S ∪ targets l, run l st c = F c := by
  induction l generalizing S st with
  | nil => intro c hc; rcases hc with hc | ⟨a, ha, _⟩
           · exact hst c hc
           · simp at ha
  | cons a l ih =>
    intro c hc
    rw [run_cons]
    apply ih h.2.2
    · intro c hc
      by_cases e : c = a.target
      · subst e; rw [Function.update_self, ← h.2.1]; exact eval_congr fun c hc => hst c (h.1 c hc)
      · rw [Function.update_of_ne e]
        rcases hc with hc | hc
        · exact absurd hc e
        · exact hst c hc
    · rcases hc with hc | ⟨b, hb, rfl⟩
      · exact Or.inl (Or.inr hc)
      · rcases List.mem_cons.1 hb with rfl | hb
        · exact Or.inl (Or.inl rfl)
        · exact Or.inr ⟨b, hb, rfl⟩

theorem targets_append (l l' : List (Assign d)) : targets (l ++ l') = targets l ∪ targets l' := by
  ext c; simp only [targets, List.mem_append, Set.mem_ofPred_eq, Set.mem_union]; grind

/-! ### Gas relations -/

theorem eval_momSq (st : Cell d → ℝ) : (momSq d).eval st = ∑ i, st (.data (.mom i) 0) ^ 2 := by
  simp only [momSq, eval_sum, List.map_map]
  rw [show ((fun e => eval st e) ∘ fun (i : Fin d) => dat (.mom i) 0 * dat (.mom i) 0) =
    fun (i : Fin d) => st (.data (.mom i) 0) ^ 2 from by funext i; simp [sq], sum_finRange]

theorem eval_pressure (γ : ℝ) (st : Cell d → ℝ) : (pressure d γ).eval st =
    Spec.pressureOf γ (st (.data .rho 0)) (fun i => st (.data (.mom i) 0)) (st (.data .rhoE 0)) := by
  simp only [pressure, eval_sub, eval_mul, eval_num, eval_div, eval_dat, eval_momSq, Spec.pressureOf]
  congr 2; rw [mul_comm 2, ← div_div]; ring

theorem eval_temperature (γ M : ℝ) (st : Cell d → ℝ) : (temperature d γ M).eval st =
    Spec.temperatureOf γ M (st (.data .rho 0)) (fun i => st (.data (.mom i) 0)) (st (.data .rhoE 0)) := by
  simp only [temperature, eval_sub, eval_mul, eval_num, eval_div, eval_dat, eval_momSq, Spec.pressureOf,
    Spec.temperatureOf]
  congr 1; rw [mul_comm 2, ← div_div]; ring

theorem mem_cells_momSq {c : Cell d} (h : c ∈ (momSq d).cells) : ∃ i, c = .data (.mom i) 0 := by
  simp only [momSq, mem_cells_sum, List.mem_map, List.mem_finRange, true_and] at h
  obtain ⟨e, ⟨i, rfl⟩, hc⟩ := h
  exact ⟨i, by simpa using hc⟩

/-- Cells of the conservative variables at one offset. -/
def consCells (d : ℕ) (k : ℤ) : Set (Cell d) :=
  {c | c = .data .rho k ∨ c = .data .rhoE k ∨ ∃ i, c = .data (.mom i) k}

theorem mem_cells_pressure {γ : ℝ} {c : Cell d} (h : c ∈ (pressure d γ).cells) : c ∈ consCells d 0 := by
  simp only [pressure, cells_mul, cells_sub, cells_num, cells_div, cells_dat, List.nil_append,
    List.mem_append, List.mem_singleton] at h
  rcases h with h | h | h
  · exact Or.inr (Or.inl h)
  · exact Or.inr (Or.inr (mem_cells_momSq h))
  · exact Or.inl h

theorem mem_cells_temperature {γ M : ℝ} {c : Cell d} (h : c ∈ (temperature d γ M).cells) :
    c ∈ consCells d 0 := by
  simp only [temperature, cells_mul, cells_sub, cells_num, cells_div, cells_dat, List.nil_append,
    List.append_nil, List.mem_append, List.mem_singleton] at h
  rcases h with (h | h | h) | h
  · exact Or.inr (Or.inl h)
  · exact Or.inr (Or.inr (mem_cells_momSq h))
  · exact Or.inl h
  · exact Or.inl h

theorem mem_cells_shift {e : Expr d} {k : ℤ} (he : ∀ c ∈ e.cells, c ∈ consCells d 0) {c : Cell d}
    (h : c ∈ (e.shift k).cells) : c ∈ consCells d k := by
  rw [shift, cells_mapCells, List.mem_map] at h
  obtain ⟨c', hc', rfl⟩ := h
  rcases he c' hc' with rfl | rfl | ⟨i, rfl⟩ <;> simp [consCells]

theorem eval_temperature_shift (γ M : ℝ) (k : ℤ) (st : Cell d → ℝ) :
    ((temperature d γ M).shift k).eval st =
    Spec.temperatureOf γ M (st (.data .rho k)) (fun i => st (.data (.mom i) k)) (st (.data .rhoE k)) := by
  rw [eval_shift, eval_temperature]; simp

theorem eval_pressure_shift (γ : ℝ) (k : ℤ) (st : Cell d → ℝ) :
    ((pressure d γ).shift k).eval st =
    Spec.pressureOf γ (st (.data .rho k)) (fun i => st (.data (.mom i) k)) (st (.data .rhoE k)) := by
  rw [eval_shift, eval_pressure]; simp

/-! ### Side factors -/

theorem fromF_ne (s : Side) : s.fromF ≠ 0 := by cases s <;> decide
theorem toF_ne (s : Side) : s.toF ≠ 0 := by cases s <;> decide
theorem fromF_eq (s : Side) : s.fromF = - s.toF := by cases s <;> decide
theorem fromF_mul_inj (s : Side) {a b : ℤ} (h : s.fromF * a = s.fromF * b) : a = b :=
  mul_left_cancel₀ (fromF_ne s) h
theorem from_ne_to (s : Side) {a b : ℕ} (ha : 1 ≤ a) : s.fromF * (a : ℤ) ≠ s.toF * (b : ℤ) := by
  cases s <;> simp [Side.fromF, Side.toF] <;> omega

end OpenSBLI.Bc
