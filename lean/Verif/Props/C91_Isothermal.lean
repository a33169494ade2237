import Verif.Props.C91_Conditions
import Verif.Lemmas.ReconNames

/-!
# C91: the text of the isothermal wall
-/
namespace OpenSBLI.Bc
open OpenSBLI.CCode OpenSBLI.Sim OpenSBLI.Reg Expr

variable {D n : ℕ} {T : Text D} {prg : List (Alg.Node (Call D))} {vs : Fin n → Var D} {sol : Fin n → String}

/-- What holds for every kind of equation holds for all equations of the wall. -/
theorem isothermal_forall {P : Assign D → Prop} {γ M Tw : ℝ} {user : List (Assign D)} {s : Side} {nh : ℕ} (h1 : P ⟨.loc .x0, dat (.aux 0) 0⟩) (h2 : ∀ i, P ⟨.data (.mom i) 0, .num 0⟩) (h3 : ∀ a ∈ user, P a)
    (h4 : P ⟨.loc .pwall, (pressure D γ).shift 0⟩) (h5 : ∀ (i : Fin D) (t : ℕ), 1 ≤ t → t ≤ nh → P ⟨.loc (.u i.1 t), dat (.mom i) (s.toF * (t : ℤ)) / dat .rho (s.toF * (t : ℤ))⟩)
    (h6 : P ⟨.loc .tAbove, (temperature D γ M).shift s.toF⟩) (h7 : ∀ i : ℕ, 1 ≤ i → i ≤ nh → P ⟨.loc (.t i), .num ((i : ℝ) + 1) * .num Tw - .num (i : ℝ) * lv .tAbove⟩)
    (h8 : ∀ i : ℕ, 1 ≤ i → i ≤ nh → P ⟨.loc (.rhoHalo i), lv .pwall * .num γ * .num M * .num M / lv (.t i)⟩) (h9 : ∀ i : ℕ, 1 ≤ i → i ≤ nh → P ⟨.data .rho (s.fromF * (i : ℤ)), lv (.rhoHalo i)⟩)
    (h10 : ∀ (i : ℕ) (j : Fin D), 1 ≤ i → i ≤ nh → P ⟨.data (.mom j) (s.fromF * (i : ℤ)), -(lv (.rhoHalo i)) * lv (.u j.1 i)⟩)
    (h11 : ∀ i : ℕ, 1 ≤ i → i ≤ nh → P ⟨.data .rhoE (s.fromF * (i : ℤ)), lv .pwall / (.num γ - .num 1) + .num (1 / 2) * lv (.rhoHalo i) *
      Expr.sum ((List.finRange D).map fun (j : Fin D) => lv (.u j.1 i) * lv (.u j.1 i))⟩) : ∀ a ∈ isothermalWall D γ M Tw user s nh, P a := by
  intro a ha
  simp only [isothermalWall, isothermalWallPart, isothermalHaloPart, isothermalVelocities, isoIteration, isoDensity, isoMomentum, isoEnergy, List.mem_append, List.mem_map,
    List.mem_flatMap, List.mem_range'_1, List.mem_finRange, true_and, List.mem_cons, List.not_mem_nil, or_false] at ha
  rcases ha with (((rfl | ⟨i, rfl⟩) | ha) | ((rfl | ⟨i, t, ht, rfl⟩) | rfl) | ⟨i, hi, ((rfl | ⟨j, hj, rfl | rfl⟩) | ⟨j, hj, l, rfl⟩) | ⟨j, hj, rfl⟩⟩)
  · exact h1
  · exact h2 i
  · exact h3 a ha
  · exact h4
  · exact h5 i t (by omega) (by omega)
  · exact h6
  · exact h7 i (by omega) (by omega)
  · exact h8 j (by omega) (by omega)
  · exact h9 j (by omega) (by omega)
  · exact h10 j l (by omega) (by omega)
  · exact h11 j (by omega) (by omega)

/-- Values and grid variables of the wall which do not depend on other arrays. -/
def wallGood (vs : Fin n → Var D) : Cell D → Prop
  | .data v _ => ∃ i, v = vs i
  | .loc l => l ≠ .x0

theorem momSq_cells {c : Cell D} (h : c ∈ (momSq D).cells) : ∃ i, c = .data (.mom i) 0 := by
  rw [momSq, mem_cells_sum] at h
  obtain ⟨e, he, h⟩ := h
  obtain ⟨i, -, rfl⟩ := List.mem_map.1 he
  exact ⟨i, by simpa using h⟩

theorem pressure_cells {γ : ℝ} {c : Cell D} (h : c ∈ (pressure D γ).cells) : c = .data .rho 0 ∨ c = .data .rhoE 0 ∨ ∃ i, c = .data (.mom i) 0 := by
  simp only [pressure, cells_mul, cells_sub, cells_div, cells_num, cells_dat, List.mem_append, List.not_mem_nil, List.mem_singleton, false_or] at h
  rcases h with h | h | h
  · exact .inr (.inl h)
  · exact .inr (.inr (momSq_cells h))
  · exact .inl h

theorem temperature_cells {γ M : ℝ} {c : Cell D} (h : c ∈ (temperature D γ M).cells) : c = .data .rho 0 ∨ c = .data .rhoE 0 ∨ ∃ i, c = .data (.mom i) 0 := by
  simp only [temperature, cells_mul, cells_sub, cells_div, cells_num, cells_dat, List.mem_append, List.not_mem_nil, List.mem_singleton, false_or, or_false] at h
  rcases h with (h | h | h) | h
  · exact .inr (.inl h)
  · exact .inr (.inr (momSq_cells h))
  · exact .inl h
  · exact .inl h

/-- C91: the isothermal wall concerns the conservative variables only, if the equations of the user do. -/
theorem C91_isothermal_confined {γ M Tw : ℝ} {user : List (Assign D)} {s : Side} {nh : ℕ} (hρ : ∃ i, Var.rho = vs i) (hE : ∃ i, Var.rhoE = vs i) (hm : ∀ j, ∃ i, Var.mom j = vs i)
    (hu : ∀ a ∈ user, (∀ v k, a.target = .data v k → ∃ i, v = vs i) ∧ (wallGood vs a.target → ∀ c ∈ a.rhs.cells, wallGood vs c)) : Confined vs (isothermalWall D γ M Tw user s nh) := by
  refine ⟨isothermal_forall ?_ ?_ (fun a ha => (hu a ha).1) ?_ ?_ ?_ ?_ ?_ ?_ ?_ ?_,
    wallGood vs, fun i k => ⟨i, rfl⟩, fun v k h => h, isothermal_forall ?_ ?_ (fun a ha => (hu a ha).2) ?_ ?_ ?_ ?_ ?_ ?_ ?_ ?_⟩
  · rintro v k e; cases e
  · rintro i v k e; cases e; exact hm i
  · rintro v k e; cases e
  · rintro i t - - v k e; cases e
  · rintro v k e; cases e
  · rintro i - - v k e; cases e
  · rintro i - - v k e; cases e
  · rintro i - - v k e; cases e; exact hρ
  · rintro i j - - v k e; cases e; exact hm j
  · rintro i - - v k e; cases e; exact hE
  · exact fun h => absurd rfl h
  · intro i _ c hc; simp at hc
  · intro _ c hc
    simp only [Expr.shift, cells_mapCells, List.mem_map] at hc
    obtain ⟨c, hc, rfl⟩ := hc
    rcases pressure_cells hc with rfl | rfl | ⟨i, rfl⟩
    · exact hρ
    · exact hE
    · exact hm i
  · intro i t _ _ _ c hc
    simp only [cells_div, cells_dat, List.mem_append, List.mem_singleton] at hc
    rcases hc with rfl | rfl
    · exact hm i
    · exact hρ
  · intro _ c hc
    simp only [Expr.shift, cells_mapCells, List.mem_map] at hc
    obtain ⟨c, hc, rfl⟩ := hc
    rcases temperature_cells hc with rfl | rfl | ⟨i, rfl⟩
    · exact hρ
    · exact hE
    · exact hm i
  · intro i _ _ _ c hc
    simp at hc
    subst hc
    exact Loc.noConfusion
  · intro i _ _ _ c hc
    simp at hc
    rcases hc with rfl | rfl <;> exact Loc.noConfusion
  · intro i _ _ _ c hc
    simp at hc
    subst hc
    exact Loc.noConfusion
  · intro i j _ _ _ c hc
    simp at hc
    rcases hc with rfl | rfl <;> exact Loc.noConfusion
  · intro i _ _ _ c hc
    simp at hc
    rcases hc with rfl | rfl | ⟨j, rfl⟩ <;> exact Loc.noConfusion

/-- The grid variables of the wall. -/
inductive WallLoc (D nh : ℕ) : Loc → Prop
  | x0 : WallLoc D nh .x0
  | pwall : WallLoc D nh .pwall
  | tAbove : WallLoc D nh .tAbove
  | u {i t : ℕ} : i < D → WallLoc D nh (.u i t)
  | t {i : ℕ} : WallLoc D nh (.t i)
  | rhoHalo {i : ℕ} : WallLoc D nh (.rhoHalo i)

theorem locals_forall {prog : List (Assign D)} {Q : Loc → Prop} (h : ∀ a ∈ prog, (∀ l, a.target = .loc l → Q l) ∧ ∀ l, .loc l ∈ a.rhs.cells → Q l) : ∀ l ∈ locals prog, Q l := by
  intro l hl
  obtain ⟨a, ha, hl⟩ := List.mem_flatMap.1 hl
  obtain ⟨c, hc, e⟩ := List.mem_filterMap.1 hl
  cases c with
  | data v k => cases e
  | loc l' =>
    cases e
    rcases List.mem_cons.1 hc with h' | h'
    · exact (h a ha).1 l h'.symm
    · exact (h a ha).2 l h'

theorem isothermal_locals {γ M Tw : ℝ} {user : List (Assign D)} {s : Side} {nh : ℕ} (hu : ∀ l ∈ locals user, WallLoc D nh l) : ∀ l ∈ locals (isothermalWall D γ M Tw user s nh), WallLoc D nh l := by
  have hu' : ∀ a ∈ user, (∀ l, a.target = .loc l → WallLoc D nh l) ∧ ∀ l, .loc l ∈ a.rhs.cells → WallLoc D nh l := fun a ha =>
    ⟨fun l e => hu l (List.mem_flatMap.2 ⟨a, ha, List.mem_filterMap.2 ⟨.loc l, by simp [e], rfl⟩⟩), fun l e => hu l (List.mem_flatMap.2 ⟨a, ha, List.mem_filterMap.2 ⟨.loc l, by simp [e], rfl⟩⟩)⟩
  refine locals_forall (isothermal_forall ?_ ?_ hu' ?_ ?_ ?_ ?_ ?_ ?_ ?_ ?_)
  · exact ⟨fun l e => by cases e; exact .x0, fun l e => by simp at e⟩
  · exact fun i => ⟨fun l e => by (cases e), fun l e => by simp at e⟩
  · refine ⟨fun l e => by cases e; exact .pwall, fun l e => ?_⟩
    simp only [Expr.shift, cells_mapCells, List.mem_map] at e
    obtain ⟨c, hc, e⟩ := e
    rcases pressure_cells hc with rfl | rfl | ⟨i, rfl⟩ <;> cases e
  · exact fun i t _ _ => ⟨fun l e => by cases e; exact .u i.2, fun l e => by simp at e⟩
  · refine ⟨fun l e => by cases e; exact .tAbove, fun l e => ?_⟩
    simp only [Expr.shift, cells_mapCells, List.mem_map] at e
    obtain ⟨c, hc, e⟩ := e
    rcases temperature_cells hc with rfl | rfl | ⟨i, rfl⟩ <;> cases e
  · exact fun i _ _ => ⟨fun l e => by cases e; exact .t, fun l e => by simp at e; subst e; exact .tAbove⟩
  · exact fun i _ _ => ⟨fun l e => by cases e; exact .rhoHalo, fun l e => by
      simp at e
      rcases e with rfl | rfl
      · exact .pwall
      · exact .t⟩
  · exact fun i _ _ => ⟨fun l e => by (cases e), fun l e => by simp at e; subst e; exact .rhoHalo⟩
  · exact fun i j _ _ => ⟨fun l e => by (cases e), fun l e => by
      simp at e
      rcases e with rfl | rfl
      · exact .rhoHalo
      · exact .u j.2⟩
  · exact fun i _ _ => ⟨fun l e => by (cases e), fun l e => by
      simp at e
      rcases e with rfl | rfl | ⟨j, rfl⟩
      · exact .pwall
      · exact .rhoHalo
      · exact .u j.2⟩

/-- C91: the grid variables of the wall have different names, in up to ten dimensions. -/
theorem C91_wall_names {nh : ℕ} (hD : D ≤ 10) {l l' : Loc} (h : WallLoc D nh l) (h' : WallLoc D nh l') (e : l.name = l'.name) : l = l' := by
  have el := congrArg String.toList e
  have e0 := congrArg List.head? el
  have e1 := congrArg (fun l : List Char => l.tail.head?) el
  cases h with
  | x0 => cases h' <;> first | rfl | exact absurd e0 (by simp [Loc.name])
  | pwall => cases h' <;> first | rfl | exact absurd e0 (by simp [Loc.name])
  | tAbove =>
    cases h' with
    | t =>
      rename_i i
      obtain ⟨c, hc, hd⟩ := Recon.digit_head i
      simp only [Loc.name, String.toList_append] at e1
      have : ("T".toList ++ (toString i).toList).tail.head? = some c := by simpa using hc
      rw [this] at e1
      have : c = '_' := by simpa using e1.symm
      rw [this] at hd
      cases hd
    | _ => first | rfl | exact absurd e0 (by simp [Loc.name])
  | u hi =>
    cases h' with
    | u hi' =>
      simp only [Loc.name, String.toList_append, List.append_assoc, List.append_cancel_left_eq] at el
      obtain ⟨rfl, rfl⟩ := Recon.two_inj (by omega) (by omega) el
      rfl
    | _ => first | rfl | exact absurd e0 (by simp [Loc.name])
  | t =>
    rename_i i
    cases h' with
    | t =>
      simp only [Loc.name, String.toList_append, List.append_cancel_left_eq] at el
      rw [Mon.toString_injective (String.toList_injective el)]
    | tAbove =>
      obtain ⟨c, hc, hd⟩ := Recon.digit_head i
      simp only [Loc.name, String.toList_append] at e1
      have : ("T".toList ++ (toString i).toList).tail.head? = some c := by simpa using hc
      rw [this] at e1
      have : c = '_' := by simpa using e1
      rw [this] at hd
      cases hd
    | _ => first | rfl | exact absurd e0 (by simp [Loc.name])
  | rhoHalo =>
    cases h' with
    | rhoHalo =>
      simp only [Loc.name, String.toList_append, List.append_cancel_left_eq] at el
      rw [Mon.toString_injective (String.toList_injective el)]
    | _ => first | rfl | exact absurd e0 (by simp [Loc.name])

theorem wall_not_generated {nh : ℕ} {l : Loc} (h : WallLoc D nh l) : ¬ Generated l.name := by
  cases h with
  | rhoHalo =>
    rintro ⟨p, i, e⟩
    have := congrArg (fun s => s.toList.tail.head?) e
    cases p <;> simp [Loc.name, Prefix.str] at this
  | _ => exact not_generated_head (by simp [Loc.name])

/-! ### Its numbers -/

theorem numbers_mul {P : ℝ → Prop} {a b : Expr D} : (a * b).Numbers P ↔ a.Numbers P ∧ b.Numbers P := Iff.rfl
theorem numbers_add {P : ℝ → Prop} {a b : Expr D} : (a + b).Numbers P ↔ a.Numbers P ∧ b.Numbers P := Iff.rfl
theorem numbers_sub {P : ℝ → Prop} {a b : Expr D} : (a - b).Numbers P ↔ a.Numbers P ∧ b.Numbers P := Iff.rfl
theorem numbers_div {P : ℝ → Prop} {a b : Expr D} : (a / b).Numbers P ↔ a.Numbers P ∧ b.Numbers P := Iff.rfl
theorem numbers_neg {P : ℝ → Prop} {a : Expr D} : (-a).Numbers P ↔ a.Numbers P := Iff.rfl
theorem numbers_num {P : ℝ → Prop} {r : ℝ} : (Expr.num r : Expr D).Numbers P ↔ P r := Iff.rfl
theorem numbers_dat {P : ℝ → Prop} {v : Var D} {k : ℤ} : (dat v k).Numbers P ↔ True := Iff.rfl
theorem numbers_lv {P : ℝ → Prop} {l : Loc} : (lv l : Expr D).Numbers P ↔ True := Iff.rfl

theorem numbers_sum {P : ℝ → Prop} (h0 : P 0) {l : List (Expr D)} (h : ∀ e ∈ l, e.Numbers P) : (Expr.sum l).Numbers P := by
  have : ∀ (l : List (Expr D)) (a : Expr D), a.Numbers P → (∀ e ∈ l, e.Numbers P) → (l.foldl .add a).Numbers P := by
    intro l
    induction l with
    | nil => exact fun a ha _ => ha
    | cons b l ih => exact fun a ha h => ih _ ⟨ha, h b (by simp)⟩ fun e he => h e (List.mem_cons_of_mem _ he)
  exact this l _ h0 h

theorem numbers_shift {P : ℝ → Prop} {e : Expr D} {k : ℤ} (h : e.Numbers P) : (e.shift k).Numbers P := by
  unfold Expr.shift
  induction e with
  | num r => exact h
  | cell c => trivial
  | add a b ha hb | sub a b ha hb | mul a b ha hb | div a b ha hb => exact ⟨ha h.1, hb h.2⟩
  | neg a ha | sqrt a ha | abs a ha => exact ha h
  | rpow a b => exact h
  | ge a b x y ha hb hx hy => exact ⟨ha h.1, hb h.2.1, hx h.2.2.1, hy h.2.2.2⟩

theorem momSq_numbers {P : ℝ → Prop} (h0 : P 0) : (momSq D).Numbers P := numbers_sum h0 fun e he => by
  obtain ⟨i, -, rfl⟩ := List.mem_map.1 he
  exact ⟨trivial, trivial⟩

/-- The numbers of the wall: the constants, and small integers. -/
theorem isothermal_numbers {P : ℝ → Prop} {γ M Tw : ℝ} {user : List (Assign D)} {s : Side} {nh : ℕ} (hγ : P γ) (hM : P M) (hT : P Tw) (hh : P (1 / 2)) (hi : ∀ i : ℕ, i ≤ nh + 1 → P i)
    (hu : ∀ a ∈ user, a.rhs.Numbers P) : ∀ a ∈ isothermalWall D γ M Tw user s nh, a.rhs.Numbers P := by
  have p0 : P 0 := by simpa using hi 0 (by omega)
  have p1 : P 1 := by simpa using hi 1 (by omega)
  refine isothermal_forall trivial (fun _ => p0) hu (numbers_shift ?_) (fun i t _ _ => ⟨trivial, trivial⟩) (numbers_shift ?_) ?_ ?_ (fun i _ _ => trivial) (fun i j _ _ => ⟨trivial, trivial⟩) ?_
  · simp only [pressure, numbers_mul, numbers_sub, numbers_div, numbers_num, numbers_dat]
    exact ⟨⟨hγ, p1⟩, trivial, ⟨hh, momSq_numbers p0⟩, trivial⟩
  · simp only [temperature, numbers_mul, numbers_sub, numbers_div, numbers_num, numbers_dat]
    exact ⟨⟨⟨trivial, ⟨hh, momSq_numbers p0⟩, trivial⟩, ⟨hγ, hγ, p1⟩, hM, hM⟩, trivial⟩
  · intro i h1 h2
    exact ⟨⟨by simpa [Expr.Numbers] using hi (i + 1) (by omega), hT⟩, hi i (by omega), trivial⟩
  · intro i h1 h2
    exact ⟨⟨⟨⟨trivial, hγ⟩, hM⟩, hM⟩, trivial⟩
  · intro i h1 h2
    refine ⟨⟨trivial, hγ, p1⟩, ⟨hh, trivial⟩, numbers_sum p0 fun e he => ?_⟩
    obtain ⟨j, -, rfl⟩ := List.mem_map.1 he
    exact ⟨trivial, trivial⟩

theorem noIntegers_sum {N : Spelling D} {l : List (Expr D)} (h : ∀ e ∈ l, e.NoIntegers N) : (Expr.sum l).NoIntegers N := by
  have : ∀ (l : List (Expr D)) (a : Expr D), a.NoIntegers N → (∀ e ∈ l, e.NoIntegers N) → (l.foldl .add a).NoIntegers N := by
    intro l
    induction l with
    | nil => exact fun a ha _ => ha
    | cons b l ih => exact fun a ha h => ih _ ⟨ha, h b (by simp)⟩ fun e he => h e (List.mem_cons_of_mem _ he)
  exact this l _ trivial h

theorem momSq_noIntegers {N : Spelling D} (k : ℤ) : ((momSq D).shift k).NoIntegers N := by
  have : ∀ (l : List (Expr D)) (a : Expr D), (a.shift k).NoIntegers N → (∀ e ∈ l, (e.shift k).NoIntegers N) → ((l.foldl .add a).shift k).NoIntegers N := by
    intro l
    induction l with
    | nil => exact fun a ha _ => ha
    | cons b l ih => exact fun a ha h => ih _ ⟨ha, h b (by simp)⟩ fun e he => h e (List.mem_cons_of_mem _ he)
  refine this _ _ trivial fun e he => ?_
  obtain ⟨i, -, rfl⟩ := List.mem_map.1 he
  exact ⟨trivial, trivial⟩

theorem isothermal_noIntegers {N : Spelling D} {γ M Tw : ℝ} {user : List (Assign D)} {s : Side} {nh : ℕ} (hu : ∀ a ∈ user, a.rhs.NoIntegers N) :
    ∀ a ∈ isothermalWall D γ M Tw user s nh, a.rhs.NoIntegers N := by
  refine isothermal_forall trivial (fun _ => trivial) hu ?_ (fun i t _ _ => ⟨trivial, trivial, fun h => by cases h.1⟩) ?_ (fun i _ _ => ⟨⟨trivial, trivial⟩, trivial, trivial⟩)
    (fun i _ _ => ⟨⟨⟨⟨trivial, trivial⟩, trivial⟩, trivial⟩, trivial, fun h => by cases h.2⟩) (fun i _ _ => trivial) (fun i j _ _ => ⟨trivial, trivial⟩) fun i _ _ => ?_
  · exact ⟨⟨trivial, trivial⟩, trivial, ⟨trivial, momSq_noIntegers 0⟩, trivial, fun h => by cases h.2⟩
  · exact ⟨⟨⟨trivial, ⟨trivial, momSq_noIntegers _⟩, trivial, fun h => by cases h.2⟩, ⟨trivial, trivial, trivial⟩, trivial, trivial⟩, trivial, fun h => by cases h.2⟩
  · refine ⟨⟨trivial, ⟨trivial, trivial⟩, fun h => by cases h.1⟩, ⟨trivial, trivial⟩, noIntegers_sum fun e he => ?_⟩
    obtain ⟨j, -, rfl⟩ := List.mem_map.1 he
    exact ⟨trivial, trivial⟩

/-- C91: the text of the isothermal wall, with the names the code gives to the grid variables, is faithful in up to ten dimensions. Partial: the equations of the user without general powers. -/
theorem C91_isothermal_proper_partial {N : Spelling D} (hv : N.var = Loc.name) {γ Ma Tw : ℝ} {user : List (Assign D)} (s : Side) (nh : ℕ) (gγ : N.Spelled T γ) (gM : N.Spelled T Ma)
    (gT : N.Spelled T Tw) (gh : N.Spelled T (1 / 2)) (gi : ∀ i : ℕ, i ≤ nh + 1 → N.Spelled T i) (hu : ∀ a ∈ user, a.rhs.Numbers (N.Spelled T) ∧ a.rhs.NoIntegers N)
    (hul : ∀ l ∈ locals user, WallLoc D nh l) (hc : ∀ l, WallLoc D nh l → l.name ∉ T.start.names) : T.Proper (text N (isothermalWall D γ Ma Tw user s nh)) :=
  C91_proper N _ (isothermal_numbers gγ gM gT gh gi fun a ha => (hu a ha).1) (isothermal_noIntegers fun a ha => (hu a ha).2) fun l h => by
    rw [hv]
    exact ⟨wall_not_generated (isothermal_locals hul l h), hc l (isothermal_locals hul l h)⟩

/-- C91: with constants which have the values of the Mach number, the ratio of specific heats and the wall temperature it says what the condition says. Partial: the equations of the user without general powers. -/
theorem C91_isothermal_partial (hL : T.lib.Conforms) (hM : Recon.Maths T.lib) {N : Spelling D} (hv : N.var = Loc.name) (hN : Function.Injective N.array) (harr : ∀ i, N.array (vs i) = T.names (.data (sol i))) (hD : D ≤ 10)
    (hρ : ∃ i, Var.rho = vs i) (hE : ∃ i, Var.rhoE = vs i) (hm : ∀ j, ∃ i, Var.mom j = vs i) {γ Ma Tw : ℝ} {user : List (Assign D)} (s : Side) (nh : ℕ) (gγ : N.Good T prg γ) (gM : N.Good T prg Ma)
    (gT : N.Good T prg Tw) (gh : N.Good T prg (1 / 2)) (gi : ∀ i : ℕ, i ≤ nh + 1 → N.Good T prg i)
    (hu : ∀ a ∈ user, a.rhs.Numbers (N.Good T prg) ∧ (∀ v k, a.target = .data v k → ∃ i, v = vs i) ∧ (wallGood vs a.target → ∀ c ∈ a.rhs.cells, wallGood vs c))
    (hul : ∀ l ∈ locals user, WallLoc D nh l) (r : Ranges.Kernel D) {p : ℤ} (hr : r.totalRange N.dir = (p, p + 1)) :
    let prog := isothermalWall D γ Ma Tw user s nh
    Renders T prg sol vs (.kernel r (text N prog)) (.lines r N.dir p prog) := by
  intro prog
  have hl := isothermal_locals (γ := γ) (M := Ma) (Tw := Tw) (s := s) hul
  refine ⟨rfl, hr, C91_isothermal_confined hρ hE hm fun a ha => (hu a ha).2, N, rfl, ⟨hN, fun l h l' h' e => ?_⟩, harr, fun stage x =>
    C91_text_partial hL hM N prog (isothermal_numbers gγ gM gT gh gi fun a ha => (hu a ha).1) stage x⟩
  rw [hv] at e
  exact C91_wall_names hD (hl l h) (hl l' h') e

end OpenSBLI.Bc
