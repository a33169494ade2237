import Verif.Lemmas.BoundaryMirror
import Mathlib.Tactic.NormNum
import Mathlib.Tactic.FinCases

/-!
# C25 symmetry and inviscid walls, C26 extrapolation, and the relocation of expressions
-/
namespace OpenSBLI.Bc
open Expr

variable {d : ℕ}

/-! ### C25: symmetry boundary -/

/-- C25: after the symmetry kernel, every halo point `t` levels outside holds the copy of each scalar and the mirror
image of each vector at the point `t` levels inside, mirrored in the plane whose normal is the metric row there. -/
theorem C25_symmetry (row : Fin d → Expr d) (arrays : List (Arr d)) (hnd : (flatten arrays).Nodup)
    (s : Side) (n : ℕ) (st : Cell d → ℝ) (t : ℕ) (h1 : 1 ≤ t) (hn : t ≤ n) :
    (∀ v, Arr.scalar v ∈ arrays →
      run (symmetry row arrays s n) st (.data v (s.fromF * (t : ℤ))) = st (.data v (s.toF * (t : ℤ)))) ∧
    (∀ m, Arr.vector m ∈ arrays →
      Spec.inner (normalAt row st (s.toF * (t : ℤ))) (normalAt row st (s.toF * (t : ℤ))) ≠ 0 →
      Spec.IsMirror (normalAt row st (s.toF * (t : ℤ)))
        (fun i => st (.data (m i) (s.toF * (t : ℤ))))
        (fun i => run (symmetry row arrays s n) st (.data (m i) (s.fromF * (t : ℤ))))) := by
  have hp : (s.fromF * (t : ℤ), s.toF * (t : ℤ)) ∈ mirrorIndices s n := mem_mirror.2 ⟨t, h1, hn, rfl⟩
  constructor
  · intro v hv
    rw [symmetry, cbe_value hnd (mirror_functional s n) (mirror_disjoint s n) (scalar_mem_zip row 2 hv) hp,
      eval_dat_setLoc]
  · intro m hm hN
    have e : (fun i => run (symmetry row arrays s n) st (.data (m i) (s.fromF * (t : ℤ)))) =
        fun i => st (.data (m i) (s.toF * (t : ℤ))) -
          2 * (Spec.inner (normalAt row st (s.toF * (t : ℤ))) (fun j => st (.data (m j) (s.toF * (t : ℤ)))) /
          Spec.inner (normalAt row st (s.toF * (t : ℤ))) (normalAt row st (s.toF * (t : ℤ))))
          * normalAt row st (s.toF * (t : ℤ)) i := by
      funext i
      rw [symmetry, cbe_value hnd (mirror_functional s n) (mirror_disjoint s n) (vector_mem_zip row 2 hm i) hp,
        eval_reflected]
    rw [e]
    exact isMirror_reflect hN

/-- C25: the symmetry kernel writes nothing but the halo points of the given arrays on its side; interior points, the
boundary point and all other arrays keep their values. -/
theorem C25_symmetry_frame (row : Fin d → Expr d) (arrays : List (Arr d)) (s : Side) (n : ℕ)
    (st : Cell d → ℝ) (c : Cell d)
    (hc : ∀ v ∈ flatten arrays, ∀ t : ℕ, 1 ≤ t → t ≤ n → c ≠ .data v (s.fromF * (t : ℤ))) :
    run (symmetry row arrays s n) st c = st c := by
  apply cbe_unwritten
  intro v hv p hp
  obtain ⟨t, h1, h2, rfl⟩ := mem_mirror.1 hp
  exact hc v hv t h1 h2

/-- C25: the mirror image is unique, so `IsMirror` determines the halo momentum. -/
theorem C25_mirror_unique (N m a b : Fin d → ℝ) (hN : Spec.inner N N ≠ 0)
    (ha : Spec.IsMirror N m a) (hb : Spec.IsMirror N m b) : a = b := by
  have key : ∀ w, Spec.inner w a = Spec.inner w b := by
    intro w
    have hw : Spec.inner (fun i => w i - Spec.inner w N / Spec.inner N N * N i) N = 0 := by
      have : Spec.inner (fun i => w i - Spec.inner w N / Spec.inner N N * N i) N =
          Spec.inner w N - Spec.inner w N / Spec.inner N N * Spec.inner N N := by
        simp only [Spec.inner, Finset.mul_sum, ← Finset.sum_sub_distrib]
        exact Finset.sum_congr rfl fun i _ => by ring
      rw [this]; field_simp; ring
    have h := (ha.2 _ hw).trans (hb.2 _ hw).symm
    have ex : ∀ x : Fin d → ℝ, Spec.inner (fun i => w i - Spec.inner w N / Spec.inner N N * N i) x =
        Spec.inner w x - Spec.inner w N / Spec.inner N N * Spec.inner N x := by
      intro x
      generalize Spec.inner w N / Spec.inner N N = q
      simp only [Spec.inner, Finset.mul_sum, ← Finset.sum_sub_distrib]
      exact Finset.sum_congr rfl fun i _ => by ring
    rw [ex, ex, ha.1, hb.1] at h
    linarith
  funext i
  have := key (Pi.single i 1)
  simpa [Spec.inner, Pi.single_apply] using this

/-- C25: mirroring is an involution. -/
theorem C25_mirror_involution (N m a : Fin d → ℝ) (ha : Spec.IsMirror N m a) : Spec.IsMirror N a m :=
  ⟨by rw [ha.1, neg_neg], fun w hw => (ha.2 w hw).symm⟩

/-- C25: the mirror image has the same length, so with the density copied the halo point has the kinetic energy of its
image. -/
theorem C25_mirror_energy (N m a : Fin d → ℝ) (hN : Spec.inner N N ≠ 0) (ha : Spec.IsMirror N m a) :
    ∑ i, a i ^ 2 = ∑ i, m i ^ 2 := by
  have hr := isMirror_reflect (m := m) hN
  rw [C25_mirror_unique N m a _ hN ha hr]
  have : ∀ k : ℝ, ∑ i, (m i - k * N i) ^ 2 =
      ∑ i, m i ^ 2 - 2 * k * Spec.inner N m + k ^ 2 * Spec.inner N N := by
    intro k
    simp only [Spec.inner, Finset.mul_sum, ← Finset.sum_sub_distrib, ← Finset.sum_add_distrib]
    exact Finset.sum_congr rfl fun i _ => by ring
  rw [this]; field_simp; ring

/-- C25, for the conservative variables the solver passes: pressure and density of a halo point are those of its
image. -/
theorem C25_symmetry_gas_state (row : Fin d → Expr d) (s : Side) (n : ℕ) (st : Cell d → ℝ) (γ : ℝ) (t : ℕ)
    (h1 : 1 ≤ t) (hn : t ≤ n)
    (hN : Spec.inner (normalAt row st (s.toF * (t : ℤ))) (normalAt row st (s.toF * (t : ℤ))) ≠ 0) :
    let st' := run (symmetry row (consArrays d) s n) st
    Spec.pressureOf γ (st' (.data .rho (s.fromF * (t : ℤ)))) (fun i => st' (.data (.mom i) (s.fromF * (t : ℤ))))
        (st' (.data .rhoE (s.fromF * (t : ℤ)))) =
      Spec.pressureOf γ (st (.data .rho (s.toF * (t : ℤ)))) (fun i => st (.data (.mom i) (s.toF * (t : ℤ))))
        (st (.data .rhoE (s.toF * (t : ℤ)))) := by
  obtain ⟨hs, hv⟩ := C25_symmetry row (consArrays d) (consArrays_nodup d) s n st t h1 hn
  have hm := C25_mirror_energy _ _ _ hN (hv .mom (by simp [consArrays]) hN)
  intro st'
  simp only [Spec.pressureOf]
  rw [show st' (.data .rho (s.fromF * (t : ℤ))) = _ from hs .rho (by simp [consArrays]),
    show st' (.data .rhoE (s.fromF * (t : ℤ))) = _ from hs .rhoE (by simp [consArrays]), hm]

/-- C25 (inviscid wall): the halos are those of the symmetry condition; the boundary point receives the scalars of the
first interior point and the tangential part of its vectors with respect to the metric row *at that interior point*. -/
theorem C25_inviscid_wall (row : Fin d → Expr d) (arrays : List (Arr d)) (hnd : (flatten arrays).Nodup)
    (s : Side) (n : ℕ) (st : Cell d → ℝ) :
    (∀ v, Arr.scalar v ∈ arrays →
      run (inviscidWall row arrays s n) st (.data v 0) = st (.data v s.toF)) ∧
    (∀ m, Arr.vector m ∈ arrays → Spec.inner (normalAt row st s.toF) (normalAt row st s.toF) ≠ 0 →
      Spec.IsTangentialPart (normalAt row st s.toF) (fun i => st (.data (m i) s.toF))
        (fun i => run (inviscidWall row arrays s n) st (.data (m i) 0))) ∧
    (∀ v (t : ℕ), 1 ≤ t → run (inviscidWall row arrays s n) st (.data v (s.fromF * (t : ℤ))) =
      run (symmetry row arrays s n) st (.data v (s.fromF * (t : ℤ)))) := by
  have frame : ∀ v, run (symmetry row arrays s n) st (.data v s.toF) = st (.data v s.toF) := by
    intro v
    apply C25_symmetry_frame
    intro w _ t h1 _ h
    injection h with _ h
    exact from_ne_to s (a := t) (b := 1) h1 (by simpa using h.symm)
  have frameL : ∀ l, run (symmetry row arrays s n) st (.loc l) = st (.loc l) := by
    intro l; apply C25_symmetry_frame; intro w _ t _ _ h; cases h
  have hat : atLoc (run (symmetry row arrays s n) st) s.toF = atLoc st s.toF := by
    funext c; cases c with
    | data v o => exact frame v
    | loc l => exact frameL l
  have hfun : ∀ p ∈ [((0 : ℤ), s.toF)], ∀ q ∈ [((0 : ℤ), s.toF)], p.1 = q.1 → p.2 = q.2 := by simp
  have hdis : ∀ p ∈ [((0 : ℤ), s.toF)], ∀ q ∈ [((0 : ℤ), s.toF)], q.1 ≠ p.2 := by
    simp [(toF_ne s).symm]
  refine ⟨?_, ?_, ?_⟩
  · intro v hv
    rw [inviscidWall, run_append,
      cbe_value hnd hfun hdis (scalar_mem_zip row 1 hv) (p := (0, s.toF)) (by simp), eval_dat_setLoc, frame]
  · intro m hm hN
    have e : (fun i => run (inviscidWall row arrays s n) st (.data (m i) 0)) =
        fun i => st (.data (m i) s.toF) -
          1 * (Spec.inner (normalAt row st s.toF) (fun j => st (.data (m j) s.toF)) /
          Spec.inner (normalAt row st s.toF) (normalAt row st s.toF)) * normalAt row st s.toF i := by
      funext i
      rw [inviscidWall, run_append,
        cbe_value hnd hfun hdis (vector_mem_zip row 1 hm i) (p := (0, s.toF)) (by simp),
        eval_setLoc, hat, ← eval_setLoc, eval_reflected]
    rw [e]
    exact isTangential_reflect hN
  · intro v t ht
    rw [inviscidWall, run_append, cbe_unwritten]
    intro w _ p hp h
    simp only [List.mem_singleton] at hp
    subst hp
    injection h with _ h
    have := fromF_ne s
    have : (t : ℤ) ≠ 0 := by omega
    simp_all

/-- C25 (inviscid wall), full claim "zero normal momentum at the wall": holds when the metric row at the wall equals the one
at the first interior point (Cartesian and uniform grids). Missing: grids whose metric varies along the normal direction, where
the claim fails (`C25_wall_not_tangential`). -/
theorem C25_wall_tangential_partial (row : Fin d → Expr d) (arrays : List (Arr d))
    (hnd : (flatten arrays).Nodup) (s : Side) (n : ℕ) (st : Cell d → ℝ)
    (hrow : normalAt row st 0 = normalAt row st s.toF)
    (hN : Spec.inner (normalAt row st 0) (normalAt row st 0) ≠ 0) (m : Fin d → Var d)
    (hm : Arr.vector m ∈ arrays) :
    Spec.inner (normalAt row st 0) (fun i => run (inviscidWall row arrays s n) st (.data (m i) 0)) = 0 := by
  rw [hrow] at hN ⊢
  exact ((C25_inviscid_wall row arrays hnd s n st).2.1 m hm hN).1

/-- The wall kernel uses the metric of the interior point for the value at the wall: on a grid whose metric row is `(0,1)` at
the wall and `(1,1)` one point inside, momentum `(1,0)` inside gives wall momentum `(1/2,-1/2)`, which points through the
wall. -/
theorem C25_wall_not_tangential : ∃ (row : Fin 2 → Expr 2) (st : Cell 2 → ℝ),
    Spec.inner (normalAt row st 0) (normalAt row st 0) ≠ 0 ∧
    Spec.inner (normalAt row st 1) (normalAt row st 1) ≠ 0 ∧
    Spec.inner (normalAt row st 0)
      (fun i => run (inviscidWall row (consArrays 2) .left 2) st (.data (.mom i) 0)) ≠ 0 := by
  let row : Fin 2 → Expr 2 := fun i => dat (.aux i.1) 0
  let st : Cell 2 → ℝ := fun c => match c with
    | .data (.aux 0) k => if k = 0 then 0 else 1
    | .data (.aux _) _ => 1
    | .data (.mom 0) _ => 1
    | _ => 0
  have hn0 : normalAt row st 0 = ![0, 1] := by
    funext i; fin_cases i <;> simp [normalAt, row, st, eval_setLoc]
  have hn1 : normalAt row st 1 = ![1, 1] := by
    funext i; fin_cases i <;> simp [normalAt, row, st, eval_setLoc]
  refine ⟨row, st, ?_, ?_, ?_⟩
  · rw [hn0]; simp [Spec.inner, Fin.sum_univ_two]
  · rw [hn1]; simp [Spec.inner, Fin.sum_univ_two]
  · intro h0
    have hnd : (flatten (consArrays 2)).Nodup := by decide
    have h := ((C25_inviscid_wall row (consArrays 2) hnd .left 2 st).2.1 .mom (by simp [consArrays])
      (by show Spec.inner (normalAt row st 1) (normalAt row st 1) ≠ 0
          rw [hn1]; simp [Spec.inner, Fin.sum_univ_two]))
    have ha := h.1
    have hb := h.2 ![1, -1] (by
      show Spec.inner _ (normalAt row st 1) = 0
      rw [hn1]; simp [Spec.inner, Fin.sum_univ_two])
    rw [show normalAt row st Side.left.toF = ![1, 1] from hn1] at ha
    rw [hn0] at h0
    simp [Spec.inner, Fin.sum_univ_two, st] at ha hb h0
    linarith

/-- A case meeting the hypotheses of `C25_symmetry`: a two-dimensional grid with metric row `(3,4)`, two halo levels. The
momentum `(1,0)` inside becomes `(7/25,-24/25)` in the halo. -/
example : ∃ st : Cell 2 → ℝ, ∃ row : Fin 2 → Expr 2,
    Spec.inner (normalAt row st 2) (normalAt row st 2) ≠ 0 ∧
    run (symmetry row (consArrays 2) .left 2) st (.data (.mom 1) (-2)) = -24 / 25 := by
  let row : Fin 2 → Expr 2 := fun i => .num (3 + i.1)
  let st : Cell 2 → ℝ := fun c => match c with
    | .data (.mom 0) _ => 1
    | _ => 0
  have hn : normalAt row st 2 = ![3, 4] := by
    funext i; fin_cases i <;> simp [normalAt, row, eval_setLoc] <;> norm_num
  have hN : Spec.inner (normalAt row st 2) (normalAt row st 2) ≠ 0 := by
    rw [hn]; simp [Spec.inner, Fin.sum_univ_two]; norm_num
  refine ⟨st, row, hN, ?_⟩
  have h := (C25_symmetry row (consArrays 2) (by decide) .left 2 st 2 (by norm_num) (by norm_num)).2 .mom
    (by simp [consArrays]) hN
  have ha := h.1
  have hb := h.2 ![4, -3] (by
      show Spec.inner _ (normalAt row st 2) = 0
      rw [hn]; simp [Spec.inner, Fin.sum_univ_two]; norm_num)
  rw [show normalAt row st (Side.left.toF * ((2 : ℕ) : ℤ)) = ![3, 4] from hn] at ha
  simp [Spec.inner, Fin.sum_univ_two, st, Side.fromF] at ha hb
  linarith

/-! ### C26: extrapolation -/

/-- C26, zeroth order: the boundary point and every halo point receive the value of the first interior point. -/
theorem C26_zeroth_order (arrays : List (Arr d)) (hnd : (flatten arrays).Nodup) (s : Side) (n : ℕ)
    (st : Cell d → ℝ) : ∃ prog, extrapolation arrays 0 s n = some prog ∧
      (∀ v ∈ flatten arrays, ∀ i : ℕ, i ≤ n → run prog st (.data v (s.fromF * (i : ℤ))) = st (.data v s.toF)) ∧
      (∀ c, (∀ v ∈ flatten arrays, ∀ i : ℕ, i ≤ n → c ≠ .data v (s.fromF * (i : ℤ))) → run prog st c = st c) := by
  refine ⟨_, rfl, ?_, ?_⟩
  · intro v hv i hi
    set prog := ((List.range (n + 1)).map fun (i : ℕ) => s.fromF * (i : ℤ)).flatMap fun i =>
      createBoundaryEquations (flatten arrays) ((flatten arrays).map fun v => dat v 0) [(i, s.toF)] with hprog
    have hmem : ∀ a ∈ prog, ∃ v ∈ flatten arrays, ∃ i : ℕ, i ≤ n ∧
        a = ⟨.data v (s.fromF * (i : ℤ)), (dat v 0).setLoc s.toF⟩ := by
      intro a ha
      simp only [hprog, List.mem_flatMap, List.mem_map, List.mem_range] at ha
      obtain ⟨_, ⟨i, hi, rfl⟩, ha⟩ := ha
      obtain ⟨p, hp, ⟨w, e⟩, hlr, rfl⟩ := mem_cbe.1 ha
      simp only [List.mem_singleton] at hp
      subst hp
      have hw := (List.of_mem_zip hlr).1
      have := zip_functional hnd hlr (copy_mem_zip hw)
      subst this
      exact ⟨w, hw, i, by omega, rfl⟩
    have hdis : ∀ i : ℕ, s.fromF * (i : ℤ) ≠ s.toF := by
      intro i; cases s <;> simp [Side.fromF, Side.toF] <;> omega
    obtain ⟨a, ha, e1, e2⟩ := run_indep prog st (c := .data v (s.fromF * (i : ℤ)))
      (by
        intro a ha c hc b hb
        obtain ⟨w, -, j, -, rfl⟩ := hmem a ha
        obtain ⟨w', -, j', -, rfl⟩ := hmem b hb
        simp only [setLoc, cells_mapCells, cells_dat, List.map_cons, List.map_nil, List.mem_singleton] at hc
        subst hc
        simp [hdis j'])
      ⟨⟨.data v (s.fromF * (i : ℤ)), (dat v 0).setLoc s.toF⟩, by
        simp only [hprog, List.mem_flatMap, List.mem_map, List.mem_range]
        exact ⟨_, ⟨i, by omega, rfl⟩, mem_cbe.2 ⟨(_, _), List.mem_singleton.2 rfl, _, copy_mem_zip hv, rfl⟩⟩, rfl⟩
    obtain ⟨w, -, j, -, rfl⟩ := hmem a ha
    simp only [Cell.data.injEq] at e1
    rw [e2, eval_dat_setLoc, e1.1]
  · intro c hc
    apply run_unwritten
    intro a ha
    simp only [List.mem_flatMap, List.mem_map, List.mem_range] at ha
    obtain ⟨_, ⟨i, hi, rfl⟩, ha⟩ := ha
    obtain ⟨p, hp, ⟨w, e⟩, hlr, rfl⟩ := mem_cbe.1 ha
    simp only [List.mem_singleton] at hp
    subst hp
    exact (hc w (List.of_mem_zip hlr).1 i (by omega)).symm

/-- One level of the linear extrapolation, for both sides. -/
theorem linear_level (cons : List (Var d)) (k a b : ℤ) (hka : k ≠ a) (hkb : k ≠ b) (st : Cell d → ℝ) :
    (∀ v ∈ cons, run (cons.map fun v => (⟨.data v k, .num 2 * dat v a - dat v b⟩ : Assign d)) st (.data v k) =
      2 * st (.data v a) - st (.data v b)) ∧
    (∀ c, (∀ v ∈ cons, c ≠ .data v k) →
      run (cons.map fun v => (⟨.data v k, .num 2 * dat v a - dat v b⟩ : Assign d)) st c = st c) := by
  constructor
  · intro v hv
    obtain ⟨x, hx, e1, e2⟩ := run_indep
      (cons.map fun v => (⟨.data v k, .num 2 * dat v a - dat v b⟩ : Assign d)) st (c := .data v k)
      (by
        intro x hx c hc y hy
        obtain ⟨w, -, rfl⟩ := List.mem_map.1 hx
        obtain ⟨w', -, rfl⟩ := List.mem_map.1 hy
        simp at hc
        rcases hc with rfl | rfl <;> simp [hka, hkb])
      ⟨_, List.mem_map_of_mem hv, rfl⟩
    obtain ⟨w, -, rfl⟩ := List.mem_map.1 hx
    simp only [Cell.data.injEq] at e1
    rw [e2]; simp [e1.1]
  · intro c hc
    apply run_unwritten
    intro x hx
    obtain ⟨w, hw, rfl⟩ := List.mem_map.1 hx
    exact (hc w hw).symm

/-- C26, first order: the halo points continue, to every depth and on both sides, the straight line through the boundary
point and the first interior point; nothing else is written. -/
theorem C26_first_order (arrays : List (Arr d)) (s : Side) (n : ℕ) (st : Cell d → ℝ) :
    ∃ prog, extrapolation arrays 1 s n = some prog ∧
      (∀ v ∈ flatten arrays, ∀ i : ℕ, i ≤ n → run prog st (.data v (s.fromF * (i : ℤ))) =
        st (.data v 0) + (i : ℝ) * (st (.data v 0) - st (.data v s.toF))) ∧
      (∀ c, (∀ v ∈ flatten arrays, ∀ i : ℕ, 1 ≤ i → i ≤ n → c ≠ .data v (s.fromF * (i : ℤ))) →
        run prog st c = st c) := by
  set cons := flatten arrays with hcons
  -- one level in a form common to both sides
  let level : ℕ → List (Assign d) := fun i => cons.map fun v =>
    ⟨.data v (s.fromF * (i : ℤ)), .num 2 * dat v (s.fromF * ((i : ℤ) - 1)) - dat v (s.fromF * ((i : ℤ) - 2))⟩
  have hprog : extrapolation arrays 1 s n = some ((List.range' 1 n).flatMap level) := by
    cases s <;>
    · simp only [extrapolation, level, ← hcons]
      simp only [List.flatMap_map, one_ne_zero, if_false, if_true, Option.some.injEq]
      congr 1; funext i; congr 1; funext v
      simp only [Side.fromF, Side.toF]
      congr 3 <;> ring_nf
  refine ⟨_, hprog, ?_⟩
  induction n with
  | zero =>
    refine ⟨?_, fun c _ => rfl⟩
    intro v _ i hi
    have : i = 0 := by omega
    subst this; simp [run_nil]
  | succ n ih =>
    obtain ⟨ih1, ih2⟩ := ih (by
      cases s <;>
      · simp only [extrapolation, level, ← hcons]
        simp only [List.flatMap_map, one_ne_zero, if_false, if_true, Option.some.injEq]
        congr 1; funext i; congr 1; funext v
        simp only [Side.fromF, Side.toF]
        congr 3 <;> ring_nf)
    have hr : List.range' 1 (n + 1) = List.range' 1 n ++ [n + 1] := by
      rw [List.range'_concat]; simp [Nat.add_comm]
    rw [hr, List.flatMap_append, List.flatMap_cons, List.flatMap_nil, List.append_nil]
    have hf := fromF_ne s
    have lev := linear_level cons (s.fromF * (((n + 1 : ℕ) : ℤ))) (s.fromF * ((((n + 1 : ℕ) : ℤ)) - 1))
      (s.fromF * ((((n + 1 : ℕ) : ℤ)) - 2)) (fun h => by have := fromF_mul_inj s h; omega)
      (fun h => by have := fromF_mul_inj s h; omega) (run ((List.range' 1 n).flatMap level) st)
    constructor
    · intro v hv i hi
      rw [run_append]
      rcases Nat.lt_or_ge i (n + 1) with h | h
      · rw [lev.2, ih1 v hv i (by omega)]
        intro w _ e
        injection e with _ e
        have := fromF_mul_inj s e
        omega
      · have : i = n + 1 := by omega
        subst this
        rw [lev.1 v hv]
        have e1 : run ((List.range' 1 n).flatMap level) st (.data v (s.fromF * (((n + 1 : ℕ) : ℤ) - 1))) =
            st (.data v 0) + (n : ℝ) * (st (.data v 0) - st (.data v s.toF)) := by
          rw [← ih1 v hv n (by omega)]; congr 2; push_cast; ring
        have e2 : run ((List.range' 1 n).flatMap level) st (.data v (s.fromF * (((n + 1 : ℕ) : ℤ) - 2))) =
            st (.data v 0) + ((n : ℝ) - 1) * (st (.data v 0) - st (.data v s.toF)) := by
          cases n with
          | zero =>
            have : s.fromF * (((0 + 1 : ℕ) : ℤ) - 2) = s.toF := by cases s <;> simp [Side.fromF, Side.toF]
            rw [this]; simp [run_nil]
          | succ n =>
            have h := ih1 v hv n (by omega)
            rw [show (((n + 1 + 1 : ℕ) : ℤ) - 2) = (n : ℤ) by push_cast; ring, h]; push_cast; ring
        rw [e1, e2]; push_cast; ring
    · intro c hc
      rw [run_append, lev.2, ih2]
      · intro v hv i h1 h2; exact hc v hv i h1 (by omega)
      · intro v hv; exact hc v hv (n + 1) (by omega) (by omega)

/-- C26: any other order is rejected. -/
theorem C26_other_orders_rejected (arrays : List (Arr d)) (order : ℤ) (h0 : order ≠ 0) (h1 : order ≠ 1)
    (s : Side) (n : ℕ) : extrapolation arrays order s n = none := by
  simp [extrapolation, h0, h1]

/-- A case: one-dimensional data `x²` at offsets; the third halo point on the left of linear extrapolation is `-3`
(the line through `(0,0)` and `(1,1)`), not `9`. -/
example : ∃ prog, extrapolation (d := 1) [.scalar .rho] 1 .left 3 = some prog ∧
    run prog (fun c => match c with | .data _ k => (k : ℝ) ^ 2 | .loc _ => 0) (.data .rho (-3)) = -3 := by
  obtain ⟨p, hp, h, -⟩ := C26_first_order (d := 1) [.scalar .rho] .left 3
    (fun c => match c with | .data _ k => (k : ℝ) ^ 2 | .loc _ => 0)
  refine ⟨p, hp, ?_⟩
  have := h .rho (by simp [flatten]) 3 (by norm_num)
  simp [Side.fromF, Side.toF] at this
  exact this

/-- C26, zero gradient outlet: the boundary point receives the first interior value and every halo point the value mirrored
at the boundary, so all differences across the boundary vanish. -/
theorem C26_zero_gradient (arrays : List (Arr d)) (hnd : (flatten arrays).Nodup) (s : Side) (n : ℕ)
    (st : Cell d → ℝ) (v : Var d) (hv : v ∈ flatten arrays) :
    run (zeroGradient arrays s n) st (.data v 0) = st (.data v s.toF) ∧
    (∀ i : ℕ, 1 ≤ i → i ≤ n → run (zeroGradient arrays s n) st (.data v (s.fromF * (i : ℤ))) =
      st (.data v (s.toF * (i : ℤ)))) ∧
    (∀ i : ℕ, 1 ≤ i → run (zeroGradient arrays s n) st (.data v (s.toF * (i : ℤ))) =
      st (.data v (s.toF * (i : ℤ)))) := by
  have hfun : ∀ p ∈ [((0 : ℤ), s.toF)], ∀ q ∈ [((0 : ℤ), s.toF)], p.1 = q.1 → p.2 = q.2 := by simp
  have hdis : ∀ p ∈ [((0 : ℤ), s.toF)], ∀ q ∈ [((0 : ℤ), s.toF)], q.1 ≠ p.2 := by
    simp [(toF_ne s).symm]
  have h0 : ∀ i : ℕ, 1 ≤ i → run (createBoundaryEquations (flatten arrays)
      ((flatten arrays).map fun v => dat v 0) [(0, s.toF)]) st (.data v (s.toF * (i : ℤ))) =
      st (.data v (s.toF * (i : ℤ))) := by
    intro i hi
    apply cbe_unwritten
    intro w _ p hp h
    simp only [List.mem_singleton] at hp
    subst hp
    injection h with _ h
    rcases mul_eq_zero.1 h with h | h
    · exact toF_ne s h
    · omega
  refine ⟨?_, ?_, ?_⟩
  · rw [zeroGradient, run_append, cbe_unwritten,
      cbe_value hnd hfun hdis (copy_mem_zip hv) (p := (0, s.toF)) (by simp), eval_dat_setLoc]
    intro w _ p hp h
    obtain ⟨t, h1, -, rfl⟩ := mem_mirror.1 hp
    injection h with _ h
    rcases mul_eq_zero.1 h.symm with h | h
    · exact fromF_ne s h
    · omega
  · intro i h1 hn
    rw [zeroGradient, run_append, cbe_value hnd (mirror_functional s n) (mirror_disjoint s n) (copy_mem_zip hv)
      (mem_mirror.2 ⟨i, h1, hn, rfl⟩ : (s.fromF * (i : ℤ), s.toF * (i : ℤ)) ∈ _), eval_dat_setLoc, h0 i h1]
  · intro i h1
    rw [zeroGradient, run_append, cbe_unwritten, h0 i h1]
    intro w _ p hp h
    obtain ⟨t, ht, -, rfl⟩ := mem_mirror.1 hp
    injection h with _ h
    exact from_ne_to s ht h.symm

/-! ### Relocation of expressions (used by C25-C29) -/

/-- `increment_dataset` displaces an expression correctly when all its datasets are at one location, for every
iteration order of the underlying set: this covers every use in the boundary conditions. -/
theorem C61_increment_single_location (order : List (Var d × ℤ)) (e : Expr d) (o k : ℤ)
    (horder : ∀ p ∈ order, p.2 = o)
    (hcover : ∀ v q, Cell.data v q ∈ e.cells → (v, q) ∈ order) :
    e.increment order k = e.shift k := by
  by_cases hk : k = 0
  · subst hk
    have h1 : e.shift 0 = e.mapCells id := by
      rw [shift]; apply mapCells_congr; intro c _; cases c <;> simp
    have h2 : ∀ e : Expr d, e.mapCells id = e := by
      intro e; induction e <;> simp_all [mapCells]
    rw [h1, h2]
    have : ∀ (l : List (Var d × ℤ)) (e : Expr d), l.foldl (replaceStep 0) e = e := by
      intro l; induction l with
      | nil => intro e; rfl
      | cons p l ih =>
        intro e
        rw [List.foldl_cons, ih, replaceStep]
        conv_rhs => rw [← h2 e]
        apply mapCells_congr
        intro c _; by_cases h : c = .data p.1 p.2 <;> simp [h]
    exact this order e
  · let f : List (Var d × ℤ) → Cell d → Cell d := fun l c =>
      l.foldl (fun x p => if x = .data p.1 p.2 then .data p.1 (p.2 + k) else x) c
    have hfold : ∀ (l : List (Var d × ℤ)) (e : Expr d), l.foldl (replaceStep k) e = e.mapCells (f l) := by
      intro l; induction l with
      | nil =>
        intro e
        have h2 : ∀ e : Expr d, e.mapCells id = e := by
          intro e; induction e <;> simp_all [mapCells]
        exact (h2 e).symm
      | cons p l ih => intro e; rw [List.foldl_cons, ih, replaceStep, mapCells_mapCells]; rfl
    have hdone : ∀ (l : List (Var d × ℤ)) (v : Var d), (∀ p ∈ l, p.2 = o) →
        f l (.data v (o + k)) = .data v (o + k) := by
      intro l v; induction l with
      | nil => intro _; rfl
      | cons p l ih =>
        intro h
        have hp := h p (by simp)
        simp only [f, List.foldl_cons]
        rw [if_neg (by simp [hp, hk])]
        exact ih fun q hq => h q (by simp [hq])
    have hhit : ∀ (l : List (Var d × ℤ)) (v : Var d), (∀ p ∈ l, p.2 = o) → (v, o) ∈ l →
        f l (.data v o) = .data v (o + k) := by
      intro l v; induction l with
      | nil => intro _ h; simp at h
      | cons p l ih =>
        intro h hv
        have hp := h p (by simp)
        simp only [f, List.foldl_cons]
        by_cases e : p.1 = v
        · rw [if_pos (by simp [hp, e]), hp, e]; exact hdone l v fun q hq => h q (by simp [hq])
        · rw [if_neg (by intro h; simp at h; exact e h.1.symm)]
          apply ih (fun q hq => h q (by simp [hq]))
          rcases List.mem_cons.1 hv with h | h
          · exact absurd (by rw [← h]) e
          · exact h
    have hloc : ∀ (l : List (Var d × ℤ)) (x : Loc), f l (.loc x) = .loc x := by
      intro l x; induction l with
      | nil => rfl
      | cons p l ih => simp only [f, List.foldl_cons]; simpa using ih
    rw [increment, hfold, shift]
    apply mapCells_congr
    intro c hc
    cases c with
    | loc l => exact hloc order l
    | data v q =>
      have hm := hcover v q hc
      have : q = o := horder _ hm
      subst this
      exact hhit order v horder hm

/-- In general the one-at-a-time replacement is wrong: displacing `ρ₀ + ρ₁` by one, visiting `ρ₀` first, gives
`ρ₂ + ρ₂`. -/
theorem C61_increment_captures : ∃ (e : Expr 1) (order : List (Var 1 × ℤ)) (st : Cell 1 → ℝ),
    (∀ v q, Cell.data v q ∈ e.cells ↔ (v, q) ∈ order) ∧ order.Nodup ∧
    (e.increment order 1).eval st ≠ (e.shift 1).eval st := by
  refine ⟨dat .rho 0 + dat .rho 1, [(.rho, 0), (.rho, 1)],
    fun c => match c with | .data _ k => k | .loc _ => 0, ?_, by decide, ?_⟩
  · intro v q; simp
  · show (Expr.add (mapCells _ (mapCells _ (dat .rho 0))) (mapCells _ (mapCells _ (dat .rho 1)))).eval _ ≠
      (Expr.add (mapCells _ (dat .rho 0)) (mapCells _ (dat .rho 1))).eval _
    simp [mapCells, dat, eval]

/-- A case of `C61_increment_single_location`: the pressure relation in two dimensions. -/
example (γ : ℝ) : (pressure 2 γ).increment [(.rhoE, 0), (.mom 1, 0), (.rho, 0), (.mom 0, 0)] 3 =
    (pressure 2 γ).shift 3 := by
  apply C61_increment_single_location _ _ 0
  · decide
  · intro v q h
    rcases mem_cells_pressure h with h | h | ⟨i, h⟩
    · injection h with a b; subst a b; simp
    · injection h with a b; subst a b; simp
    · injection h with a b; subst a b; fin_cases i <;> simp

end OpenSBLI.Bc
