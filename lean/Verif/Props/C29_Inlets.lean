import Verif.Lemmas.Isothermal
import Mathlib.Tactic.NormNum
import Mathlib.Tactic.FinCases
import Mathlib.Tactic.Positivity

/-!
# C29 pressure outlet and inlets
-/
namespace OpenSBLI.Bc
open Expr

variable {d : ℕ}

theorem outlet_zip (d : ℕ) (E : Expr d) : (flatten (consArrays d)).zip
    ([dat .rho 0] ++ (List.finRange d).map (fun (i : Fin d) => dat (.mom i) 0) ++ [E]) =
    [(.rho, dat .rho 0)] ++ (List.finRange d).map (fun (i : Fin d) => (.mom i, dat (.mom i) 0)) ++ [(.rhoE, E)] := by
  simp only [flatten, consArrays, List.flatMap_cons, List.flatMap_nil, List.append_nil, List.cons_append,
    List.nil_append, List.zip_cons_cons]
  rw [List.zip_append (by simp)]
  simp [List.zip_map']

theorem flatMap_cbe (L : List (Var d)) (R : List (Expr d)) (pts : List ℤ) (k : ℤ) :
    pts.flatMap (fun i => createBoundaryEquations L R [(i, k)]) =
      createBoundaryEquations L R (pts.map fun i => (i, k)) := by
  simp [createBoundaryEquations, List.flatMap_map]

/-- C29, pressure outlet: at the boundary point and every halo point density and momentum are those of the last interior point, and the
pressure computed from the conservative variables is the prescribed back pressure; interior points are unchanged. -/
theorem C29_pressure_outlet (γ pb : ℝ) (hγ : γ ≠ 1) (n : ℕ) (st : Cell d → ℝ) :
    ∃ prog, pressureOutlet d γ pb .right n = some prog ∧
      (∀ k : ℕ, k ≤ n → run prog st (.data .rho k) = st (.data .rho (-1)) ∧
        (∀ i, run prog st (.data (.mom i) k) = st (.data (.mom i) (-1))) ∧
        pAt γ (run prog st) k = pb) ∧
      (∀ v (k : ℤ), k < 0 → run prog st (.data v k) = st (.data v k)) := by
  refine ⟨_, by rw [pressureOutlet, if_pos rfl], ?_, ?_⟩
  · intro k hk
    set E : Expr d := .num pb / (.num γ - .num 1) + .num (1 / 2) * momSq d / dat .rho 0 with hE
    rw [run_append, flatMap_cbe]
    set st0 := run [⟨.loc .localE, dat .rhoE 0⟩] st with hst0
    have hst : ∀ v j, st0 (.data v j) = st (.data v j) := by
      intro v j; rw [hst0]; apply run_unwritten; simp
    set pts : List ℤ := 0 :: (List.range' 1 n).map fun (i : ℕ) => (i : ℤ) with hpts
    have mpts : ∀ p ∈ pts.map fun i => (i, (-1 : ℤ)), 0 ≤ p.1 ∧ p.2 = -1 := by
      intro p hp
      simp only [hpts, List.mem_map, List.mem_cons] at hp
      obtain ⟨i, hi | ⟨j, -, rfl⟩, rfl⟩ := hp
      · subst hi; simp
      · simp
    have hp : ((k : ℤ), (-1 : ℤ)) ∈ pts.map fun i => (i, (-1 : ℤ)) := by
      simp only [hpts, List.mem_map, List.mem_cons]
      refine ⟨k, ?_, rfl⟩
      by_cases h : k = 0
      · left; simp [h]
      · right; exact ⟨k, by rw [List.mem_range'_1]; omega, rfl⟩
    have hfun : ∀ p ∈ pts.map fun i => (i, (-1 : ℤ)), ∀ q ∈ pts.map fun i => (i, (-1 : ℤ)), p.1 = q.1 → p.2 = q.2 :=
      fun p hp q hq _ => (mpts p hp).2.trans (mpts q hq).2.symm
    have hdis : ∀ p ∈ pts.map fun i => (i, (-1 : ℤ)), ∀ q ∈ pts.map fun i => (i, (-1 : ℤ)), q.1 ≠ p.2 := by
      intro p hp q hq
      have := mpts p hp
      have := mpts q hq
      omega
    have val : ∀ v e, (v, e) ∈ [(Var.rho, dat .rho 0)] ++
        (List.finRange d).map (fun (i : Fin d) => (Var.mom i, dat (.mom i) 0)) ++ [(.rhoE, E)] →
        run (createBoundaryEquations (flatten (consArrays d)) ([dat .rho 0] ++
          (List.finRange d).map (fun (i : Fin d) => dat (.mom i) 0) ++ [E]) (pts.map fun i => (i, (-1 : ℤ)))) st0
          (.data v k) = (e.setLoc (-1)).eval st0 := by
      intro v e h
      exact cbe_value (consArrays_nodup d) hfun hdis (by rw [outlet_zip]; exact h) hp st0
    have hr := val .rho (dat .rho 0) (by simp)
    have hm : ∀ i, _ := fun i => val (.mom i) (dat (.mom i) 0)
      (List.mem_append_left _ (List.mem_append_right _ (List.mem_map.2 ⟨i, List.mem_finRange i, rfl⟩)))
    have he := val .rhoE E (by simp)
    simp only [eval_dat_setLoc, hst] at hr hm
    refine ⟨hr, hm, ?_⟩
    rw [pAt, Spec.pressureOf, hr, he]
    simp only [hm]
    rw [eval_setLoc, hE]
    simp only [eval_add, eval_div, eval_sub, eval_num, eval_mul, eval_momSq, eval_dat, atLoc_data, hst]
    have hg : γ - 1 ≠ 0 := sub_ne_zero.2 hγ
    have e2 : (∑ i, st (.data (.mom i) (-1)) ^ 2) / (2 * st (.data .rho (-1))) =
        1 / 2 * (∑ i, st (.data (.mom i) (-1)) ^ 2) / st (.data .rho (-1)) := by
      rw [mul_comm 2, ← div_div]; ring
    rw [e2]
    field_simp
    ring
  · intro v k hk
    apply run_unwritten
    intro a ha
    rcases List.mem_append.1 ha with h | h
    · simp only [List.mem_singleton] at h; subst h; simp
    · rw [flatMap_cbe] at h
      obtain ⟨p, hp, ⟨w, e⟩, hlr, rfl⟩ := mem_cbe.1 h
      simp only [List.mem_map, List.mem_cons] at hp
      obtain ⟨i, hi | ⟨j, -, rfl⟩, rfl⟩ := hp
      · subst hi; simp; intro _ h; omega
      · simp; intro _ h; omega

/-- C29: the outlet is only available on the upper side and the inlets only on the lower side. -/
theorem C29_wrong_side_rejected (γ pb : ℝ) (n : ℕ) (arrays : List (Arr d)) (dir : Fin d) :
    pressureOutlet d γ pb .left n = none ∧ inletTransfer arrays .right = none ∧
    inletPressure d γ dir .right n = none ∧ inletLawal d γ .right n = none := by
  simp [pressureOutlet, inletTransfer, inletPressure, inletLawal]

/-- C29, inlet transfer: the boundary point receives the values of the first halo point; everything else is unchanged. -/
theorem C29_inlet_transfer (arrays : List (Arr d)) (hnd : (flatten arrays).Nodup) (st : Cell d → ℝ) :
    ∃ prog, inletTransfer arrays .left = some prog ∧
      (∀ v ∈ flatten arrays, run prog st (.data v 0) = st (.data v (-1))) ∧
      (∀ c, (∀ v ∈ flatten arrays, c ≠ .data v 0) → run prog st c = st c) := by
  refine ⟨_, by rw [inletTransfer, if_pos rfl], ?_, ?_⟩
  · intro v hv
    rw [cbe_value hnd (by simp) (by simp) (copy_mem_zip hv) (p := (0, -1)) (by simp), eval_dat_setLoc]
  · intro c hc
    apply cbe_unwritten
    intro v hv p hp
    simp only [List.mem_singleton] at hp
    subst hp
    exact hc v hv

/-- Speed of sound of a store at an offset. -/
noncomputable def aAt (γ : ℝ) (st : Cell d → ℝ) (k : ℤ) : ℝ := √(γ * pAt γ st k / st (.data .rho k))

/-- C29, inlet with pressure extrapolation: with `u` the normal velocity and `a` the speed of sound at the boundary point before the
kernel, a supersonic inlet (`|u| ≥ a`) copies the first halo point to the boundary and leaves the halos alone; a subsonic inlet leaves
the boundary alone and copies the boundary energy to the energy of every halo point. -/
theorem C29_inlet_pressure (γ : ℝ) (dir : Fin d) (n : ℕ) (st : Cell d → ℝ) (hρ : st (.data .rho 0) ≠ 0) :
    ∃ prog, inletPressure d γ dir .left n = some prog ∧
      (aAt γ st 0 ≤ |uAt st 0 dir| →
        (∀ v ∈ flatten (consArrays d), run prog st (.data v 0) = st (.data v (-1))) ∧
        (∀ v k, k ≠ 0 → run prog st (.data v k) = st (.data v k))) ∧
      (|uAt st 0 dir| < aAt γ st 0 →
        (∀ i : ℕ, 1 ≤ i → i ≤ n → run prog st (.data .rhoE (-(i : ℤ))) = st (.data .rhoE 0)) ∧
        (∀ v k, (∀ i : ℕ, 1 ≤ i → i ≤ n → Cell.data v k ≠ .data .rhoE (-(i : ℤ))) →
          run prog st (.data v k) = st (.data v k))) := by
  set A : List (Assign d) := [⟨.loc .rhob, dat .rho 0⟩] with hA
  set B : List (Assign d) := (List.finRange d).map fun (i : Fin d) =>
    ⟨.loc (.ub i.1), .abs (dat (.mom i) 0 / dat .rho 0)⟩ with hB
  set C : List (Assign d) := [⟨.loc .pb, (.num γ - .num 1) * (dat .rhoE 0 - .num (1 / 2) * lv .rhob *
          Expr.sum ((List.finRange d).map fun (i : Fin d) => lv (.ub i.1) * lv (.ub i.1)))⟩,
       ⟨.loc .ab, .sqrt (.num γ * lv .pb / lv .rhob)⟩] with hC
  set D : List (Assign d) := (flatten (consArrays d)).map fun v =>
        ⟨.data v 0, .ge (lv (.ub dir.1)) (lv .ab) (dat v (-1)) (dat v 0)⟩ with hD
  set E : List (Assign d) := (List.range n).map fun (i : ℕ) =>
        ⟨.data .rhoE (-(i : ℤ) - 1),
          .ge (lv (.ub dir.1)) (lv .ab) (dat .rhoE (-(i : ℤ) - 1)) (dat .rhoE 0)⟩ with hE
  refine ⟨A ++ B ++ C ++ D ++ E, by rw [inletPressure, if_pos rfl], ?_⟩
  -- the locals
  set s1 := run (A ++ B ++ C) st with hs1
  have dataABC : ∀ v k, s1 (.data v k) = st (.data v k) := by
    intro v k; rw [hs1]; apply run_unwritten
    intro a ha
    simp only [List.mem_append] at ha
    rcases ha with (h | h) | h
    · simp only [hA, List.mem_singleton] at h; subst h; simp
    · obtain ⟨i, -, rfl⟩ := List.mem_map.1 h; simp
    · simp only [hC, List.mem_cons, List.not_mem_nil, or_false] at h
      rcases h with rfl | rfl <;> simp
  have hrun : ∀ c, run (A ++ B ++ C ++ D ++ E) st c = run E (run D s1) c := by
    intro c; rw [run_append, run_append]
  have sA : ∀ c, run A st c = if c = .loc .rhob then st (.data .rho 0) else st c := by
    intro c; rw [hA, run_cons, run_nil]; by_cases h : c = .loc .rhob
    · subst h; simp
    · simp [h]
  have sB : ∀ i : Fin d, run B (run A st) (.loc (.ub i.1)) = |uAt st 0 i| := by
    intro i
    obtain ⟨a, ha, e1, e2⟩ := run_indep B (run A st) (c := .loc (.ub i.1))
      (by
        intro a ha c hc b hb
        obtain ⟨j, -, rfl⟩ := List.mem_map.1 ha
        obtain ⟨j', -, rfl⟩ := List.mem_map.1 hb
        simp at hc
        rcases hc with rfl | rfl <;> simp)
      ⟨_, List.mem_map_of_mem (List.mem_finRange i), rfl⟩
    obtain ⟨j, -, rfl⟩ := List.mem_map.1 ha
    simp only [Cell.loc.injEq, Loc.ub.injEq] at e1
    have : j = i := Fin.ext e1
    subst this
    rw [e2]; simp only [eval_abs, eval_div, eval_dat, sA]; simp; rfl
  have sBo : ∀ c, (∀ i, c ≠ .loc (.ub i)) → run B (run A st) c = run A st c := by
    intro c hc; apply run_unwritten; intro a ha
    obtain ⟨j, -, rfl⟩ := List.mem_map.1 ha
    exact (hc j.1).symm
  have hub : ∀ i : Fin d, s1 (.loc (.ub i.1)) = |uAt st 0 i| := by
    intro i
    rw [hs1, run_append, run_append, hC, run_unwritten _ _ _ (by simp), sB]
  have hab : s1 (.loc .ab) = aAt γ st 0 := by
    rw [hs1, run_append, run_append, hC, run_cons, run_cons, run_nil, Function.update_self]
    simp only [eval_sqrt, eval_div, eval_mul, eval_num, eval_lv, eval_sub, eval_dat, eval_sum, List.map_map,
      Function.comp_def, Function.update_self, sB]
    rw [Function.update_of_ne (by simp), sBo _ (by simp), sA, sBo _ (by simp), sA]
    simp only [if_true]
    rw [if_neg (by simp), sum_finRange (fun i => |uAt st 0 i| * |uAt st 0 i|), aAt, pAt, Spec.pressureOf]
    congr 4
    rw [Finset.sum_div, Finset.mul_sum]
    congr 1
    apply Finset.sum_congr rfl
    intro i _
    rw [abs_mul_abs_self, uAt]
    field_simp
  -- the boundary point
  have ndD : (D.map Assign.target).Nodup := by
    rw [hD, List.map_map]
    exact (consArrays_nodup d).map fun a b h => by simpa using h
  have rdD : ∀ a ∈ D, ∀ b ∈ D, b.target ∈ a.rhs.cells → b.target = a.target := by
    intro a ha b hb h
    obtain ⟨v, -, rfl⟩ := List.mem_map.1 ha
    obtain ⟨w, -, rfl⟩ := List.mem_map.1 hb
    simpa using h
  have valD : ∀ v ∈ flatten (consArrays d), run D s1 (.data v 0) =
      if |uAt st 0 dir| ≥ aAt γ st 0 then st (.data v (-1)) else st (.data v 0) := by
    intro v hv
    have := run_indep_nodup D s1 ndD rdD _ (List.mem_map_of_mem hv)
    simp only [eval_ge, eval_lv, eval_dat, hub, hab, dataABC] at this
    exact this
  have offD : ∀ v k, k ≠ 0 → run D s1 (.data v k) = st (.data v k) := by
    intro v k hk
    rw [run_unwritten, dataABC]
    intro a ha
    obtain ⟨w, -, rfl⟩ := List.mem_map.1 ha
    simp [Ne.symm hk]
  have auxD : ∀ v, v ∉ flatten (consArrays d) → run D s1 (.data v 0) = st (.data v 0) := by
    intro v hv
    rw [run_unwritten, dataABC]
    intro a ha
    obtain ⟨w, hw, rfl⟩ := List.mem_map.1 ha
    intro h; injection h with h _; subst h; exact hv hw
  have locD : ∀ l, run D s1 (.loc l) = s1 (.loc l) := by
    intro l; apply run_unwritten; intro a ha
    obtain ⟨w, -, rfl⟩ := List.mem_map.1 ha; simp
  -- the halo energies
  have ndE : (E.map Assign.target).Nodup := by
    rw [hE, List.map_map]
    refine List.nodup_range.map fun a b h => ?_
    simp only [Function.comp_apply, Cell.data.injEq, true_and] at h; omega
  have rdE : ∀ a ∈ E, ∀ b ∈ E, b.target ∈ a.rhs.cells → b.target = a.target := by
    intro a ha b hb h
    obtain ⟨v, -, rfl⟩ := List.mem_map.1 ha
    obtain ⟨w, -, rfl⟩ := List.mem_map.1 hb
    simp at h ⊢
    omega
  have valE : ∀ i : ℕ, 1 ≤ i → i ≤ n → run E (run D s1) (.data .rhoE (-(i : ℤ))) =
      if |uAt st 0 dir| ≥ aAt γ st 0 then st (.data .rhoE (-(i : ℤ))) else run D s1 (.data .rhoE 0) := by
    intro i h1 hn
    have := run_indep_nodup E (run D s1) ndE rdE _ (List.mem_map_of_mem (show i - 1 ∈ List.range n by
      rw [List.mem_range]; omega))
    have e : -((i - 1 : ℕ) : ℤ) - 1 = -(i : ℤ) := by omega
    simp only [eval_ge, eval_lv, eval_dat, locD, hub, hab, e] at this
    rw [this, offD _ _ (by omega)]
  have offE : ∀ v k, (∀ i : ℕ, 1 ≤ i → i ≤ n → Cell.data v k ≠ .data .rhoE (-(i : ℤ))) →
      run E (run D s1) (.data v k) = run D s1 (.data v k) := by
    intro v k h
    apply run_unwritten
    intro a ha
    obtain ⟨i, hi, rfl⟩ := List.mem_map.1 ha
    rw [List.mem_range] at hi
    have := h (i + 1) (by omega) (by omega)
    rw [show -(i : ℤ) - 1 = -((i + 1 : ℕ) : ℤ) by push_cast; ring]
    exact this.symm
  have zoff : ∀ v : Var d, ∀ i : ℕ, 1 ≤ i → i ≤ n → Cell.data v 0 ≠ .data .rhoE (-(i : ℤ)) := by
    intro v i h1 _ h; injection h with _ h; omega
  constructor
  · intro hs
    constructor
    · intro v hv
      rw [hrun, offE v 0 (zoff v), valD v hv, if_pos hs]
    · intro v k hk
      rw [hrun]
      by_cases h : ∃ i : ℕ, 1 ≤ i ∧ i ≤ n ∧ Cell.data v k = .data .rhoE (-(i : ℤ))
      · obtain ⟨i, h1, h2, e⟩ := h
        rw [e, valE i h1 h2, if_pos hs]
      · rw [offE v k (fun i h1 h2 e => h ⟨i, h1, h2, e⟩), offD v k hk]
  · intro hs
    have hs' : ¬ |uAt st 0 dir| ≥ aAt γ st 0 := not_le.2 hs
    constructor
    · intro i h1 h2
      rw [hrun, valE i h1 h2, if_neg hs', valD _ (mem_consArrays.2 (Or.inr (Or.inr rfl))), if_neg hs']
    · intro v k h
      rw [hrun, offE v k h]
      by_cases hk : k = 0
      · subst hk
        by_cases hv : v ∈ flatten (consArrays d)
        · rw [valD v hv, if_neg hs']
        · exact auxD v hv
      · exact offD v k hk

/-- C29, documented effect "pressure is extrapolated out into the halos if subsonic": holds when the halo density and momentum equal those
of the boundary point. Missing: any other halo state, where it fails (`C29_inlet_halo_pressure_wrong`). -/
theorem C29_inlet_halo_pressure_partial (γ : ℝ) (dir : Fin d) (n : ℕ) (st : Cell d → ℝ) (hρ : st (.data .rho 0) ≠ 0)
    (hsub : |uAt st 0 dir| < aAt γ st 0) (i : ℕ) (h1 : 1 ≤ i) (hn : i ≤ n)
    (hr : st (.data .rho (-(i : ℤ))) = st (.data .rho 0))
    (hm : ∀ j, st (.data (.mom j) (-(i : ℤ))) = st (.data (.mom j) 0)) :
    ∃ prog, inletPressure d γ dir .left n = some prog ∧ pAt γ (run prog st) (-(i : ℤ)) = pAt γ st 0 := by
  obtain ⟨prog, hp, -, hs⟩ := C29_inlet_pressure γ dir n st hρ
  obtain ⟨hE, hf⟩ := hs hsub
  refine ⟨prog, hp, ?_⟩
  rw [pAt, hE i h1 hn, hf .rho _ (by simp), hr]
  congr 1
  funext j
  rw [hf (.mom j) _ (by simp), hm]

/-- The subsonic inlet copies the total energy, not the pressure: for a boundary point at rest and a moving halo point, the halo pressure
differs from the boundary pressure (here it is even negative). -/
theorem C29_inlet_halo_pressure_wrong : ∃ (st : Cell 1 → ℝ), (∀ k, 0 < st (.data .rho k)) ∧ (∀ k, 0 < pAt (7 / 5) st k) ∧
    |uAt st 0 0| < aAt (7 / 5) st 0 ∧
    ∃ prog, inletPressure 1 (7 / 5) 0 .left 2 = some prog ∧ pAt (7 / 5) (run prog st) (-1) < 0 := by
  let st : Cell 1 → ℝ := fun c => match c with
    | .data .rho _ => 1
    | .data (.mom _) k => if k = 0 then 0 else 2
    | .data .rhoE k => if k = 0 then 1 else 3
    | _ => 0
  have hsub : |uAt st 0 0| < aAt (7 / 5) st 0 := by
    have h1 : uAt st 0 0 = 0 := by simp [uAt, st]
    rw [h1, abs_zero, aAt]
    apply Real.sqrt_pos.2
    simp [pAt, Spec.pressureOf, st]; norm_num
  refine ⟨st, fun k => by simp [st], ?_, hsub, ?_⟩
  · intro k
    by_cases h : k = 0 <;> simp [pAt, Spec.pressureOf, st, h] <;> norm_num
  · obtain ⟨prog, hp, -, hs⟩ := C29_inlet_pressure (7 / 5) 0 2 st (by simp [st])
    obtain ⟨hE, hf⟩ := hs hsub
    refine ⟨prog, hp, ?_⟩
    have e1 := hE 1 le_rfl (by norm_num)
    have e2 := hf .rho (-1) (by simp)
    have e3 := hf (.mom 0) (-1) (by simp)
    simp only [Nat.cast_one] at e1
    simp only [pAt, Spec.pressureOf, e1, e2, Fin.sum_univ_one, e3]
    simp [st]; norm_num

/-- C29, isentropic (Lawal) inlet: with `u` the velocity of the first interior point and `T = 1 - (γ-1)/2 |u|²` positive, the boundary point
and every halo point move with `u`, have density `T^(1/(γ-1))` (isentropic) and pressure `ρT/γ`. -/
theorem C29_inlet_lawal (γ : ℝ) (hγ : 1 < γ) (n : ℕ) (st : Cell d → ℝ) (T : ℝ)
    (hT : T = 1 - (γ - 1) / 2 * ∑ i, uAt st 1 i ^ 2) (hT0 : 0 < T) :
    ∃ prog, inletLawal d γ .left n = some prog ∧
      (∀ k : ℕ, k ≤ n → run prog st (.data .rho (-(k : ℤ))) = T ^ (1 / (γ - 1)) ∧
        (∀ i, uAt (run prog st) (-(k : ℤ)) i = uAt st 1 i) ∧
        pAt γ (run prog st) (-(k : ℤ)) = T ^ (1 / (γ - 1)) * T / γ) ∧
      (∀ v (k : ℤ), 0 < k → run prog st (.data v k) = st (.data v k)) := by
  set A : List (Assign d) := [⟨.loc .localE, dat .rhoE 0⟩] with hA
  set B : List (Assign d) := (List.finRange d).map fun (i : Fin d) =>
    ⟨.loc (.uLawal i.1), dat (.mom i) 1 / dat .rho 1⟩ with hB
  set pts : List ℤ := (List.range (n + 1)).map fun (i : ℕ) => Side.left.fromF * (i : ℤ) with hpts
  set sq : Expr d := Expr.sum ((List.finRange d).map fun (i : Fin d) => lv (.uLawal i.1) * lv (.uLawal i.1)) with hsq
  set C : List (Assign d) := (pts.map fun k => ⟨.data .rho k, lawalRho d γ⟩) ++
      (pts.flatMap fun k => (List.finRange d).map fun (i : Fin d) =>
        ⟨.data (.mom i) k, lawalRho d γ * lv (.uLawal i.1)⟩) ++
      (pts.map fun k => ⟨.data .rhoE k,
        lawalRho d γ * lawalT d γ / (.num γ * (.num γ - .num 1)) + .num (1 / 2) * lawalRho d γ * sq⟩) with hC
  refine ⟨A ++ B ++ C, by rw [inletLawal, if_pos rfl, hC]; simp only [List.append_assoc]; rfl, ?_⟩
  set s1 := run (A ++ B) st with hs1
  have ul : ∀ i : Fin d, s1 (.loc (.uLawal i.1)) = uAt st 1 i := by
    intro i
    rw [hs1, run_append]
    obtain ⟨a, ha, e1, e2⟩ := run_indep B (run A st) (c := .loc (.uLawal i.1))
      (by
        intro a ha c hc b hb
        obtain ⟨j, -, rfl⟩ := List.mem_map.1 ha
        obtain ⟨j', -, rfl⟩ := List.mem_map.1 hb
        simp at hc
        rcases hc with rfl | rfl <;> simp)
      ⟨_, List.mem_map_of_mem (List.mem_finRange i), rfl⟩
    obtain ⟨j, -, rfl⟩ := List.mem_map.1 ha
    simp only [Cell.loc.injEq, Loc.uLawal.injEq] at e1
    have : j = i := Fin.ext e1
    subst this
    have hA' : ∀ v k, run A st (.data v k) = st (.data v k) := by
      intro v k; rw [hA]; apply run_unwritten; simp
    rw [e2]; simp only [eval_div, eval_dat, hA']; rfl
  have esq : sq.eval s1 = ∑ i, uAt st 1 i ^ 2 := by
    simp only [hsq, eval_sum, List.map_map, Function.comp_def, eval_mul, eval_lv, ul]
    rw [sum_finRange (fun i => uAt st 1 i * uAt st 1 i)]
    exact Finset.sum_congr rfl fun i _ => by ring
  have eT : (lawalT d γ).eval s1 = T := by
    rw [lawalT, ← hsq]
    simp only [eval_sub, eval_mul, eval_num, esq, hT]; ring
  have hg : 0 < γ - 1 := by linarith
  have eR : (lawalRho d γ).eval s1 = T ^ (1 / (γ - 1)) := by
    rw [lawalRho, ← hsq]
    simp only [eval_rpow, eval_add, eval_mul, eval_num, eval_sub, eval_div, esq, eT]
    have : 1 + 1 / 2 * (γ - 1) * ((∑ i, uAt st 1 i ^ 2) / T) = T⁻¹ := by
      field_simp
      rw [hT]; ring
    rw [this, neg_div, Real.rpow_neg (inv_nonneg.2 hT0.le), Real.inv_rpow hT0.le, inv_inv]
  have mpts : ∀ k, k ∈ pts ↔ ∃ i : ℕ, i ≤ n ∧ k = -(i : ℤ) := by
    intro k
    simp only [hpts, List.mem_map, List.mem_range, Side.fromF]
    constructor
    · rintro ⟨i, hi, rfl⟩; exact ⟨i, by omega, by ring⟩
    · rintro ⟨i, hi, rfl⟩; exact ⟨i, by omega, by ring⟩
  have mC : ∀ a ∈ C, (∃ k ∈ pts, a = ⟨.data .rho k, lawalRho d γ⟩) ∨
      (∃ k ∈ pts, ∃ i, a = ⟨.data (.mom i) k, lawalRho d γ * lv (.uLawal i.1)⟩) ∨
      (∃ k ∈ pts, a = ⟨.data .rhoE k,
        lawalRho d γ * lawalT d γ / (.num γ * (.num γ - .num 1)) + .num (1 / 2) * lawalRho d γ * sq⟩) := by
    intro a ha
    simp only [hC, List.mem_append, List.mem_map, List.mem_flatMap, List.mem_finRange, true_and] at ha
    rcases ha with (⟨k, hk, rfl⟩ | ⟨k, hk, i, rfl⟩) | ⟨k, hk, rfl⟩
    · exact Or.inl ⟨k, hk, rfl⟩
    · exact Or.inr (Or.inl ⟨k, hk, i, rfl⟩)
    · exact Or.inr (Or.inr ⟨k, hk, rfl⟩)
  have csq : ∀ c ∈ sq.cells, ∃ l, c = .loc l := by
    intro c hc
    simp only [hsq, mem_cells_sum, List.mem_map, List.mem_finRange, true_and] at hc
    obtain ⟨e, ⟨i, rfl⟩, hc⟩ := hc
    simp at hc; exact ⟨_, hc⟩
  have cT : ∀ c ∈ (lawalT d γ).cells, ∃ l, c = .loc l := by
    intro c hc
    rw [lawalT, ← hsq] at hc
    simp only [cells_sub, cells_mul, cells_num, List.nil_append] at hc
    exact csq c hc
  have cR : ∀ c ∈ (lawalRho d γ).cells, ∃ l, c = .loc l := by
    intro c hc
    rw [lawalRho, ← hsq] at hc
    simp only [cells_rpow, cells_add, cells_div, cells_sub, cells_mul, cells_num, List.nil_append, List.append_nil,
      List.mem_append] at hc
    rcases hc with hc | hc
    · exact csq c hc
    · exact cT c hc
  have indep : ∀ a ∈ C, ∀ c ∈ a.rhs.cells, ∀ b ∈ C, b.target ≠ c := by
    intro a ha c hc b hb
    have hl : ∃ l, c = .loc l := by
      rcases mC a ha with ⟨k, -, rfl⟩ | ⟨k, -, i, rfl⟩ | ⟨k, -, rfl⟩
      · exact cR c hc
      · simp only [cells_mul, cells_lv, List.mem_append, List.mem_singleton] at hc
        rcases hc with hc | hc
        · exact cR c hc
        · exact ⟨_, hc⟩
      · simp only [cells_add, cells_div, cells_sub, cells_mul, cells_num, List.nil_append, List.append_nil,
          List.mem_append] at hc
        rcases hc with (hc | hc) | hc | hc
        · exact cR c hc
        · exact cT c hc
        · exact cR c hc
        · exact csq c hc
    obtain ⟨l, rfl⟩ := hl
    rcases mC b hb with ⟨k, -, rfl⟩ | ⟨k, -, i, rfl⟩ | ⟨k, -, rfl⟩ <;> simp
  have s1d : ∀ v k, s1 (.data v k) = st (.data v k) := by
    intro v k; rw [hs1]; apply run_unwritten; intro a ha
    rcases List.mem_append.1 ha with h | h
    · simp only [hA, List.mem_singleton] at h; subst h; simp
    · obtain ⟨i, -, rfl⟩ := List.mem_map.1 h; simp
  constructor
  · intro k hk
    have hkp : -(k : ℤ) ∈ pts := (mpts _).2 ⟨k, hk, rfl⟩
    have vr : run (A ++ B ++ C) st (.data .rho (-(k : ℤ))) = T ^ (1 / (γ - 1)) := by
      rw [run_append, ← hs1]
      obtain ⟨a, ha, e1, e2⟩ := run_indep C s1 indep (.data .rho (-(k : ℤ)))
        ⟨⟨.data .rho (-(k : ℤ)), lawalRho d γ⟩, by
          simp only [hC, List.mem_append, List.mem_map]; exact Or.inl (Or.inl ⟨_, hkp, rfl⟩), rfl⟩
      rw [e2]
      rcases mC a ha with ⟨k, -, rfl⟩ | ⟨k, -, i, rfl⟩ | ⟨k, -, rfl⟩ <;>
        simp only [Cell.data.injEq, reduceCtorEq, false_and] at e1
      exact eR
    have vm : ∀ i, run (A ++ B ++ C) st (.data (.mom i) (-(k : ℤ))) = T ^ (1 / (γ - 1)) * uAt st 1 i := by
      intro i
      rw [run_append, ← hs1]
      obtain ⟨a, ha, e1, e2⟩ := run_indep C s1 indep (.data (.mom i) (-(k : ℤ)))
        ⟨⟨.data (.mom i) (-(k : ℤ)), lawalRho d γ * lv (.uLawal i.1)⟩, by
          simp only [hC, List.mem_append, List.mem_map, List.mem_flatMap]
          exact Or.inl (Or.inr ⟨_, hkp, i, List.mem_finRange i, rfl⟩), rfl⟩
      rw [e2]
      rcases mC a ha with ⟨k, -, rfl⟩ | ⟨k, -, j, rfl⟩ | ⟨k, -, rfl⟩ <;>
        simp only [Cell.data.injEq, reduceCtorEq, false_and, Var.mom.injEq] at e1
      obtain ⟨rfl, -⟩ := e1
      rw [eval_mul, eR, eval_lv, ul]
    have vE : run (A ++ B ++ C) st (.data .rhoE (-(k : ℤ))) = T ^ (1 / (γ - 1)) * T / (γ * (γ - 1)) +
        1 / 2 * T ^ (1 / (γ - 1)) * ∑ i, uAt st 1 i ^ 2 := by
      rw [run_append, ← hs1]
      obtain ⟨a, ha, e1, e2⟩ := run_indep C s1 indep (.data .rhoE (-(k : ℤ)))
        ⟨⟨.data .rhoE (-(k : ℤ)), lawalRho d γ * lawalT d γ / (.num γ * (.num γ - .num 1)) +
            .num (1 / 2) * lawalRho d γ * sq⟩, by
          simp only [hC, List.mem_append, List.mem_map]
          exact Or.inr ⟨_, hkp, rfl⟩, rfl⟩
      rw [e2]
      rcases mC a ha with ⟨k, -, rfl⟩ | ⟨k, -, j, rfl⟩ | ⟨k, -, rfl⟩ <;>
        simp only [Cell.data.injEq, reduceCtorEq, false_and] at e1
      simp only [eval_add, eval_div, eval_mul, eval_sub, eval_num, eR, eT, esq]
    have hR : 0 < T ^ (1 / (γ - 1)) := Real.rpow_pos_of_pos hT0 _
    refine ⟨vr, ?_, ?_⟩
    · intro i; rw [uAt, vr, vm]; field_simp
    · rw [pAt, Spec.pressureOf, vr, vE]
      simp only [vm]
      generalize T ^ (1 / (γ - 1)) = R at *
      have : ∑ i, (R * uAt st 1 i) ^ 2 = R ^ 2 * ∑ i, uAt st 1 i ^ 2 := by
        rw [Finset.mul_sum]; exact Finset.sum_congr rfl fun i _ => by ring
      rw [this]
      have h1 : γ - 1 ≠ 0 := hg.ne'
      have h2 : γ ≠ 0 := by linarith
      field_simp
      ring
  · intro v k hk
    rw [run_append, run_unwritten, ← hs1, s1d]
    intro a ha h
    have : ∃ w, ∃ j ∈ pts, a.target = .data w j := by
      rcases mC a ha with ⟨k, hk, rfl⟩ | ⟨k, hk, i, rfl⟩ | ⟨k, hk, rfl⟩ <;> exact ⟨_, k, hk, rfl⟩
    obtain ⟨w, j, hj, e⟩ := this
    rw [e] at h
    injection h with _ h
    obtain ⟨i, -, rfl⟩ := (mpts j).1 hj
    omega

/-- A case of `C29_inlet_lawal`: three dimensions at rest inside, `T = 1`. -/
example : ∃ st : Cell 3 → ℝ, (1 : ℝ) = 1 - ((7 / 5 : ℝ) - 1) / 2 * ∑ i, uAt st 1 i ^ 2 ∧ ∀ k, st (.data .rho k) = 2 :=
  ⟨fun c => match c with | .data .rho _ => 2 | _ => 0, by simp [uAt], by simp⟩

end OpenSBLI.Bc
