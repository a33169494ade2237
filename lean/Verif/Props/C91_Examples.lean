import Verif.Props.C91_Isothermal
import Verif.Props.C90_Examples

/-!
# C91: an insulated rod, and an isothermal wall

Diffusion between two symmetry planes: the complete printed program, boundary conditions included, obeys the maximum principle.
-/
namespace OpenSBLI.Bc
open OpenSBLI.CCode OpenSBLI.Sim OpenSBLI.Reg Spec

/-- Names: the solution is the array `phi`. -/
def rodNames : Spelling 1 where
  dir := 0
  array
    | .rho => "rho_B0"
    | .mom _ => "rhou0_B0"
    | .rhoE => "rhoE_B0"
    | .aux k => if k = 0 then "phi_B0" else "x" ++ toString k
  var := Loc.name
  lit _ := .num 0

theorem rodNames_inj : Function.Injective rodNames.array := by
  have h : ∀ (k : ℕ) (s : String), s.toList.head? ≠ some 'x' → "x" ++ toString k ≠ s := fun k s hs e => hs (by rw [← e]; simp)
  rintro (_ | i | _ | k) (_ | j | _ | l) e <;> simp only [rodNames] at e
  all_goals first | rfl | exact absurd e (by decide) | skip
  · split at e
    · exact absurd e (by decide)
    · exact absurd e.symm (h _ _ (by decide))
  · rw [Subsingleton.elim i j]
  · split at e
    · exact absurd e (by decide)
    · exact absurd e.symm (h _ _ (by decide))
  · split at e
    · exact absurd e (by decide)
    · exact absurd e.symm (h _ _ (by decide))
  · split at e
    · exact absurd e (by decide)
    · exact absurd e (h _ _ (by decide))
  · split at e
    · exact absurd e (by decide)
    · exact absurd e (h _ _ (by decide))
  · split at e
    · exact absurd e (by decide)
    · exact absurd e (h _ _ (by decide))
  · split at e <;> split at e
    · simp_all
    · exact absurd e.symm (h _ _ (by decide))
    · exact absurd e (h _ _ (by decide))
    · have := congrArg String.toList e
      simp only [String.toList_append, List.append_cancel_left_eq] at this
      rw [Mon.toString_injective (String.toList_injective this)]

/-- The block. -/
def rodBlock (N : ℤ) : Ranges.Block 1 := ⟨![N], fun _ => (∅, ∅)⟩

/-- The printed conditions: symmetry at both ends. -/
def rodBcs (N : ℤ) : List (BcCall 1) :=
  [planeCall (rodBlock N) 0 false (symmetryText rodNames [.scalar (.aux 0)] .left 1), planeCall (rodBlock N) 0 true (symmetryText rodNames [.scalar (.aux 0)] .right 1)]

/-- What they are. -/
noncomputable def rodItems (N : ℤ) : List (Item 1) :=
  [.lines (Ranges.bcPlaneKernel (rodBlock N) 0 false) 0 0 (symmetry (cartesian 0) [.scalar (.aux 0)] .left 1),
   .lines (Ranges.bcPlaneKernel (rodBlock N) 0 true) 0 (N - 1) (symmetry (cartesian 0) [.scalar (.aux 0)] .right 1)]

theorem rod_range (N : ℤ) (side : Bool) : (Ranges.bcPlaneKernel (rodBlock N) 0 side).totalRange 0 = if side then (N - 1, N - 1 + 1) else (0, 0 + 1) := by
  cases side <;> simp [Ranges.bcPlaneKernel, Ranges.Kernel.totalRange, rodBlock, Ranges.Block.ranges, Ranges.minHalo, Ranges.maxHalo]

theorem rod_renders (inputs : String → ℝ) (N : ℤ) (prg : List (Alg.Node (Call 1))) : List.Forall₂ (Renders (heatWith (rodBcs N) inputs) prg ![ "phi" ] ![Var.aux 0]) (heatWith (rodBcs N) inputs).bcs (rodItems N) := by
  have hd : ∀ s, rodNames.Distinct (symmetry (cartesian 0) [.scalar (.aux 0)] s 1) := fun s => ⟨rodNames_inj, by
    intro l hl
    simp [locals, symmetry, createBoundaryEquations, mirrorIndices, reflectedRhs, flatten, Expr.setLoc, Expr.mapCells, Expr.dat, Expr.cells, List.range'] at hl⟩
  have hc : ∀ s, Confined ![Var.aux 0] (symmetry (cartesian (0 : Fin 1)) [.scalar (.aux 0)] s 1) := fun s => C91_symmetry_confined 0 _ (fun v hv => ⟨0, by simpa [flatten] using hv⟩) s 1
  have hn : ∀ i, rodNames.array ((![Var.aux 0] : Fin 1 → Var 1) i) = (heatWith (rodBcs N) inputs).names (.data ((![ "phi" ] : Fin 1 → String) i)) := fun i => by
    rw [Subsingleton.elim i 0]
    simp [rodNames, heatWith, waveText]
  exact .cons ⟨rfl, rod_range N false, hc _, rodNames, rfl, hd _, hn, fun stage x => C91_symmetry rodNames _ _ _ _ _⟩
    (.cons ⟨rfl, rod_range N true, hc _, rodNames, rfl, hd _, hn, fun stage x => C91_symmetry rodNames _ _ _ _ _⟩ .nil)

theorem rod_proper (inputs : String → ℝ) (N : ℤ) : ∀ r eqs, .kernel r eqs ∈ rodBcs N → (heatWith (rodBcs N) inputs).Proper eqs := by
  intro r eqs h
  simp only [rodBcs, planeCall, List.mem_cons, List.not_mem_nil, or_false, BcCall.kernel.injEq] at h
  rcases h with ⟨-, rfl⟩ | ⟨-, rfl⟩ <;> exact C91_symmetry_proper rodNames _ _ _

theorem rod_side (N : ℤ) (side : Bool) (s : Side) (p : ℤ) (hr : (Ranges.bcPlaneKernel (rodBlock N) 0 side).totalRange 0 = (p, p + 1)) (q : Sol 1 1) (y : P 1) :
    onLines ![Var.aux 0] (Ranges.bcPlaneKernel (rodBlock N) 0 side).visits 0 p (symmetry (cartesian 0) [.scalar (.aux 0)] s 1) q 0 y =
      if y 0 = p + s.fromF then q 0 (Function.update y 0 (p + s.toF)) else q 0 y := by
  have hv : (Ranges.bcPlaneKernel (rodBlock N) 0 side).visits (Function.update y 0 p) := fun d => by
    rw [Subsingleton.elim d 0, hr]
    simp
  have hprog : symmetry (cartesian (0 : Fin 1)) [.scalar (.aux 0)] s 1 = [⟨.data (.aux 0) s.fromF, .cell (.data (.aux 0) s.toF)⟩] := by
    simp [symmetry, createBoundaryEquations, mirrorIndices, reflectedRhs, flatten, Expr.setLoc, Expr.mapCells, Expr.dat, List.range']
  have hl : ∀ k, lineState ![Var.aux 0] 0 q (Function.update y 0 p) (.data (.aux 0) k) = q 0 (Function.update y 0 (p + k)) := fun k => by
    simp [lineState, List.finRange_succ, shift]
  rw [onLines, if_pos hv, hprog]
  change Function.update _ _ _ (Cell.data (.aux 0) (y 0 - p)) = _
  by_cases h : y 0 = p + s.fromF
  · rw [if_pos h, show y 0 - p = s.fromF by omega, Function.update_self]
    exact hl _
  · rw [if_neg h, Function.update_of_ne (fun e => h (by have := (Cell.data.inj e).2; omega)), hl]
    congr 1
    rw [show p + (y 0 - p) = y 0 by ring, Function.update_eq_self]

theorem rod_conditions (N : ℤ) (q : Sol 1 1) (y : P 1) : conditions ![Var.aux 0] (rodItems N) q 0 y =
    if y 0 = N then (if N = 1 then q 0 (Function.update y 0 1) else q 0 (Function.update y 0 (N - 2))) else if y 0 = -1 then q 0 (Function.update y 0 1) else q 0 y := by
  change onLines _ _ _ _ _ (onLines _ _ _ _ _ q) 0 y = _
  rw [rod_side N true .right (N - 1) (rod_range N true), rod_side N false .left 0 (rod_range N false), rod_side N false .left 0 (rod_range N false)]
  simp only [Side.fromF, Side.toF, Function.update_self, Function.update_idem]
  by_cases h : y 0 = N
  · rw [if_pos (by omega), if_pos h]
    by_cases h1 : N = 1
    · rw [if_pos (by omega), if_pos h1]
      rfl
    · rw [if_neg (by omega), if_neg h1]
      congr 2
      ring
  · rw [if_neg (by omega), if_neg h]
    rfl

/-- C91: the complete printed program of diffusion in a rod with insulated ends, with its kernels for the symmetry conditions at both ends, compiles and obeys the maximum principle: with a time step of at most 0.3 times the square of the
spacing over the diffusivity all values on the grid stay between the bounds of the initial values, for any number of points and steps. Nothing is assumed about the program or its boundary conditions. -/
theorem C91_rod (inputs : String → ℝ) (N niter : ℕ) (hN : 2 ≤ N) (hκ : 0 < inputs "kappa") (hδ : inputs "Delta0block0" ≠ 0) (hdt : 0 ≤ inputs "dt")
    (hlim : inputs "dt" ≤ 3 / 10 * (inputs "Delta0block0" ^ 2 / inputs "kappa")) (pts : Ranges.Kernel 1 → List (P 1)) (hp : Enumerates pts) (a : Arrays 1) (lo hi : ℝ)
    (h0 : ∀ x, Grid ![(N : ℤ)] x → lo ≤ a "phi_B0" x ∧ a "phi_B0" x ≤ hi) :
    ∃ prg a', Alg.generate (heatInput N niter) = .ok prg ∧ (heatWith (rodBcs N) inputs).runText prg pts (Alg.runProgram prg) a = some a' ∧
      ∀ x, Grid ![(N : ℤ)] x → lo ≤ a' "phi_B0" x ∧ a' "phi_B0" x ≤ hi := by
  obtain ⟨prg, hP⟩ := heat_program (bcs := rodBcs N) hp inputs N niter
  have hN' : (2 : ℤ) ≤ N := by exact_mod_cast hN
  have hB := rod_conditions N
  have hg : ∀ x : P 1, Grid ![(N : ℤ)] x ↔ 0 ≤ x 0 ∧ x 0 < N := fun x => ⟨fun h => by simpa using h 0, fun h d => by rw [Subsingleton.elim d 0]; simpa using h⟩
  have hal : ∀ x : P 1, Allocated ![(N : ℤ)] 1 x ↔ -1 ≤ x 0 ∧ x 0 < N + 1 := fun x => ⟨fun h => by simpa using h 0, fun h d => by rw [Subsingleton.elim d 0]; simpa using h⟩
  have hup : ∀ (x : P 1) (k : ℤ), 0 ≤ k → k < N → Grid ![(N : ℤ)] (Function.update x 0 k) := fun x k h1 h2 => (hg _).2 (by simpa using ⟨h1, h2⟩)
  have hF : FillsHalos ![(N : ℤ)] 1 (conditions ![Var.aux 0] (rodItems N)) := by
    refine ⟨fun v i x hx => ?_, fun v i x hx => ?_, fun v v' hv i x hx => ?_⟩ <;> rw [Subsingleton.elim i 0]
    · rw [hg] at hx
      rw [hB, if_neg (by omega), if_neg (by omega)]
    · rw [hal] at hx
      rw [hB, if_neg (by omega), if_neg (by omega)]
    · rw [hal] at hx
      rw [hB, hB]
      split
      · rw [if_neg (by omega), if_neg (by omega), hv 0 _ (hup _ _ (by omega) (by omega))]
      · split
        · rw [hv 0 _ (hup _ _ (by omega) (by omega))]
        · exact hv 0 x ((hg x).2 (by omega))
  obtain ⟨a', r1, r2⟩ := heat_principle inputs (rod_proper inputs N) N niter hκ hδ hdt hlim pts hP a lo hi hF (fun q hq x hx => by
    rw [hal] at hx
    rw [hB]
    split
    · rw [if_neg (by omega)]
      exact hq _ (hup _ _ (by omega) (by omega))
    · split
      · exact hq _ (hup _ _ (by omega) (by omega))
      · exact hq x ((hg x).2 (by omega))) h0
  refine ⟨prg, a', hP.generated, ?_, r2⟩
  rw [C91_program (fits (heat_suits inputs (rod_proper inputs N) N niter) hP).1 hp (rod_renders inputs N prg) _ (fun _ h => h)]
  exact r1

end OpenSBLI.Bc
