import Verif.Model.Simulation

/-!
# What a simulation should compute

The solution is a family of functions on the points of the block. A step updates it on the grid by a Runge-Kutta method and leaves all other points to the boundary conditions.
-/
namespace OpenSBLI.Sim

variable {D n : ℕ}

/-- The points of the grid. -/
def Grid (np : Fin D → ℤ) (x : P D) : Prop := ∀ d, 0 ≤ x d ∧ x d < np d

/-- Values of the solution. -/
abbrev Sol (D n : ℕ) := Fin n → P D → ℝ

/-- The datasets as arrays. -/
def memOf (full : String → P D → ℝ) : Mem D
  | .data s => full s
  | _ => fun _ => 0

/-- The values of the datasets belonging to a solution: the solution itself; the required datasets with a relation satisfy it at every point; all others have their initial values. -/
structure ConsistentOn (S : Setup D n) (required : String → Prop) (I : Interp D) (init : String → P D → ℝ) (q : Sol D n) (f : String → P D → ℝ) : Prop where
  sol : ∀ i, f (S.sol i) = q i
  rel : ∀ s e, required s → (s, e) ∈ S.rel → ∀ x, f s x = e.eval I (memOf f) x
  rest : ∀ s, (∀ e, (s, e) ∉ S.rel) → (∀ i, s ≠ S.sol i) → f s = init s

/-- The datasets required by a central scheme. -/
abbrev Consistent (S : Setup D n) (I : Interp D) (init : String → P D → ℝ) (q : Sol D n) (f : String → P D → ℝ) : Prop := ConsistentOn S S.required I init q f

/-- Solution and second register. -/
structure TState (D n : ℕ) where
  q : Sol D n
  aux : Sol D n

open Classical in
/-- New values on the grid. -/
noncomputable def onGrid (np : Fin D → ℤ) (new rest : Sol D n) : Sol D n := fun i x => if Grid np x then new i x else rest i x

/-- A stage of the three stage method: `F` is the right hand side, `B` the boundary conditions. -/
noncomputable def rkStage (np : Fin D → ℤ) (F B : Sol D n → Sol D n) (dt : ℝ) (s : TState D n) (c : ℝ × ℝ) : TState D n where
  q := B (onGrid np (fun i x => s.aux i x + dt * c.1 * F s.q i x) s.q)
  aux := onGrid np (fun i x => s.aux i x + dt * c.2 * F s.q i x) s.aux

/-- A step of the three stage method. -/
noncomputable def rkStep (np : Fin D → ℤ) (F B : Sol D n → Sol D n) (dt : ℝ) (coef : List (ℝ × ℝ)) (s : TState D n) : TState D n :=
  coef.foldl (rkStage np F B dt) { q := B s.q, aux := onGrid np (B s.q) s.aux }

/-- A stage of a low storage method. -/
noncomputable def lsStage (np : Fin D → ℤ) (F B : Sol D n → Sol D n) (dt : ℝ) (s : TState D n) (c : ℝ × ℝ) : TState D n where
  aux := onGrid np (fun i x => c.1 * s.aux i x + dt * F s.q i x) s.aux
  q := B (onGrid np (fun i x => s.q i x + c.2 * (c.1 * s.aux i x + dt * F s.q i x)) s.q)

/-- A step of a low storage method. -/
noncomputable def lsStep (np : Fin D → ℤ) (F B : Sol D n → Sol D n) (dt : ℝ) (coef : List (ℝ × ℝ)) (s : TState D n) : TState D n :=
  coef.foldl (lsStage np F B dt) { s with q := B s.q }

end OpenSBLI.Sim
