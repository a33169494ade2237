import Verif.Spec.Simulation

/-!
# What a simulation on several blocks should compute

One Runge-Kutta step of all blocks together: in every stage all blocks advance on their grids with their right hand sides, then the boundary conditions `bc` of all blocks, which may exchange values, are applied.
-/
namespace OpenSBLI.Sim

variable {D n B : ℕ}

/-- A stage of the three stage method on all blocks. -/
noncomputable def rkStageMB (np : Fin B → Fin D → ℤ) (F : Fin B → Sol D n → Sol D n) (bc : (Fin B → Sol D n) → Fin B → Sol D n) (dt : ℝ) (s : Fin B → TState D n) (c : ℝ × ℝ) : Fin B → TState D n := fun b =>
  { q := bc (fun b => onGrid (np b) (fun i x => (s b).aux i x + dt * c.1 * F b (s b).q i x) (s b).q) b
    aux := onGrid (np b) (fun i x => (s b).aux i x + dt * c.2 * F b (s b).q i x) (s b).aux }

/-- A step of the three stage method on all blocks. -/
noncomputable def rkStepMB (np : Fin B → Fin D → ℤ) (F : Fin B → Sol D n → Sol D n) (bc : (Fin B → Sol D n) → Fin B → Sol D n) (dt : ℝ) (coef : List (ℝ × ℝ)) (s : Fin B → TState D n) : Fin B → TState D n :=
  coef.foldl (rkStageMB np F bc dt) fun b => { q := bc (fun b => (s b).q) b, aux := onGrid (np b) (bc (fun b => (s b).q) b) (s b).aux }

/-- A stage of a low storage method on all blocks. -/
noncomputable def lsStageMB (np : Fin B → Fin D → ℤ) (F : Fin B → Sol D n → Sol D n) (bc : (Fin B → Sol D n) → Fin B → Sol D n) (dt : ℝ) (s : Fin B → TState D n) (c : ℝ × ℝ) : Fin B → TState D n := fun b =>
  { aux := onGrid (np b) (fun i x => c.1 * (s b).aux i x + dt * F b (s b).q i x) (s b).aux
    q := bc (fun b => onGrid (np b) (fun i x => (s b).q i x + c.2 * (c.1 * (s b).aux i x + dt * F b (s b).q i x)) (s b).q) b }

/-- A step of a low storage method on all blocks. -/
noncomputable def lsStepMB (np : Fin B → Fin D → ℤ) (F : Fin B → Sol D n → Sol D n) (bc : (Fin B → Sol D n) → Fin B → Sol D n) (dt : ℝ) (coef : List (ℝ × ℝ)) (s : Fin B → TState D n) : Fin B → TState D n :=
  coef.foldl (lsStageMB np F bc dt) fun b => { s b with q := bc (fun b => (s b).q) b }

end OpenSBLI.Sim
