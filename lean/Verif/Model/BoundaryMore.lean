import Verif.Model.Boundary

/-!
# Forcing strip wall

Model of /repo/opensbli/core/boundary_conditions/forcing_strip_wall.py in the setting of Verif/Model/Boundary.lean.
-/
namespace OpenSBLI.Bc
open Expr

/-- Wall equations of `ForcingStripBC.apply` (forcing_strip_wall.py:41-45): the equation for the wall normal momentum passed by the
user, zero momentum for the other components (`del wall_momentum[self.direction]`), then the equations passed by the user. -/
def forcingWallPart (d : ℕ) (dir : Fin d) (normal : Assign d) (user : List (Assign d)) : List (Assign d) :=
  [normal] ++
    (((List.finRange d).map fun (i : Fin d) => (⟨.data (.mom i) 0, .num 0⟩ : Assign d)).eraseIdx dir.1) ++ user

/-- Halo equations of `ForcingStripBC.apply` (forcing_strip_wall.py:49-88). Unlike in the isothermal wall
the lists of densities, momenta and energies are added once, after the loop (lines 86-88 are outside the loop). -/
noncomputable def forcingHaloPart (d : ℕ) (γ M Tw : ℝ) (s : Side) (n : ℕ) : List (Assign d) :=
  [⟨.loc .pwall, (pressure d γ).shift 0⟩] ++ isothermalVelocities d s n ++
    [⟨.loc .tAbove, (temperature d γ M).shift s.toF⟩] ++
    ((List.range' 1 n).map fun (i : ℕ) =>
      ⟨.loc (.t i), .num ((i : ℝ) + 1) * .num Tw - .num (i : ℝ) * lv .tAbove⟩) ++
    (List.range' 1 n).flatMap (isoDensity d γ M s) ++
    (List.range' 1 n).flatMap (isoMomentum d s) ++
    (List.range' 1 n).flatMap (isoEnergy d γ s)

/-- `ForcingStripBC.apply` (forcing_strip_wall.py:34-90); `shock` says whether one of the schemes of the block is a shock
capturing scheme (line 48): only then are the halo points set. -/
noncomputable def forcingStrip (d : ℕ) (γ M Tw : ℝ) (dir : Fin d) (normal : Assign d) (user : List (Assign d))
    (shock : Bool) (s : Side) (n : ℕ) : List (Assign d) :=
  forcingWallPart d dir normal user ++ if shock then forcingHaloPart d γ M Tw s n else []

end OpenSBLI.Bc
