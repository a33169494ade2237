import Verif.Model.Notation
import Verif.Model.FrontEnd

/-!
# From index notation to the equations of a shock capturing simulation

The equations with component numbers of `Model/Einstein.lean`, as in `Model/Notation.lean`, with derivatives of the schemes `Weno` and `Teno`. These are functions for SymPy; the schemes collect them by direction
(`group_by_direction`, schemes/spatial/weno.py 419-437 and teno.py 390-405), take their arguments for the fluxes (`direction_flux_vector`, shock_capturing.py 273-279), and replace them in the right hand sides by differences
of the reconstructed fluxes, all other functions by zero (`evaluate_residuals`, shock_capturing.py 21-34).

A right hand side is taken apart into these derivatives with their coefficients and the rest; derivatives inside other derivatives, powers of derivatives and products of two of them are left out, as are the derivatives of both
schemes in one equation.
-/
namespace OpenSBLI.Note
open OpenSBLI.Ein (Expr SumExpr)
open OpenSBLI.Sim (Ex)

variable {D : ℕ}

/-- A shock capturing derivative in a right hand side: direction, coefficient, flux. -/
abbrev Part (D : ℕ) := Fin D × Ex D × Ex D

/-- The coefficient of a derivative multiplied. -/
def Part.times (e : Ex D) (p : Part D) : Part D := (p.1, Note.times e p.2.1, p.2.2)

/-- A right hand side: the terms without shock capturing derivatives, and these derivatives in the order in which they are written. -/
def split (r : Reading) : SumExpr → Option (Ex D × List (Part D))
  | .add a b => do
    let (e, l) ← split r a
    let (e', l') ← split r b
    some (plus e e', l ++ l')
  | .mul a b => do
    let (e, l) ← split r a
    let (e', l') ← split r b
    if l = [] then some (Note.times e e', l'.map (Part.times e))
    else if l' = [] then some (Note.times e e', l.map (Part.times e'))
    else none
  | .fn f a b =>
    if f ∈ Front.captured then do some (.num 0, [(← direction r b, .num 1, ← read r a)])
    else do some (← read r (.fn f a b), [])
  | e => do some (← read r e, [])

/-- All equations of a simulation an equation in index notation stands for. -/
def splitEquation (r : Reading) (order : List String → List String) (eq : Expr × Expr) : Option (List (String × Ex D × List (Part D))) :=
  match Ein.expandEquation D order eq.1 eq.2 with
  | .error _ => none
  | .ok l => l.mapM fun p => do some (← advanced p.1, ← split r p.2)

/-- The equations of several calls of `expand`, added one after the other. -/
def splitEquations (r : Reading) (order : List String → List String) (eqs : List (Expr × Expr)) : Option (List (String × Ex D × List (Part D))) :=
  (eqs.mapM (splitEquation r order)).map List.flatten

/-- `group_by_direction` and `direction_flux_vector`: the fluxes of a direction, equation after equation. -/
def fluxVector (d : Fin D) (eqs : List (String × Ex D × List (Part D))) : List (Ex D) :=
  eqs.flatMap fun q => (q.2.2.filter fun p => p.1 = d).map fun p => p.2.2

/-- `sorted(grouped)`, weno.py 504: the directions in which there are derivatives. -/
def fluxDirections (eqs : List (String × Ex D × List (Part D))) : List (Fin D) :=
  (List.finRange D).filter fun d => decide (d ∈ eqs.flatMap fun q => q.2.2.map Prod.fst)

end OpenSBLI.Note
