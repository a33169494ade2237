import Verif.Model.ReconKernel
import Verif.Model.SimulationText

/-!
# The C text of the kernels of a shock capturing scheme

The equations of the reconstruction kernel (`Model/ReconKernel.lean`) and of the residual kernel (schemes/spatial/shock_capturing.py 21-34) as expressions which `Model/CCode.lean` prints.

Simplified: SymPy's order of terms is not modelled; `lit` gives the way a number is held, as a `Rational` or as a `Float` (`1.0e-14`, weno.py 286; `10.0`, teno.py 438).
-/
namespace OpenSBLI.Recon
open Sim CCode

variable {D n : ℕ}

noncomputable section

/-- A right hand side of the reconstruction kernel of direction `d`: datasets with their offsets in this direction, square roots and inverses as powers (averaging.py 82, 98; weno.py 331), `Abs` and `floor` by the functions of C,
`10.0**floor(a)` with a `Float` (teno.py 438). -/
def Term.sym (T : Text D) (lit : ℝ → Sym D) (d : Fin D) : Term String D → Sym D
  | .num q => lit q
  | .const c => .const c
  | .var v => .gvar v
  | .at e p => e.sym T (shift 0 d p)
  | .add a b => .add (a.sym T lit d) (b.sym T lit d)
  | .mul a b => .mul (a.sym T lit d) (b.sym T lit d)
  | .pow a b => .pow (a.sym T lit d) (b.sym T lit d)
  | .npow a k => .pow (a.sym T lit d) (.num k)
  | .inv a => .pow (a.sym T lit d) (.num (-1))
  | .sqrt a => .pow (a.sym T lit d) (.num (1 / 2))
  | .abs a => .fn "fabs" (a.sym T lit d)
  | .max a b => .max (a.sym T lit d) (b.sym T lit d)
  | .fn f a => .fn f (a.sym T lit d)
  | .cut a c => .pw .lt (a.sym T lit d) (c.sym T lit d) (.flt 0) (.flt 1)
  | .tenFloor a => .pow (.flt 10) (.fn "floor" (a.sym T lit d))

/-- An equation: a `GroupedPiecewise` for the cut-off of TENO (teno.py 456-459), an assignment otherwise. -/
def eqnText (T : Text D) (lit : ℝ → Sym D) (d : Fin D) (v : String) : Term String D → Eqn D
  | .cut a c => .grouped [([⟨.gvar v, .flt 0⟩], .rel .lt (a.sym T lit d) (c.sym T lit d)), ([⟨.gvar v, .flt 1⟩], .tt)]
  | t => .assign ⟨.gvar v, t.sym T lit d⟩

/-- The equations in grid variables, by the names of the variables. -/
def bodyText (T : Text D) (lit : ℝ → Sym D) (d : Fin D) (l : List (String × Term String D)) : List (Eqn D) := l.map fun q => eqnText T lit d q.1 q.2

/-- The text of the reconstruction kernel: the equations in grid variables, then the stores into the work arrays (shock_capturing.py 442-447); `none` is the `ValueError` of WENO-Z. -/
def Input.text (K : Input D n) (S : Sympy D) (T : Text D) (lit : ℝ → Sym D) : Option (List (Eqn D)) := (K.eqs S).map fun l =>
  bodyText T lit K.d (l.map fun q => (q.1.name K.d, q.2.map (Var.name K.d))) ++
    (List.finRange n).map fun i : Fin n => .assign ⟨.data (T.names (.work (K.C.reconWork K.d i))) 0, ((K.out S i).map (Var.name K.d)).sym T lit K.d⟩

end

end OpenSBLI.Recon

namespace OpenSBLI.Sim
open CCode

variable {D n : ℕ}

noncomputable section

/-- The difference of the interface fluxes over the spacing, core/opensblifunctions.py 588-593. -/
def Shock.differenceText (C : Shock D n) (T : Text D) (d : Fin D) (i : Fin n) : Sym D :=
  .mul (.add (.data (T.names (.work (C.reconWork d i))) 0) (.mul (.num (-1)) (.data (T.names (.work (C.reconWork d i))) (shift 0 d (-1))))) (.pow (.const (C.spacing d)) (.num (-1)))

/-- The residual of an equation, shock_capturing.py 21-34. -/
def Shock.residualSym (C : Shock D n) (T : Text D) (i : Fin n) : Sym D :=
  .add (sumSym (C.dirs.map fun d => .mul ((C.coef d i).zeroDer.sym T 0) (C.differenceText T d i))) ((C.rhs i).zeroDer.sym T 0)

/-- The text of the residual kernel. -/
def Shock.residualText (C : Shock D n) (T : Text D) : List (Eqn D) := (List.finRange n).map fun i : Fin n => .assign ⟨.data (T.names (.res i)) 0, C.residualSym T i⟩

end

end OpenSBLI.Sim
