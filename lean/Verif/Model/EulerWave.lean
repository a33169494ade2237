import Verif.Model.ShockProgram
import Verif.Props.C06_C08_Eno

/-!
# The density wave of apps/euler_wave/euler_wave.py

The Euler equations in two dimensions, the shock capturing scheme of lines 53-62 with the eigensystem of physical_models/euler_eigensystem.py 78-104; there is no central scheme. The metric terms of a uniform grid are those of the identity
matrix (euler_eigensystem.py 43-48), so `k` is one; SymPy drops the products with zero among them.
-/
namespace OpenSBLI.Sim
namespace EulerWave

def rho : Ex 2 := .arr (.data "rho")
def rhou0 : Ex 2 := .arr (.data "rhou0")
def rhou1 : Ex 2 := .arr (.data "rhou1")
def rhoE : Ex 2 := .arr (.data "rhoE")
def u0 : Ex 2 := .arr (.data "u0")
def u1 : Ex 2 := .arr (.data "u1")
def p : Ex 2 := .arr (.data "p")
def a : Ex 2 := .arr (.data "a")
def inv (e : Ex 2) : Ex 2 := .pow e (.num (-1))
def neg (e : Ex 2) : Ex 2 := .mul (.num (-1)) e
def square (e : Ex 2) : Ex 2 := .pow e (.num 2)
def root2 : Ex 2 := .pow (.num 2) (.num (1/2))
def gm1 : Ex 2 := .add (.const "gama") (.num (-1))
/-- The metric terms `k0` and `k1` of a direction. -/
def k0 (d : Fin 2) : Ex 2 := .num (if d = 0 then 1 else 0)
def k1 (d : Fin 2) : Ex 2 := .num (if d = 1 then 1 else 0)
/-- `alpha`, `bta`, `phi_sq`, `theta_t`: lines 79 and 81. -/
def alpha : Ex 2 := .mul rho (inv (.mul a root2))
def bta : Ex 2 := inv (.mul (.mul rho a) root2)
def phiSq : Ex 2 := .mul gm1 (.mul (.add (square u0) (square u1)) (inv (.num 2)))
def theta (d : Fin 2) : Ex 2 := .add (.mul (k0 d) u0) (.mul (k1 d) u1)
/-- The energy in the last row of the eigenvectors, line 92. -/
def enthalpy : Ex 2 := .mul (.add phiSq (square a)) (inv gm1)

/-- The fluxes of a direction. -/
def flux (d : Fin 2) : Fin 4 → Ex 2 :=
  if d = 0 then ![rhou0, .add (.mul rhou0 u0) p, .mul rhou1 u0, .mul (.add p rhoE) u0] else ![rhou1, .mul rhou0 u1, .add (.mul rhou1 u1) p, .mul (.add p rhoE) u1]

/-- `REV`, line 92. -/
def rev (d : Fin 2) : Fin 4 → Fin 4 → Ex 2 :=
  ![![.num 1, .num 0, alpha, alpha],
    ![u0, .mul (k1 d) rho, .mul alpha (.add u0 (.mul (k0 d) a)), .mul alpha (.add u0 (neg (.mul (k0 d) a)))],
    ![u1, .mul (neg (k0 d)) rho, .mul alpha (.add u1 (.mul (k1 d) a)), .mul alpha (.add u1 (neg (.mul (k1 d) a)))],
    ![.mul phiSq (inv gm1), .mul rho (.add (.mul (k1 d) u0) (neg (.mul (k0 d) u1))), .mul alpha (.add enthalpy (.mul a (theta d))), .mul alpha (.add enthalpy (neg (.mul a (theta d))))]]

/-- `LEV`, line 93. -/
def lev (d : Fin 2) : Fin 4 → Fin 4 → Ex 2 :=
  ![![.add (.num 1) (neg (.mul phiSq (inv (square a)))), .mul (.mul gm1 u0) (inv (square a)), .mul (.mul gm1 u1) (inv (square a)), .mul (neg gm1) (inv (square a))],
    ![.mul (neg (.add (.mul (k1 d) u0) (neg (.mul (k0 d) u1)))) (inv rho), .mul (k1 d) (inv rho), .mul (neg (k0 d)) (inv rho), .num 0],
    ![.mul bta (.add phiSq (neg (.mul a (theta d)))), .mul bta (.add (.mul (k0 d) a) (neg (.mul gm1 u0))), .mul bta (.add (.mul (k1 d) a) (neg (.mul gm1 u1))), .mul bta gm1],
    ![.mul bta (.add phiSq (.mul a (theta d))), .mul (neg bta) (.add (.mul (k0 d) a) (.mul gm1 u0)), .mul (neg bta) (.add (.mul (k1 d) a) (.mul gm1 u1)), .mul bta gm1]]

/-- The spacings. -/
def spacing (d : Fin 2) : String := if d = 0 then "Delta0block0" else "Delta1block0"

end EulerWave

open EulerWave

/-- The problem, with the parameters of lines 110-112. The order of `keys` is that of a Python dictionary; it does not matter. -/
noncomputable def eulerWave : Shock 2 4 where
  np := ![400, 400]
  order := 0
  sol := !["rho", "rhou0", "rhou1", "rhoE"]
  rhs := fun _ => .num 0
  rel := [("u0", .mul rhou0 (inv rho)), ("u1", .mul rhou1 (inv rho)),
    ("p", .mul gm1 (.add rhoE (neg (.mul (.mul (.num (1/2)) rho) (.add (.mul u0 u0) (.mul u1 u1)))))),
    ("a", .pow (.mul (.mul (.const "gama") p) (inv rho)) (.num (1/2)))]
  w0 := 0
  known := ["rho", "rhou0", "rhou1", "rhoE"]
  groups := []
  vcds := []
  keys := ["rhou0", "u0", "p", "rhou1", "rhoE", "u1", "a", "rho"]
  scheme := .weno .Z 3 (1/200) fun side => Weno.optimal side 3
  dirs := [0, 1]
  coef := fun _ _ => .num (-1)
  flux := EulerWave.flux
  ev := fun d => ![theta d, theta d, .add (theta d) a, .add (theta d) (neg a)]
  rev := EulerWave.rev
  lev := EulerWave.lev
  avg := simpleAvg
  avgReads := fun t => [t]
  spacing := EulerWave.spacing

end OpenSBLI.Sim
