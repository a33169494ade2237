import Mathlib.Algebra.Module.Basic
import Mathlib.Algebra.Field.Basic
import Mathlib.Analysis.Real.Sqrt

/-!
# Runge-Kutta time integration

Model of `/repo/opensbli/schemes/temporal/rk_sbli.py` and `rk_LS.py` together with the ordering of
the kernels inside one iteration of the time loop, `code_generation/algorithm/algorithm.py`
lines 440-442 and 466-470.

A solution (all components at all grid points) is an element of an arbitrary `K`-module `V`;
the spatial kernels together are an arbitrary function `F : V → V` from the solution array to the
residual array; the boundary kernels an arbitrary function `bc : V → V` on the solution array.
Every array is a register of the state.
-/
namespace OpenSBLI.RK

variable {K : Type} [Field K] {V : Type} [AddCommGroup V] [Module K V]

/-- Registers of the default scheme: solution array, `*_RKold` work array
(`create_old_data_sets`, rk_sbli.py 135-140), residual array. -/
structure State (V : Type) where
  new : V
  old : V
  res : V

/-- `spatial_kernels`: evaluates the residual arrays from the solution arrays. -/
def spatial (F : V → V) (s : State V) : State V := { s with res := F s.new }

/-- Stage update kernel, rk_sbli.py line 123: `new = old + dt*rknew[stage]*residual`. -/
def stageUpdate (dt a : K) (s : State V) : State V :=
  { s with new := s.old + (dt * a) • s.res }

/-- Solution update kernel, rk_sbli.py line 122: `old = old + dt*rkold[stage]*residual`. -/
def solutionUpdate (dt b : K) (s : State V) : State V :=
  { s with old := s.old + (dt * b) • s.res }

/-- Boundary kernels act on the solution arrays. -/
def boundary (bc : V → V) (s : State V) : State V := { s with new := bc s.new }

/-- "Save equations" kernel, rk_sbli.py lines 126-133: `old = new`. -/
def save (s : State V) : State V := { s with old := s.new }

/-- One pass of the inner stage loop: spatial kernels, then `[stage_update_kernel,
solution_update_kernel]` (rk_sbli.py 115), then the boundary kernels (algorithm.py 440). -/
def stage (F bc : V → V) (dt : K) (coef : K × K) (s : State V) : State V :=
  boundary bc (solutionUpdate dt coef.1 (stageUpdate dt coef.2 (spatial F s)))

/-- `rkold` (solution coefficients), rk_sbli.py line 59. -/
def rkold : List K := [1/4, 3/20, 3/5]
/-- `rknew` (stage coefficients), rk_sbli.py line 60. -/
def rknew : List K := [2/3, 5/12, 3/5]

/-- One iteration of the time loop, algorithm.py 442 and 466-468: boundary kernels, save kernel,
then the stage loop over `stage = 0, 1, 2` with coefficients `rkold[stage]`, `rknew[stage]`. -/
def step (F bc : V → V) (dt : K) (s : State V) : State V :=
  (List.zip rkold rknew).foldl (fun s c => stage F bc dt c s) (save (boundary bc s))

/-- `n` iterations of the time loop. -/
def run (F bc : V → V) (dt : K) : Nat → State V → State V
  | 0, s => s
  | n+1, s => run F bc dt n (step F bc dt s)

/-! ### Low storage scheme -/

/-- Registers of the low storage scheme: solution, `tempRK_*` (rk_LS.py 168-178), residual. -/
structure LSState (V : Type) where
  u : V
  tmp : V
  res : V

def lsSpatial (F : V → V) (s : LSState V) : LSState V := { s with res := F s.u }

/-- rk_LS.py line 164: `temp = A[stage]*temp + dt*residual`. -/
def lsTemp (dt a : K) (s : LSState V) : LSState V := { s with tmp := a • s.tmp + dt • s.res }

/-- rk_LS.py line 165: `u = u + B[stage]*temp`. -/
def lsSol (b : K) (s : LSState V) : LSState V := { s with u := s.u + b • s.tmp }

def lsBoundary (bc : V → V) (s : LSState V) : LSState V := { s with u := bc s.u }

/-- One stage: spatial kernels, the single update kernel (temp first, then solution; lines 164-165),
boundary kernels. `coef = (A[stage], B[stage])`. -/
def lsStage (F bc : V → V) (dt : K) (coef : K × K) (s : LSState V) : LSState V :=
  lsBoundary bc (lsSol coef.2 (lsTemp dt coef.1 (lsSpatial F s)))

/-- One time step for coefficient lists `A`, `B`; there is no start kernel (rk_LS.py 116-137), the
increment register is *not* reset. -/
def lsStep (A B : List K) (F bc : V → V) (dt : K) (s : LSState V) : LSState V :=
  (List.zip A B).foldl (fun s c => lsStage F bc dt c s) (lsBoundary bc s)

def lsRun (A B : List K) (F bc : V → V) (dt : K) : Nat → LSState V → LSState V
  | 0, s => s
  | n+1, s => lsRun A B F bc dt n (lsStep A B F bc dt s)

/-- rk_LS.py line 91. -/
def lsA3 : List K := [0, -5/9, -153/128]
/-- rk_LS.py line 92. -/
def lsB3 : List K := [1/3, 15/16, 8/15]

/-- rk_LS.py line 96 (decimal literals taken as exact decimals). -/
def lsA4 : List ℚ := [0, -4178904745/10^10, -1192151694643/10^12, -1697784692471/10^12,
  -1514183444257/10^12]
/-- rk_LS.py line 97. -/
def lsB4 : List ℚ := [1496590219993/10^13, 3792103129999/10^13, 8229550293869/10^13,
  6994504559488/10^13, 1530572479681/10^13]

/-! SSP variant, rk_LS.py lines 75-89, with exact real arithmetic instead of floats; `c` is the
free parameter of the family (0.924574 in the code). -/
section SSP
noncomputable section
variable (c : ℝ)
def z1 : ℝ := Real.sqrt (36*c^4 + 36*c^3 - 135*c^2 + 84*c - 12)
def z2 : ℝ := 2*c^2 + c - 2
def z3 : ℝ := 12*c^4 - 18*c^3 + 18*c^2 - 11*c + 2
def z4 : ℝ := 36*c^4 - 36*c^3 + 13*c^2 - 8*c + 4
def z5 : ℝ := 69*c^3 - 62*c^2 + 28*c - 8
def z6 : ℝ := 34*c^4 - 46*c^3 + 34*c^2 - 13*c + 2
def sspB2 : ℝ := (12*c*(c-1)*(3*z2 c-z1 c) - (3*z2 c-z1 c)^2)/(144*c*(3*c-2)*(c-1)^2)
def sspB3 : ℝ := (-24*(3*c-2)*(c-1)^2)/((3*z2 c-z1 c)^2 - 12*c*(c-1)*(3*z2 c-z1 c))
def sspA2 : ℝ := (-z1 c*(6*c^2 - 4*c + 1) + 3*z3 c)/((2*c+1)*z1 c - 3*(c+2)*(2*c-1)^2)
def sspA3 : ℝ := (-z1 c*z4 c + 108*(2*c-1)*c^5 - 3*(2*c-1)*z5 c)/
  (24*z1 c*c*(c-1)^4 + 72*c*z6 c + 72*c^6 * (2*c-13))
/-- line 75/82 -/
def sspC : ℝ := 924574/10^6
def sspB : List ℝ := [sspC, sspB2 sspC, sspB3 sspC]
def sspA : List ℝ := [0, sspA2 sspC, sspA3 sspC]
end
end SSP

end OpenSBLI.RK
