import Verif.Model.WenoNonlinear
import Verif.Model.Teno
import Verif.Model.EulerEigen
import Mathlib.Data.Finset.Sort

/-!
# Local Lax-Friedrichs characteristic reconstruction and the conservative derivative

Model of `/repo/opensbli/schemes/spatial/shock_capturing.py` (`LLFCharacteristic`, 337-536),
`averaging.py`, and `WenoDerivative._discretise_derivative` / `TenoDerivative._discretise_derivative`
of `core/opensblifunctions.py` (583-602, 667-686).

One grid line in the direction of the derivative is considered; arrays are functions of the absolute
grid index `x : ℤ`, work array entry `x` holds the flux at the interface `x + 1/2`.
-/
namespace OpenSBLI.Llf
open Weno

noncomputable section

/-- The shock capturing schemes: `LLFWeno(order = 2k-1, formulation)` with the optimal weights of
each side, or `LLFTeno(order)`. -/
inductive Scheme where
  | weno (form : Formulation) (k : ℕ) (dz : ℝ) (d : Side → ℕ → ℝ)
  | teno (o : Teno.Order) (eps CT : ℝ)

/-- Parameters for which the constructors do not raise and the tables are those computed by the
code: WENO-Z is limited to `k ≤ 7` (weno.py 311-312), TENO cut-offs are below one over the number of
stencils (the defaults are `1e-5` and `1e-7`). -/
def Scheme.Valid : Scheme → Prop
  | .weno form k dz d => 2 ≤ k ∧ (form = .Z → k ≤ 7) ∧ dz ≠ 0 ∧ ∀ side, OptimalWeights ℝ side k (d side)
  | .teno o eps CT => 0 < eps ∧ CT ≤ 1 / (o.n:ℝ)

/-- Reconstruction of one side.  (`getD` is only reached for an invalid WENO-Z order, which raises
when the scheme is constructed.) -/
def Scheme.recon : Scheme → Side → (ℤ → ℝ) → ℝ
  | .weno form k dz d, side, f => (wenoReconstruct form side k dz (d side) f).getD 0
  | .teno o eps CT, side, f => Teno.reconstruct o side eps CT f

/-- `func_points` of a reconstruction class as a set (weno.py 403, teno.py 396). -/
def Scheme.funcPoints : Scheme → Side → Finset ℤ
  | .weno _ k _ _, side =>
      (Finset.range k).biUnion fun r => (Finset.range k).image fun j => funcPoint side r j
  | .teno o _ _, side => (Finset.range o.n).biUnion fun i => (Teno.points side i).toFinset

/-- `stencil_points`: sorted union of the two sides, lines 452, 498, 515. -/
def Scheme.stencilPoints (s : Scheme) : List ℤ :=
  (s.funcPoints .right ∪ s.funcPoints .left).sort (· ≤ ·)

/-- `create_max_characteristic_wave_speed`, lines 516-522: `Max(out, Abs(ev))` folded over the
stencil, starting from `0`.  The reuse of the first variable for identical expressions (527-531)
is in `ReconKernel`. -/
def maxWave (pts : List ℤ) (ev : ℤ → ℝ) : ℝ := pts.foldl (fun out p => max out |ev p|) 0

/-- Positive split flux, line 480. -/
def positive (CF CS alpha : ℝ) : ℝ := 1/2 * (CF + alpha*CS)
/-- Negative split flux, line 482. -/
def negative (CF CS alpha : ℝ) : ℝ := 1/2 * (CF - alpha*CS)

/-- Values on a grid line: fluxes, solution vectors, eigenvalues, and the eigenvector matrices
evaluated from averages at the interface `x + 1/2`. -/
structure Line (n : ℕ) where
  f : ℤ → Fin n → ℝ
  q : ℤ → Fin n → ℝ
  ev : ℤ → Fin n → ℝ
  LEV : ℤ → Matrix (Fin n) (Fin n) ℝ
  REV : ℤ → Matrix (Fin n) (Fin n) ℝ

open Matrix in
/-- Value left in `Recon_i` by the kernel: it starts from `0.0` (opsc.py 402) and both
reconstructions are added (weno.py 258, `rv = rv + ...`): first the right one of the positive flux,
then the left one of the negative flux (lines 493-494). -/
def characteristic {n : ℕ} (s : Scheme) (l : Line n) (x : ℤ) (i : Fin n) : ℝ :=
  let CF := fun p : ℤ => (l.LEV x *ᵥ l.f (x+p)) i
  let CS := fun p : ℤ => (l.LEV x *ᵥ l.q (x+p)) i
  let alpha := maxWave s.stencilPoints fun p => l.ev (x+p) i
  let r0 : ℝ := 0
  let r1 := r0 + s.recon .right fun p => positive (CF p) (CS p) alpha
  r1 + s.recon .left fun p => negative (CF p) (CS p) alpha

open Matrix in
/-- `post_process`, lines 441-444: work array entry `x`. -/
def interfaceFlux {n : ℕ} (s : Scheme) (l : Line n) (x : ℤ) : Fin n → ℝ :=
  l.REV x *ᵥ characteristic s l x

/-- `WenoDerivative._discretise_derivative`: difference of the work array to its neighbour at
`x - 1`, over the grid spacing. -/
def derivative (delta : ℝ) (work : ℤ → ℝ) (x : ℤ) : ℝ := (work x - work (x-1)) / delta

/-! ### Averaging -/

/-- `SimpleAverage.average`, line 48 (and the metric terms of both averages, lines 56, 111). -/
def simpleAverage (a b : ℝ) : ℝ := (a+b)/2

/-- Primitive values of one point used by `RoeAverage`. -/
structure Prim (n : ℕ) where
  rho : ℝ
  u : Fin n → ℝ
  p : ℝ
  rhoE : ℝ

/-- Line 78. -/
def roeRho {n : ℕ} (l r : Prim n) : ℝ := Real.sqrt (l.rho * r.rho)
/-- Line 82. -/
def roeInv {n : ℕ} (l r : Prim n) : ℝ := (Real.sqrt r.rho + Real.sqrt l.rho)⁻¹
/-- Line 88. -/
def roeU {n : ℕ} (l r : Prim n) (i : Fin n) : ℝ :=
  (Real.sqrt l.rho * l.u i + Real.sqrt r.rho * r.u i) * roeInv l r
/-- Line 91. -/
def roeKE {n : ℕ} (l r : Prim n) : ℝ := 1/2 * ∑ i, roeU l r i ^ 2
/-- Lines 96-97. -/
def enthalpy {n : ℕ} (s : Prim n) : ℝ := (s.rhoE + s.p) / s.rho
/-- Line 98. -/
def roeH {n : ℕ} (l r : Prim n) : ℝ :=
  (Real.sqrt l.rho * enthalpy l + Real.sqrt r.rho * enthalpy r) * roeInv l r
/-- Line 101. -/
def roeA {n : ℕ} (g : ℝ) (l r : Prim n) : ℝ := Real.sqrt ((g-1) * (roeH l r - roeKE l r))

end

end OpenSBLI.Llf
