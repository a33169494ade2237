import Mathlib.Analysis.Real.Sqrt
import Mathlib.Analysis.SpecialFunctions.Exp
import Mathlib.Analysis.Complex.Trigonometric
import Mathlib.Data.Nat.Choose.Basic
import Mathlib.Algebra.BigOperators.Group.Finset.Basic

/-!
# Solution filters

Models of filters/SFD.py (selective frequency damping), filters/binomial_filter.py, the modified Ducros sensor of
schemes/spatial/shock_sensors.py and the application step of filters/WENO_filter.py. Arithmetic is over the reals instead of floating point.
-/
namespace OpenSBLI.Filters

/-! ## Selective frequency damping -/

/-- The arrays a point of the block holds for each conservative variable: the variable, its `_filt` array and its `_filtold` array
(SFD.py 47-52). -/
inductive Slot where
  | cons (i : ℕ)
  | filt (i : ℕ)
  | old (i : ℕ)
  deriving DecidableEq

/-- The number of conservative variables, SFD.py 41-46; `none` is the unbound `cons_vars` in one dimension. -/
def sfdVariables : ℕ → Option ℕ
  | 2 => some 4
  | 3 => some 5
  | _ => none

/-- One grid point: the values of all arrays there. -/
abbrev Point := Slot → ℝ

/-- One assignment of a kernel body. -/
structure Assign where
  target : Slot
  rhs : Point → ℝ

/-- The statements of a kernel body run one after another. -/
def exec (body : List Assign) (s : Point) : Point := body.foldl (fun s a => Function.update s a.target (a.rhs s)) s

/-- `generate_initial_condition`, SFD.py 55-67: every `_filt` array is set to its variable. -/
def sfdInit (n : ℕ) : List Assign := (List.range n).map fun i => ⟨.filt i, fun s => s (.cons i)⟩

/-- The equations of `create_filter`, SFD.py 75-85, in their order: the old copies, the new filtered values, the new variables. -/
noncomputable def sfdFilter (chi omega dt : ℝ) (n : ℕ) : List Assign :=
  ((List.range n).map fun i => ⟨.old i, fun s => s (.filt i)⟩) ++
  ((List.range n).map fun i => ⟨.filt i, fun s =>
    (s (.cons i) * (1 - Real.exp (-(chi + omega) * dt)) + s (.filt i) * (chi / omega + Real.exp (-(chi + omega) * dt))) / (chi / omega + 1)⟩) ++
  ((List.range n).map fun i => ⟨.cons i, fun s =>
    (s (.cons i) * (Real.exp (-(chi + omega) * dt) * chi / omega + 1) + s (.old i) * chi / omega * (1 - Real.exp (-(chi + omega) * dt)))
      / (chi / omega + 1)⟩)

/-! ## Binomial filter -/

/-- The checks of `BinomialFilter.__init__`, binomial_filter.py 18-23, and of `create_equations` 72-76, where `q` is unbound in one dimension.
The order may be any integer. -/
def binomialAccepts (ndim : ℕ) (order : ℤ) : Bool := order % 2 = 0 && order ≤ 10 && (ndim = 2 || ndim = 3)

/-- `self.weights`, binomial_filter.py 38: `range(N + 1)` is empty for negative orders. -/
noncomputable def binWeights (N : ℤ) : List ℝ := (List.range (N + 1).toNat).map fun i : ℕ => ((N.toNat.choose i : ℕ) : ℝ) / 2 ^ N.toNat

/-- `self.locations`, binomial_filter.py 39: `range(-int(N/2.0), int(N/2.0)+1)`; `int` truncates towards zero. -/
def binLocations (N : ℤ) : List ℤ := (List.range (2 * (N.tdiv 2) + 1).toNat).map fun i : ℕ => -(N.tdiv 2) + (i : ℤ)

/-- An array over the block. -/
abbrev Grid (d : ℕ) := (Fin d → ℤ) → ℝ

/-- `increment_dataset`, the point `j` further along direction `dir`. -/
def shift {d : ℕ} (x : Fin d → ℤ) (dir : Fin d) (j : ℤ) : Fin d → ℤ := Function.update x dir (x dir + j)

/-- The sum of `filtered_equations`, binomial_filter.py 54-60, in one direction: `weights[i]*u_stencil[i]` for the positions of `locations`. -/
noncomputable def filter1 {d : ℕ} (N : ℤ) (u : Grid d) (dir : Fin d) (x : Fin d → ℤ) : ℝ :=
  (List.zipWith (fun w j => w * u (shift x dir j)) (binWeights N) (binLocations N)).sum

/-- The average over the directions and the blend with the unfiltered value, binomial_filter.py 91-102, when every read of `u` sees the value before
the kernel. -/
noncomputable def binomialPoint {d : ℕ} (N : ℤ) (sigma : ℝ) (u : Grid d) (x : Fin d → ℤ) : ℝ :=
  (1 - sigma) * u x + sigma * ((∑ dir : Fin d, filter1 N u dir x) / d)

/-- `conditional_expression`, binomial_filter.py 62-69: the blended value where the condition holds, the old value elsewhere. -/
noncomputable def binomialConditional {d : ℕ} (N : ℤ) (sigma : ℝ) (cond : (Fin d → ℤ) → Bool) (u : Grid d) (x : Fin d → ℤ) : ℝ :=
  if cond x then binomialPoint N sigma u x else u x

/-- The kernel as emitted: one loop over the points, each iteration reading the neighbours of `u` and overwriting `u` at its own point
(binomial_filter.py 96-97 and 104-112 put both in one kernel). The list is the order in which the points are visited. -/
noncomputable def binomialInPlace {d : ℕ} (N : ℤ) (sigma : ℝ) (points : List (Fin d → ℤ)) (u : Grid d) : Grid d :=
  points.foldl (fun u x => Function.update u x (binomialPoint N sigma u x)) u

/-! ## Shock sensor -/

/-- The vorticity terms of `ducros_equations`, shock_sensors.py 26-35; `g i j` stands for the derivative of `u_i` with respect to `x_j`, and `none` is the
`ValueError`. -/
def vorticitySq : (d : ℕ) → (Fin d → Fin d → ℝ) → Option ℝ
  | 2, g => some ((g 1 0 - g 0 1) ^ 2)
  | 3, g => some ((g 2 1 - g 1 2) ^ 2 + (g 0 2 - g 2 0) ^ 2 + (g 1 0 - g 0 1) ^ 2)
  | _, _ => none

/-- `KD(_i,_j)*Der(u_i, x_j)` expanded, shock_sensors.py 37-38. -/
noncomputable def divergence {d : ℕ} (g : Fin d → Fin d → ℝ) : ℝ := ∑ i, ∑ j, if i = j then g i j else 0

/-- The sensor, shock_sensors.py 45-47, with the constants of the code: `a = 100`, `epsilon = 1e-12`. -/
noncomputable def ducros (div vort2 : ℝ) : ℝ :=
  (1 / 2 * (1 - Real.tanh (5 / 2 * (1 + 100 * div)))) * div ^ 2 / (div ^ 2 + vort2 + 1 / 10 ^ 12)

/-- The sensor of a velocity gradient. -/
noncomputable def ducrosSensor (d : ℕ) (g : Fin d → Fin d → ℝ) : Option ℝ := (vorticitySq d g).map fun w => ducros (divergence g) w

/-- The Mach number control of `evaluate_Yee_Mach_sensor`, WENO_filter.py 199-200, as a function of the local Mach number. -/
noncomputable def yeeSensor (M : ℝ) : ℝ := min (1 / 2 * M ^ 2 * Real.sqrt (4 + (1 - M ^ 2) ^ 2) / (1 + M ^ 2)) 1

/-- The local Mach number of `evaluate_Yee_Mach_sensor`, WENO_filter.py 187-197, from the conservative variables. -/
noncomputable def localMach {d : ℕ} (gama rho : ℝ) (mom : Fin d → ℝ) (rhoE : ℝ) : ℝ :=
  let inv_rho := 1 / rho
  let u := fun i => mom i * inv_rho
  let p := (gama - 1) * (rhoE - 1 / 2 * (∑ i, mom i ^ 2) * inv_rho)
  let inv_a := 1 / Real.sqrt (gama * p * inv_rho)
  Real.sqrt (∑ i, u i ^ 2) * inv_a

/-- The largest sensor value of `filter_application`, WENO_filter.py 262-266: nested `Max` over directions and the five offsets. -/
noncomputable def kappaMax {d : ℕ} (kappa : Grid d) (x : Fin d → ℤ) : ℝ :=
  (List.finRange d).foldl (fun f dir => [-2, -1, 0, 1, 2].foldl (fun f j => max f (kappa (shift x dir j))) f) (kappa x)

/-- The conditions of `wall_control`, WENO_filter.py 226-243, in order: a wall on side 0 switches off index ≤ 5, on side 1 index ≥ points - 6.
`Piecewise` takes the first condition that holds. -/
def wallControl {d : ℕ} (walls : Fin d → Bool × Bool) (np : Fin d → ℤ) (x : Fin d → ℤ) : ℤ :=
  let conds : List Bool := (List.finRange d).flatMap fun dir =>
    (if (walls dir).1 then [decide (x dir ≤ 5)] else []) ++ (if (walls dir).2 then [decide (x dir ≥ np dir - 6)] else [])
  match conds.find? (· = true) with
  | some _ => 0
  | none => 1

/-- The update of one conservative variable, WENO_filter.py 274-276. -/
noncomputable def wenoFilterUpdate {d : ℕ} (walls : Fin d → Bool × Bool) (np : Fin d → ℤ) (control dt : ℝ) (kappa : ℝ) (res : ℝ) (q : ℝ) (x : Fin d → ℤ) : ℝ :=
  q + (wallControl walls np x : ℝ) * control * kappa * dt * res

end OpenSBLI.Filters
