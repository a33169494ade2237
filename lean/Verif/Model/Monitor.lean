import Mathlib.Data.Real.Basic
import Mathlib.Algebra.BigOperators.Fin
import Mathlib.Data.List.Infix

/-!
# Simulation monitors

Model of `core/diagnostics/simulation_monitors.py` and of its use in `code_generation/opsc.py` 265-270 and 434-443.
-/
namespace OpenSBLI.Mon

/-- A probe location as passed by the user: an integer or a tuple. -/
inductive Loc
  | int (i : ℤ)
  | tuple (l : List ℤ)

/-- `Monitor`, lines 8-13; `var` is `str(flow_var)`. -/
structure Monitor where
  var : String
  loc : Loc
  no : ℕ

/-- `SimulationMonitor.__init__`, lines 27-30: `none` when it raises. -/
def monitors (arrays : List String) (locs : List Loc) : Option (List Monitor) :=
  if arrays.length ≠ locs.length then none else some ((arrays.zip locs).mapIdx fun i x => ⟨x.1, x.2, i⟩)

/-- `', '.join`. -/
def join (l : List String) : String := String.intercalate ", " l

/-- Python's `str` of a tuple of integers and of an integer. -/
def Loc.str : Loc → String
  | .int i => toString i
  | .tuple [] => "()"
  | .tuple [i] => "(" ++ toString i ++ ",)"
  | .tuple l => "(" ++ join (l.map toString) ++ ")"

/-! ## Names, lines 68-111 -/

def reductionName (m : Monitor) : String := "reduce_" ++ toString m.no ++ "_" ++ m.var
def rangeName (m : Monitor) : String := "monitor_range_" ++ toString m.no ++ "_" ++ m.var
def kernelName (m : Monitor) : String := "monitor_" ++ toString m.no ++ "_" ++ m.var
def outputName (m : Monitor) : String := m.var ++ "_" ++ toString m.no ++ "_output"

/-- Initialisers `int i0 = .., j0 = ..` of `reduction_range`, lines 78-89, one text per direction; `none` when unpacking the location raises.
In one dimension the location itself is printed. -/
def rangeTexts (ndim : ℕ) (l : Loc) : Option (List String) :=
  match ndim, l with
  | 1, l => some [l.str]
  | 2, .tuple [i, j] => some [toString i, toString j]
  | 3, .tuple [i, j, k] => some [toString i, toString j, toString k]
  | _, _ => none

/-- Half open iteration range `{i, i+1, ...}` of `reduction_range`. -/
def rangeOf (p : List ℤ) : List (ℤ × ℤ) := p.map fun i => (i, i + 1)

/-- A point is visited by the loop. -/
def inRange (r : List (ℤ × ℤ)) (x : List ℤ) : Prop := List.Forall₂ (fun (b : ℤ × ℤ) i => b.1 ≤ i ∧ i < b.2) r x

/-- Local result of one process: the handle starts at `0`, the kernel of lines 106-111 assigns the value at every point it executes. -/
def localResult (a : List ℤ → ℝ) (pts : List (List ℤ)) : ℝ := pts.foldl (fun _ p => a p) 0

/-- `ops_reduction_result` for `OPS_INC`: sum over processes. -/
def reductionResult {n : ℕ} (a : List ℤ → ℝ) (pts : Fin n → List (List ℤ)) : ℝ := ∑ r, localResult a (pts r)

/-! ## Printed output -/

/-- Placeholders of `format_output`, line 135. -/
def placeholders (prec : ℕ) (ms : List Monitor) : List String :=
  "%d" :: (List.range (ms.length + 1)).map fun _ => "%." ++ toString prec ++ "f"

/-- Does `'mean' in var` hold, line 140. -/
def isMean (m : Monitor) : Bool := decide ("mean".toList <:+: (outputName m).toList)

/-- Arguments of the print call, lines 136-142. -/
def printArgs (ms : List Monitor) : List String :=
  ["iter+1", "(iter+1)*dt"] ++ ms.map fun m => if isMean m then outputName m ++ "/(iter+1)" else outputName m

/-- Values of these arguments. -/
noncomputable def printedValues (iter : ℕ) (dt : ℝ) (ms : List Monitor) (result : Monitor → ℝ) : List ℝ :=
  [((iter + 1 : ℕ) : ℝ), ((iter + 1 : ℕ) : ℝ) * dt] ++ ms.map fun m => if isMean m then result m / ((iter + 1 : ℕ) : ℝ) else result m

/-- Header of `initial_print`, lines 161-169. -/
def header (ms : List Monitor) : String := join (["Iteration", "Time"] ++ ms.map fun m => m.var ++ m.loc.str)

/-! ## Writing the program, opsc.py 265-270 and 434-443 -/

/-- The attribute `monitoring_output_file` after `OPSC.__init__`: `none` if it was never set. -/
def outputFileAttribute (monitor : Option (Option String)) : Option Bool :=
  match monitor with
  | some (some _) => some true
  | some none => none
  | none => some false

/-- `ops_exit`, lines 434-443: `none` when reading the attribute raises `AttributeError`. -/
def opsExit (diagnostics : ℕ) (monitor : Option (Option String)) : Option (List String) :=
  (outputFileAttribute monitor).map fun b =>
    (if diagnostics > 1 then ["ops_timing_output(stdout);"] else []) ++ (if b then ["fclose(f);"] else []) ++ ["ops_exit();"]

end OpenSBLI.Mon
