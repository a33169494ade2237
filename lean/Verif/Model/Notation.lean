import Verif.Model.Einstein
import Verif.Model.Simulation
import Mathlib.Data.Rat.Defs

/-!
# From index notation to the equations of a simulation

`EinsteinEquation.expand` (core/parsing.py 379-455) after parsing and differentiation: the equations with component numbers of `Model/Einstein.lean` become equations of `Model/Simulation.lean`. Components get their names
(`apply_index`, core/opensbliobjects.py 97-115), the functions with a value are evaluated (`apply_functions`, parsing.py 457-462, and `KD.value`, core/opensblifunctions.py 15-40), mixed derivatives are nested in the order of
the directions (`_sanitise`, opensblifunctions.py 341-353), and SymPy's constructors drop zeros and ones and distribute a number over a sum. Equations of a simulation have a time derivative on the left
(`SimulationEquations`, equation_types/opensbliequations.py 219-246), constituent relations a symbol.

Numbers are symbols without indices here; SymPy's order of terms and factors and the collection of equal ones are left out, as are the `LC` symbol and functions other than powers.
-/
namespace OpenSBLI.Note
open OpenSBLI.Ein (Expr SumExpr Ix)
open OpenSBLI.Sim (Ex Arr)

variable {D : ℕ}

/-- What names stand for: the coordinates (`coordinate_symbol`), numbers, and the declared constants, without indices (`constants`). Other names are datasets. -/
structure Reading where
  coordinate : String
  number : String → Option ℚ
  constants : List String

/-- The value of an index. -/
def value : Ix → Option ℕ
  | .val v => some v
  | .name _ => none

/-- The values of all indices. -/
def values : List Ix → Option (List ℕ)
  | [] => some []
  | i :: is => do
    let v ← value i
    let vs ← values is
    some (v :: vs)

/-- The name of a component: digits in place of indices, as the textual replacement of C50 makes it. -/
def component (b : String) (vs : List ℕ) : String := String.ofList (b.toList ++ (vs.map Ein.digits).flatten)

/-- A sum as SymPy's `Add` makes it: zeros are dropped. -/
def plus (a b : Ex D) : Ex D := if a = .num 0 then b else if b = .num 0 then a else .add a b

/-- A number as a factor: none if it is one, zero if it is zero. -/
def factor (q : ℚ) (e : Ex D) : Ex D := if q = 0 then .num 0 else if q = 1 then e else .mul (.num q) e

/-- A number times an expression: it is distributed over a sum and multiplied with another number. -/
def scale (q : ℚ) : Ex D → Ex D
  | .add a b => plus (scale q a) (scale q b)
  | .num r => .num (q * r)
  | .mul (.num r) e => factor (q * r) e
  | e => factor q e

/-- A product as SymPy's `Mul` makes it. -/
def times : Ex D → Ex D → Ex D
  | .num q, e => scale q e
  | e, .num q => scale q e
  | a, b => .mul a b

/-- A symbol which is not a coordinate. -/
def leaf (r : Reading) (b : String) (vs : List ℕ) : Option (Ex D) :=
  if b = "" ∨ b = r.coordinate then none else
  match r.number b with
  | some q => some (.num q)
  | none => some (if b ∈ r.constants then .const (component b vs) else .arr (.data (component b vs)))

/-- The direction of a coordinate, `x0` to `x2`. -/
def direction (r : Reading) : SumExpr → Option (Fin D)
  | .term b [.val d] => if b = r.coordinate then (if h : d < D then some ⟨d, h⟩ else none) else none
  | _ => none

/-- The value of an index symbol, `_i` with a value in place of `i`. -/
def number : SumExpr → Option ℕ
  | .term b [.val d] => if b = "" then some d else none
  | _ => none

/-- The names of spatial derivatives, parsing.py 114 and 189. -/
def derivatives : List String := ["Der", "Conservative"]

/-- The equation of the simulation. `none`: not of the kind described above. -/
def read (r : Reading) : SumExpr → Option (Ex D)
  | .zero => some (.num 0)
  | .term b idx => do leaf r b (← values idx)
  | .add a b => do some (plus (← read r a) (← read r b))
  | .mul a b => do some (times (← read r a) (← read r b))
  | .fn f a b =>
    if f = "KD" then do some (.num (if (← number a) = (← number b) then 1 else 0))
    else if f = "Pow" then do some (.pow (← read r a) (← read r b))
    else if f ∈ derivatives then do some (.cd (← direction r b) 1 (← read r a))
    else none
  | .fn3 f a b c =>
    if f ∈ derivatives then do
      let e ← read r a
      let i ← direction r b
      let j ← direction r c
      some (if i = j then .cd i 2 e else .cd (max i j) 1 (.cd (min i j) 1 e))
    else none
  | .sum _ _ => none

/-- The component on the left of a simulation equation. -/
def advanced : SumExpr → Option String
  | .fn f (.term b idx) (.term t []) => if f = "Der" ∧ t = "t" then (values idx).map (component b) else none
  | _ => none

/-- The component on the left of a constituent relation. -/
def defined : SumExpr → Option String
  | .term b idx => (values idx).map (component b)
  | _ => none

/-- All equations an equation in index notation stands for, in the order of the program; `left` reads the left side. -/
def equation (r : Reading) (order : List String → List String) (left : SumExpr → Option String) (eq : Expr × Expr) : Option (List (String × Ex D)) :=
  match Ein.expandEquation D order eq.1 eq.2 with
  | .error _ => none
  | .ok l => l.mapM fun p => do some (← left p.1, ← read r p.2)

/-- The equations of several calls of `expand`, added one after the other. -/
def equations (r : Reading) (order : List String → List String) (left : SumExpr → Option String) (eqs : List (Expr × Expr)) : Option (List (String × Ex D)) :=
  (eqs.mapM (equation r order left)).map List.flatten

end OpenSBLI.Note
