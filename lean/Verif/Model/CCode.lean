import Mathlib.Algebra.Order.Floor.Ring
import Mathlib.Algebra.Order.Field.Basic
import Mathlib.Data.Rat.Cast.Defs
import Mathlib.Data.Rat.Cast.CharZero
import Mathlib.Data.Fintype.Pi
import Mathlib.Data.Finset.Union
import Verif.Model.Registry

/-!
# The C text of a kernel body

Model of the printing of kernel bodies: `OPSCCodePrinter` (`code_generation/opsc.py` 48-160), `pow_to_constant` (163-186), `ccode` (189-209) and the
body part of `kernel_computation_opsc` (365-405). C text is represented by its syntax tree. C expressions are typed: an expression built from integer
literals and grid indices is of type `int`, everything else is `double`, and a quotient of two `int`s is truncated.

The printing of sums, products, powers, functions and `Piecewise` is inherited from SymPy's `C99CodePrinter`, which is not in /repo; the rules used
here are: a product with a negative numerical power is printed as a quotient, `x**-1` alone as `1.0/x`, `x**(1/2)` as `sqrt(x)`, any other power as
`pow(x, y)`, an integer without decimal point, a `Float` by its digits, `Piecewise` as `?:`. Integer overflow is not modelled. The arithmetic of `double` is that of an ordered
field `K`.
-/
namespace OpenSBLI.CCode
open OpenSBLI.Reg

/-- Relational operators. -/
inductive Rel
  | lt | le | gt | ge | eq | ne
deriving DecidableEq

variable (d : ℕ)

/-- Symbolic expressions: `num` an `Integer` or `Rational`, `flt` a `Float` (the number its digits denote), `data` a `DataSet` with its relative offsets, `const` a `ConstantObject`, `gvar` a
`GridVariable`, `glob` a `Globalvariable`, `idx` a `Grididx`; `pw r a b x y` is `Piecewise((x, a r b), (y, True))`. -/
inductive Sym
  | num (q : ℚ)
  | flt (q : ℚ)
  | data (b : String) (off : Fin d → ℤ)
  | const (c : String)
  | gvar (v : String)
  | glob (g : String)
  | idx (k : Fin d)
  | add (x y : Sym)
  | mul (x y : Sym)
  | pow (x y : Sym)
  | mod (x y : Sym)
  | max (x y : Sym)
  | fn (f : String) (x : Sym)
  | pw (r : Rel) (a b x y : Sym)
deriving DecidableEq

/-- C expressions. `access b o` is `b[OPS_ACCn(o)]` (the number `n` is the subject of C32), `deref g` is ` *g`. -/
inductive CExpr
  | ilit (n : ℤ)
  | dlit (n : ℤ)
  | flt (q : ℚ)
  | var (n : String)
  | access (b : String) (off : Fin d → ℤ)
  | deref (g : String)
  | idx (k : Fin d)
  | add (x y : CExpr)
  | mul (x y : CExpr)
  | div (x y : CExpr)
  | pow (x y : CExpr)
  | fmod (x y : CExpr)
  | fmax (x y : CExpr)
  | call (f : String) (x : CExpr)
  | tern (r : Rel) (a b x y : CExpr)
deriving DecidableEq

variable {d}

/-- `settings_opsc`, opsc.py 52-60. -/
structure Mode where
  rational : Bool
  kernel : Bool

/-- Settings of `ccode(arg)` without settings (opsc.py 189, 57-60): neither rational nor kernel. -/
def Mode.default : Mode := ⟨false, false⟩

/-- `_print_Integer` (inherited) and `_print_Rational`, opsc.py 66-77. -/
def printNum (m : Mode) (q : ℚ) (s : Rc (Sym d)) : CExpr d × Rc (Sym d) :=
  if q.den = 1 then (.ilit q.num, s)
  else if m.rational then (.div (.dlit q.num) (.dlit q.den), s)
  else let r := s.request .rc (.num q); (.var r.2, r.1)

/-- Printed power `b**q` for a positive number `q`, `p` being the printed base (inherited). -/
def printPowNum (m : Mode) (p : CExpr d) (q : ℚ) (s : Rc (Sym d)) : CExpr d × Rc (Sym d) :=
  if q = 1 then (p, s)
  else if q = 1 / 2 then (.call "sqrt" p, s)
  else let r := printNum m q s; (.pow p r.1, r.2)

/-- The exponent of a negative numerical power. -/
def negExp : Sym d → Option ℚ
  | .num q => if q < 0 then some q else none
  | _ => none

/-- Printing of an expression, opsc.py 66-160 and `C99CodePrinter`. The second component is what is printed in the denominator when the expression is a
factor of a product and a negative numerical power. `Mod` prints its arguments by `ccode(arg)`, losing the settings (81). A maximum of more than two
arguments is nested (C41). -/
def print (m : Mode) : Sym d → Rc (Sym d) → (CExpr d × Rc (Sym d)) × Option (CExpr d × Rc (Sym d))
  | .num q, s => (printNum m q s, none)
  | .flt q, s => ((.flt q, s), none)
  | .data b o, s => ((.access b o, s), none)
  | .const c, s => ((.var c, s), none)
  | .gvar v, s => ((.var v, s), none)
  | .glob g, s => ((if m.kernel then .deref g else .var g, s), none)
  | .idx k, s => ((.idx k, s), none)
  | .add x y, s =>
    let a := (print m x s).1
    let b := (print m y a.2).1
    ((.add a.1 b.1, b.2), none)
  | .mul x y, s =>
    let a := (print m x s).1
    let b := print m y a.2
    match b.2 with
    | some q => ((.div a.1 q.1, q.2), none)
    | none => ((.mul a.1 b.1.1, b.1.2), none)
  | .pow x y, s =>
    let a := (print m x s).1
    let whole : CExpr d × Rc (Sym d) :=
      if y = .num (-1) then (.div (.dlit 1) a.1, a.2)
      else if y = .num (1 / 2) then (.call "sqrt" a.1, a.2)
      else let b := (print m y a.2).1; (.pow a.1 b.1, b.2)
    (whole, (negExp y).map fun q => printPowNum m a.1 (-q) a.2)
  | .mod x y, s =>
    let a := (print Mode.default x s).1
    let b := (print Mode.default y a.2).1
    ((.fmod a.1 b.1, b.2), none)
  | .max x y, s =>
    let a := (print m x s).1
    let b := (print m y a.2).1
    ((.fmax a.1 b.1, b.2), none)
  | .fn f x, s =>
    let a := (print m x s).1
    ((.call f a.1, a.2), none)
  | .pw r a b x y, s =>
    let pa := (print m a s).1
    let pb := (print m b pa.2).1
    let px := (print m x pb.2).1
    let py := (print m y px.2).1
    ((.tern r pa.1 pb.1 px.1 py.1, py.2), none)

/-- `_coeff_isneg` (SymPy): a negative number or a product with a negative first factor. -/
def coeffIsNeg : Sym d → Bool
  | .num q => decide (q < 0)
  | .flt q => decide (q < 0)
  | .mul (.num q) _ => decide (q < 0)
  | .mul (.flt q) _ => decide (q < 0)
  | _ => false

/-- Is the base a `ConstantObject`. -/
def isConst : Sym d → Bool
  | .const _ => true
  | _ => false

/-- `1/(gama - 1)`, opsc.py 174. -/
def invGammaMinusOne : Sym d := .pow (.add (.const "gama") (.num (-1))) (.num (-1))

/-- `pow_to_constant`, opsc.py 163-186: negative powers of constants and `1/(gama - 1)` are replaced by generated constants. The powers are visited from
left to right; the order of `atoms(Pow)` is not specified, it affects the names only. -/
def powToConst : Sym d → Rc (Sym d) → Sym d × Rc (Sym d)
  | .add x y, s =>
    let a := powToConst x s
    let b := powToConst y a.2
    (.add a.1 b.1, b.2)
  | .mul x y, s =>
    let a := powToConst x s
    let b := powToConst y a.2
    (.mul a.1 b.1, b.2)
  | .pow x y, s =>
    if .pow x y = invGammaMinusOne ∨ (isConst x ∧ coeffIsNeg y) then
      let r := s.request .rcinv (.pow x y)
      (.const r.2, r.1)
    else
      let a := powToConst x s
      let b := powToConst y a.2
      (.pow a.1 b.1, b.2)
  | .mod x y, s =>
    let a := powToConst x s
    let b := powToConst y a.2
    (.mod a.1 b.1, b.2)
  | .max x y, s =>
    let a := powToConst x s
    let b := powToConst y a.2
    (.max a.1 b.1, b.2)
  | .fn f x, s =>
    let a := powToConst x s
    (.fn f a.1, a.2)
  | .pw r a b x y, s =>
    let pa := powToConst a s
    let pb := powToConst b pa.2
    let px := powToConst x pb.2
    let py := powToConst y px.2
    (.pw r pa.1 pb.1 px.1 py.1, py.2)
  | e, s => (e, s)

/-! ## Statements -/

variable (d)

/-- Left hand sides of the equations of a kernel: a dataset or a grid variable. (Assignments to global values: C33.) -/
inductive Lhs
  | data (b : String) (off : Fin d → ℤ)
  | gvar (v : String)
deriving DecidableEq

/-- An equation of a kernel. -/
structure Assign where
  lhs : Lhs d
  rhs : Sym d

/-- Conditions of a `GroupedPiecewise`. -/
inductive Cond
  | tt
  | rel (r : Rel) (x y : Sym d)
  | and (c e : Cond)
  | or (c e : Cond)
  | not (c : Cond)

/-- Entries of `Kernel.equations`: an equation or a `GroupedPiecewise`. -/
inductive Eqn
  | assign (a : Assign d)
  | grouped (branches : List (List (Assign d) × Cond d))

/-- C conditions: `assign` is the assignment expression `x = y`. -/
inductive CCond
  | tt
  | rel (r : Rel) (x y : CExpr d)
  | and (c e : CCond)
  | or (c e : CCond)
  | not (c : CCond)
  | assign (x y : CExpr d)
deriving DecidableEq

/-- The C assignment `lhs = rhs;`. -/
structure CAssign where
  lhs : Lhs d
  rhs : CExpr d
deriving DecidableEq

/-- Lines of a kernel body: an assignment, or a part of an `if … else if … else` chain with its block. -/
inductive Line
  | assign (a : CAssign d)
  | ifL (c : CCond d) (b : List (CAssign d))
  | elifL (c : CCond d) (b : List (CAssign d))
  | elseL (b : List (CAssign d))
deriving DecidableEq

variable {d}

/-- Settings of every call of `ccode` in a kernel (opsc.py 371-396). -/
def Mode.inKernel : Mode := ⟨false, true⟩

/-- `ccode` of an equation in a kernel, opsc.py 197-207: `pow_to_constant`, then `lhs = rhs`. -/
def printAssign (a : Assign d) (s : Rc (Sym d)) : CAssign d × Rc (Sym d) :=
  let r := powToConst a.rhs s
  let p := (print Mode.inKernel r.1 r.2).1
  (⟨a.lhs, p.1⟩, p.2)

/-- The equations of a branch, opsc.py 376-380. -/
def printAssigns : List (Assign d) → Rc (Sym d) → List (CAssign d) × Rc (Sym d)
  | [], s => ([], s)
  | a :: l, s =>
    let p := printAssign a s
    let q := printAssigns l p.2
    (p.1 :: q.1, q.2)

/-- `doprint` of a condition: an equality is printed with `==` (opsc.py 120-121). -/
def printInner : Cond d → Rc (Sym d) → CCond d × Rc (Sym d)
  | .tt, s => (.tt, s)
  | .rel r x y, s =>
    let a := (print Mode.inKernel x s).1
    let b := (print Mode.inKernel y a.2).1
    (.rel r a.1 b.1, b.2)
  | .and c e, s =>
    let a := printInner c s
    let b := printInner e a.2
    (.and a.1 b.1, b.2)
  | .or c e, s =>
    let a := printInner c s
    let b := printInner e a.2
    (.or a.1 b.1, b.2)
  | .not c, s =>
    let a := printInner c s
    (.not a.1, a.2)

/-- `ccode` of a condition, opsc.py 375, 383: an equality takes the branch of `ccode` for equations (197-207) and is printed with `=`. -/
def printCond : Cond d → Rc (Sym d) → CCond d × Rc (Sym d)
  | .rel .eq x y, s =>
    let x' := powToConst x s
    let y' := powToConst y x'.2
    let a := (print Mode.inKernel x'.1 y'.2).1
    let b := (print Mode.inKernel y'.1 a.2).1
    (.assign a.1 b.1, b.2)
  | c, s => printInner c s

/-- The pairs of a `GroupedPiecewise` after the first, opsc.py 382-397. -/
def printRest : List (List (Assign d) × Cond d) → Rc (Sym d) → List (Line d) × Rc (Sym d)
  | [], s => ([], s)
  | (eqs, .tt) :: l, s =>
    let b := printAssigns eqs s
    let r := printRest l b.2
    (.elseL b.1 :: r.1, r.2)
  | (eqs, c) :: l, s =>
    let p := printCond c s
    let b := printAssigns eqs p.2
    let r := printRest l b.2
    (.elifL p.1 b.1 :: r.1, r.2)

/-- A `GroupedPiecewise`, opsc.py 373-397. -/
def printGrouped : List (List (Assign d) × Cond d) → Rc (Sym d) → List (Line d) × Rc (Sym d)
  | [], s => ([], s)
  | (eqs, c) :: l, s =>
    let p := printCond c s
    let b := printAssigns eqs p.2
    let r := printRest l b.2
    (.ifL p.1 b.1 :: r.1, r.2)

/-- The lines of the kernel body, opsc.py 368-400. -/
def printBody : List (Eqn d) → Rc (Sym d) → List (Line d) × Rc (Sym d)
  | [], s => ([], s)
  | .assign a :: l, s =>
    let p := printAssign a s
    let r := printBody l p.2
    (.assign p.1 :: r.1, r.2)
  | .grouped bs :: l, s =>
    let p := printGrouped bs s
    let r := printBody l p.2
    (p.1 ++ r.1, r.2)

/-- The kernels are written one after the other, sharing the generated constants (`write_kernels`, opsc.py 425-426). -/
def printKernels : List (List (Eqn d)) → Rc (Sym d) → List (List (Line d)) × Rc (Sym d)
  | [], s => ([], s)
  | k :: l, s =>
    let p := printBody k s
    let r := printKernels l p.2
    (p.1 :: r.1, r.2)

/-- `atoms(GridVariable)` of an expression. -/
def Sym.gvars : Sym d → Finset String
  | .gvar v => {v}
  | .add x y => x.gvars ∪ y.gvars
  | .mul x y => x.gvars ∪ y.gvars
  | .pow x y => x.gvars ∪ y.gvars
  | .mod x y => x.gvars ∪ y.gvars
  | .max x y => x.gvars ∪ y.gvars
  | .fn _ x => x.gvars
  | .pw _ a b x y => a.gvars ∪ b.gvars ∪ (x.gvars ∪ y.gvars)
  | _ => ∅

def Lhs.gvars : Lhs d → Finset String
  | .gvar v => {v}
  | _ => ∅

def Assign.gvars (a : Assign d) : Finset String := a.lhs.gvars ∪ a.rhs.gvars

def Cond.gvars : Cond d → Finset String
  | .tt => ∅
  | .rel _ x y => x.gvars ∪ y.gvars
  | .and c e => c.gvars ∪ e.gvars
  | .or c e => c.gvars ∪ e.gvars
  | .not c => c.gvars

/-- Finite union over a list. -/
def unions {α : Type} (l : List α) (f : α → Finset String) : Finset String := l.foldr (fun a s => f a ∪ s) ∅

def Eqn.gvars : Eqn d → Finset String
  | .assign a => a.gvars
  | .grouped bs => unions bs fun b => unions b.1 Assign.gvars ∪ b.2.gvars

/-- The grid variables declared at the top of the kernel with value `0.0`, opsc.py 366-369 and 401-402. -/
def declaredVars (eqs : List (Eqn d)) : Finset String := unions eqs Eqn.gvars

/-! ## Meaning of the C text -/

variable {K : Type} [Field K] [LinearOrder K]

/-- A C value. -/
inductive Val (K : Type)
  | int (n : ℤ)
  | dbl (x : K)

/-- Conversion to `double`. -/
def Val.toK : Val K → K
  | .int n => n
  | .dbl x => x

/-- The mathematical functions: `fn` the named ones, `pow` the power function. -/
structure Lib (K : Type) where
  pow : K → K → K
  fn : String → K → K

/-- What a kernel function sees: the program wide constants, the global values, the position of the grid point. -/
structure Outer (d : ℕ) (K : Type) where
  const : String → K
  glob : String → K
  idx : Fin d → ℤ

/-- What a kernel function can change: array elements relative to the grid point, local variables. -/
structure Mem (d : ℕ) (K : Type) where
  data : String → (Fin d → ℤ) → K
  loc : String → K

/-- Usual arithmetic conversions of C. -/
def arith (fi : ℤ → ℤ → ℤ) (fd : K → K → K) : Val K → Val K → Val K
  | .int a, .int b => .int (fi a b)
  | x, y => .dbl (fd x.toK y.toK)

/-- Truth of a relation. -/
def Rel.holds {A : Type} [LinearOrder A] : Rel → A → A → Prop
  | .lt, a, b => a < b
  | .le, a, b => a ≤ b
  | .gt, a, b => b < a
  | .ge, a, b => b ≤ a
  | .eq, a, b => a = b
  | .ne, a, b => a ≠ b

instance {A : Type} [LinearOrder A] (r : Rel) (a b : A) : Decidable (r.holds a b) := by
  cases r <;> simp only [Rel.holds] <;> infer_instance

/-- Truncation towards zero. -/
def trunc [FloorRing K] (x : K) : ℤ := if 0 ≤ x then ⌊x⌋ else ⌈x⌉

/-- Value of a C expression. A name refers to the local variable when one is declared, else to the program wide constant; a pointer without `*` in an
arithmetic expression does not compile: here it is met when the name of a global value is printed bare (`globs`). -/
def CExpr.eval [FloorRing K] (L : Lib K) (decl globs : Finset String) (o : Outer d K) (st : Mem d K) : CExpr d → Option (Val K)
  | .ilit n => some (.int n)
  | .dlit n => some (.dbl n)
  | .flt q => some (.dbl q)
  | .var n => if n ∈ decl then some (.dbl (st.loc n)) else if n ∈ globs then none else some (.dbl (o.const n))
  | .access b off => some (.dbl (st.data b off))
  | .deref g => some (.dbl (o.glob g))
  | .idx k => some (.int (o.idx k))
  | .add x y => do some (arith (· + ·) (· + ·) (← x.eval L decl globs o st) (← y.eval L decl globs o st))
  | .mul x y => do some (arith (· * ·) (· * ·) (← x.eval L decl globs o st) (← y.eval L decl globs o st))
  | .div x y => do some (arith Int.tdiv (· / ·) (← x.eval L decl globs o st) (← y.eval L decl globs o st))
  | .pow x y => do some (.dbl (L.pow (← x.eval L decl globs o st).toK (← y.eval L decl globs o st).toK))
  | .fmod x y => do
    let a := (← x.eval L decl globs o st).toK
    let b := (← y.eval L decl globs o st).toK
    some (.dbl (a - b * (trunc (a / b) : ℤ)))
  | .fmax x y => do some (.dbl (max (← x.eval L decl globs o st).toK (← y.eval L decl globs o st).toK))
  | .call f x => do some (.dbl (L.fn f (← x.eval L decl globs o st).toK))
  | .tern r a b x y => do
    let va := (← a.eval L decl globs o st).toK
    let vb := (← b.eval L decl globs o st).toK
    let vx ← x.eval L decl globs o st
    let vy ← y.eval L decl globs o st
    some (match vx, vy with
      | .int i, .int j => .int (if r.holds va vb then i else j)
      | _, _ => .dbl (if r.holds va vb then vx.toK else vy.toK))

/-- Store into an lvalue. -/
def Mem.set (st : Mem d K) (l : Lhs d) (v : K) : Mem d K :=
  match l with
  | .data b off => { st with data := Function.update st.data b (Function.update (st.data b) off v) }
  | .gvar n => { st with loc := Function.update st.loc n v }

/-- The lvalue denoted by a C expression; `none`: the assignment does not compile. -/
def CExpr.lvalue (decl : Finset String) : CExpr d → Option (Lhs d)
  | .access b off => some (.data b off)
  | .var n => if n ∈ decl then some (.gvar n) else none
  | _ => none

/-- Evaluation of a C condition: truth value and memory after it. `&&` and `||` do not evaluate their second operand when the first decides. -/
def CCond.run [FloorRing K] (L : Lib K) (decl globs : Finset String) (o : Outer d K) : CCond d → Mem d K → Option (Bool × Mem d K)
  | .tt, st => some (true, st)
  | .rel r x y, st => do
    let a ← x.eval L decl globs o st
    let b ← y.eval L decl globs o st
    some (decide (r.holds a.toK b.toK), st)
  | .and c e, st => do
    let a ← c.run L decl globs o st
    if a.1 then e.run L decl globs o a.2 else some a
  | .or c e, st => do
    let a ← c.run L decl globs o st
    if a.1 then some a else e.run L decl globs o a.2
  | .not c, st => do
    let a ← c.run L decl globs o st
    some (!a.1, a.2)
  | .assign x y, st => do
    let l ← x.lvalue decl
    let b ← y.eval L decl globs o st
    some (decide (b.toK ≠ 0), st.set l b.toK)

/-- Execution of an assignment. -/
def CAssign.run [FloorRing K] (L : Lib K) (decl globs : Finset String) (o : Outer d K) (a : CAssign d) (st : Mem d K) : Option (Mem d K) := do
  let v ← a.rhs.eval L decl globs o st
  some (st.set a.lhs v.toK)

/-- Execution of the assignments of a block. -/
def runAssigns [FloorRing K] (L : Lib K) (decl globs : Finset String) (o : Outer d K) : List (CAssign d) → Mem d K → Option (Mem d K)
  | [], st => some st
  | a :: l, st => do runAssigns L decl globs o l (← a.run L decl globs o st)

/-- Where execution is with respect to a chain: not inside one, in a chain of which a branch was taken, in a chain of which none was taken yet. -/
inductive Chain
  | out | taken | pending

/-- Execution of lines; `none`: the text is not a C program (`else` without `if`) or an expression does not compile. -/
def runLines [FloorRing K] (L : Lib K) (decl globs : Finset String) (o : Outer d K) : Chain → List (Line d) → Mem d K → Option (Mem d K)
  | _, [], st => some st
  | _, .assign a :: l, st => do runLines L decl globs o .out l (← a.run L decl globs o st)
  | _, .ifL c b :: l, st => do
    let t ← c.run L decl globs o st
    if t.1 then runLines L decl globs o .taken l (← runAssigns L decl globs o b t.2)
    else runLines L decl globs o .pending l t.2
  | .out, .elifL _ _ :: _, _ => none
  | .taken, .elifL _ _ :: l, st => runLines L decl globs o .taken l st
  | .pending, .elifL c b :: l, st => do
    let t ← c.run L decl globs o st
    if t.1 then runLines L decl globs o .taken l (← runAssigns L decl globs o b t.2)
    else runLines L decl globs o .pending l t.2
  | .out, .elseL _ :: _, _ => none
  | .taken, .elseL _ :: l, st => runLines L decl globs o .out l st
  | .pending, .elseL b :: l, st => do runLines L decl globs o .out l (← runAssigns L decl globs o b st)

/-- A call of the kernel function at one grid point: local variables start at `0.0`. `globs` are the pointer parameters of the global values. -/
def callKernel [FloorRing K] (L : Lib K) (globs : Finset String) (o : Outer d K) (eqs : List (Eqn d)) (s : Rc (Sym d))
    (data : String → (Fin d → ℤ) → K) : Option (String → (Fin d → ℤ) → K) :=
  (runLines L (declaredVars eqs) globs o .out (printBody eqs s).1 ⟨data, fun _ => 0⟩).map Mem.data

end OpenSBLI.CCode
