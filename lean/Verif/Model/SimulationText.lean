import Verif.Model.Simulation
import Verif.Model.Central
import Verif.Model.Closures
import Verif.Props.C75_CCode
import Mathlib.Algebra.Order.Archimedean.Real.Basic

/-!
# The C text of a simulation with central differences

The equations of the kernels of `Model/Simulation.lean` with the derivatives replaced by their formulas (`CentralDerivative._discretise_derivative`,
core/opensblifunctions.py 485-534, with the boundary closures of `Model/Closures.lean`), printed by `Model/CCode.lean`, and the program run on arrays identified
by their names: every kernel is a parallel loop (`ops_par_loop`) that calls the printed function at the points of its range.

Simplified: in `Text.run` the boundary conditions, and the kernels of equations that are no expressions of `Ex` and have no text in the model, are functions on arrays, as
in `Model/Simulation.lean`; `Text.runText` runs the printed kernels and the exchanges of the boundary conditions; SymPy's order of terms and simplifications are not modelled, except that terms with weight zero disappear; a derivative all
weights of which are zero raises a `ValueError` in the code (511-512) and is `0` here; a closed derivative of an order above two raises a
`NotImplementedError` in the code and has no formulas at the boundary here.
-/
namespace OpenSBLI.Sim
open OpenSBLI.Reg OpenSBLI.CCode

variable {D n : ℕ}

/-- What the boundary conditions of a block call, in the order of `apply_boundary_conditions` (core/block.py 203-219): for each direction and side a kernel, or an exchange of the arrays
(`ExchangeSelf`, code_generation/opsc.py 555-593). -/
inductive BcCall (D : ℕ) where
  | kernel (range : Ranges.Kernel D) (eqs : List (Eqn D))
  | exchange (t : Ranges.Transfer D) (arrays : List String)

/-- What the text of a program depends on besides its kernels: the names of the arrays (`wk%d`, core/grid.py 15-23, `Residual%d`, opensbliequations.py 245,
`%s_RKold`, rk_sbli.py 139, `tempRK_%s`, rk_LS.py 177, each followed by the number of the block), the names of the spacings (core/grid.py 150-173), the order
of the scheme, the library of C, the constants registered and requested before the kernels are written, the values of the constants in the input file and
the arrays of coefficients (`double t[] = {...};` with the values of the scheme, opsc.py 633-639; the registry here has the other constants). For the
boundaries: the closures of the directions (`check_modify_central`, bc_core.py 46-61), the names of the numbers of points (core/grid.py 136-147) and the digits
of `bc4`, which are SymPy `Float`s (Carpenter_scheme.py 100-102). `fns` gives the equations of the kernels of other schemes (`Model/ShockText.lean`), `bcs` what
the boundary conditions call. -/
structure Text (D : ℕ) where
  names : Arr → String
  delta : Fin D → String
  order : ℕ
  lib : Lib ℝ
  ops : List (Rc.Op (Sym D))
  inputs : String → ℝ
  table : String → List ℝ
  mods : Fin D → Closure.Mods
  points : Fin D → String
  carpenter : Fin 4 → Fin 6 → ℚ
  fns : FnKer D → Option (List (Eqn D)) := fun _ => none
  bcs : List (BcCall D) := []

variable (T : Text D)

/-- The registry before the kernels are written. -/
def Text.start : Rc (Sym D) := Rc.empty.performs T.ops

/-- `S.One/block.deltas[dire]**order`, opensblifunctions.py 518. -/
def Text.inverse (d : Fin D) (k : ℕ) : Sym D := .pow (.const (T.delta d)) (.num (-(k : ℚ)))

/-- The constant `get_inverse_deltas` returns for it, helperfunctions.py 64-77. -/
def Text.invName (d : Fin D) (k : ℕ) : String := (T.start.existing.lookup (T.inverse d k)).getD ""

/-- A sum of terms. -/
def sumSym : List (Sym D) → Sym D
  | [] => .num 0
  | [x] => x
  | x :: y :: l => .add x (sumSym (y :: l))

/-! ### Boundary closures -/

/-- `second_der_coefficients`, Carpenter_scheme.py 72-79 and reduced_access_scheme.py 76-83: rational numbers after `nsimplify`. -/
def secondQ : Fin 2 → Fin 5 → ℚ := ![![35/12, -104/12, 114/12, -56/12, 11/12], ![11/12, -20/12, 6/12, 4/12, -1/12]]

/-- `first_der_coefficients`, reduced_access_scheme.py 34-40. -/
def accessQ : Fin 4 → Fin 5 → ℚ :=
  ![![-25/12, 48/12, -36/12, 16/12, -3/12], ![-3/12, -10/12, 18/12, -6/12, 1/12], ![25/12, -48/12, 36/12, -16/12, 3/12], ![3/12, 10/12, -18/12, 6/12, -1/12]]

/-- One output function, reduced_order_scheme.py 26-33 and 48-55. -/
def orderQ (side : Bool) (points : List ℤ) (weights : List ℚ) : List (ℤ × ℚ) :=
  (points.zip weights).map fun p => (Closure.fact side * p.1, (Closure.fact side : ℚ) * p.2)

/-- The formulas of a closure as they are printed: offsets and weights (`weight_function_points`, Carpenter_scheme.py 38-54, reduced_access_scheme.py 42-58;
`first_derivative` and `second_derivative`, reduced_order_scheme.py 13-56). -/
def closureQ (B : Fin 4 → Fin 6 → ℚ) (side : Bool) : Closure.Kind → ℕ → List (List (ℤ × ℚ))
  | .carpenter, 1 => (List.finRange 4).map fun (i : Fin 4) => (List.finRange 6).map fun (k : Fin 6) => (Closure.offset side k i, (if side then -1 else 1) * B i k)
  | .reducedAccess, 1 => (List.finRange 2).map fun (i : Fin 2) => (List.finRange 5).map fun (k : Fin 5) => (Closure.offset side k i, accessQ (if side then i.natAdd 2 else i.castAdd 2) k)
  | .reducedOrder, 1 => [orderQ side [0, 1, 2] [-(3/2), 2, -(1/2)], orderQ side [-1, 0, 1, 2] [-(1/3), -(1/2), 1, -(1/6)]]
  | .reducedOrder, 2 => [orderQ side [0, 1, 2, 3] [2, -5, 4, -1], orderQ side [-1, 0, 1, 2, 3] [11/12, -(5/3), 1/2, 1/3, -(1/12)]]
  | _, 2 => (List.finRange 2).map fun (i : Fin 2) => (List.finRange 5).map fun (k : Fin 5) => (Closure.offset side k i, secondQ i k)
  | _, _ => []

/-- A weight: a `Float` for the first derivatives of Carpenter, a rational number otherwise. -/
def closureWeight (K : Closure.Kind) (k : ℕ) (q : ℚ) : Sym D := if K = .carpenter ∧ k = 1 then .flt q else .num q

/-- The formulas of one side with the grid index at which they apply, `expr_cond_pairs` (Carpenter_scheme.py 66-69): `loc no` for the formula number `no`. -/
def locate (loc : ℕ → Sym D) (g : ℤ → Sym D) (w : ℚ → Sym D) : List (List (ℤ × ℚ)) → ℕ → List (Sym D × Sym D)
  | [], _ => []
  | r :: rs, no => (sumSym (r.map fun q => .mul (w q.2) (g q.1)), loc no) :: locate loc g w rs (no + 1)

/-- The formulas at both ends of a direction, opensblifunctions.py 527-531, with the start of the counting (`block.ranges` is `[0, np]`) and its direction
(Carpenter_scheme.py 59-65). -/
def Text.closed (d : Fin D) (k : ℕ) (g : ℤ → Sym D) : List (Sym D × Sym D) :=
  (match (T.mods d).left with
    | none => []
    | some K => locate (fun no => .num (0 + (no : ℚ))) g (closureWeight K k) (closureQ T.carpenter false K k) 0) ++
  match (T.mods d).right with
    | none => []
    | some K => locate (fun no => .add (.const (T.points d)) (.num (-1 - (no : ℚ)))) g (closureWeight K k) (closureQ T.carpenter true K k) 0

/-- The `Piecewise` of the formulas and the central one, opensblifunctions.py 532-533. -/
def pieces (d : Fin D) (l : List (Sym D × Sym D)) (central : Sym D) : Sym D := l.foldr (fun b rest => .pw .eq (.idx d) b.2 b.1 rest) central

/-- The expression in a kernel, at the point with relative index `off`. `t[stage]` is printed as the value of the pointer handed to the kernel (opsc.py
139-151, kernel.py 258-262). A derivative is the sum of the weights times the expression with its datasets moved to the points of the scheme,
opensblifunctions.py 503-510, or the formula of a closure where the grid index is close to a boundary (the index of the point at which the kernel is called,
whatever `off` is), times the inverse power of the spacing (518-520). -/
noncomputable def Ex.sym : Ex D → P D → Sym D
  | .num z, _ => .num z
  | .const c, _ => .const c
  | .indexed t, _ => .glob t
  | .arr a, off => .data (T.names a) off
  | .cd d k e, off => .mul (.const (T.invName d k)) (pieces d (T.closed d k fun p => e.sym (shift off d p))
      (sumSym (((Central.points T.order).sort (· ≤ ·)).filterMap fun p => if Central.weight ℚ T.order k p = 0 then none else
        some (.mul (.num (Central.weight ℚ T.order k p)) (e.sym (shift off d p))))))
  | .add a b, off => .add (a.sym off) (b.sym off)
  | .mul a b, off => .mul (a.sym off) (b.sym off)
  | .pow a b, off => .pow (a.sym off) (b.sym off)
  | .fn f e, off => .fn f (e.sym off)

/-- The equations of a kernel as they are printed. -/
noncomputable def Ker.printed (k : Ker D) : List (Eqn D) := k.eqs.map fun q => .assign ⟨.data (T.names q.1) 0, q.2.sym T 0⟩

/-- The arrays of coefficients in an expression. -/
def Ex.tables : Ex D → List String
  | .indexed t => [t]
  | .cd _ _ e => e.tables
  | .add a b => a.tables ++ b.tables
  | .mul a b => a.tables ++ b.tables
  | .pow a b => a.tables ++ b.tables
  | .fn _ e => e.tables
  | _ => []

/-- The pointer parameters of the function of a kernel. -/
def Ker.globs (k : Ker D) : Finset String := (k.eqs.flatMap fun q => q.2.tables).toFinset

/-- The same for what is called. -/
def Call.globs : Call D → Finset String
  | .comp k => k.globs
  | _ => ∅

/-- The equations of what is called, as they are printed; `none` for what has no text in the model. -/
noncomputable def Text.printed : Call D → Option (List (Eqn D))
  | .comp k => some (k.printed T)
  | .fn k => T.fns k
  | .bc => none

/-- The texts of the kernels of the boundary conditions. -/
def Text.bcTexts : List (List (Eqn D)) := T.bcs.filterMap fun | .kernel _ eqs => some eqs | .exchange _ _ => none

/-- The texts of all kernels of what is called. -/
noncomputable def Text.texts : Call D → List (List (Eqn D))
  | .bc => T.bcTexts
  | c => (T.printed c).toList

variable (prg : List (Alg.Node (Call D)))

open Classical in
/-- The kernels in the order of `write_kernels`, opsc.py 421-426: those of the program, each once. -/
noncomputable def written : List (Call D) := Alg.loopAlg prg

/-- The registry after all kernels have been written. -/
noncomputable def Text.registry : Rc (Sym D) := (printKernels ((written prg).flatMap T.texts) T.start).2

open Classical in
/-- The registry when the function of a kernel is printed. -/
noncomputable def Text.before (c : Call D) : Rc (Sym D) :=
  (printKernels (((written prg).takeWhile fun c' => decide (c' ≠ c)).flatMap T.texts) T.start).2

/-- The values of all constants of the program (opsc.py 478-490). The text of each definition has the value of the expression (`C75_definition_text`). -/
noncomputable def Text.const : String → ℝ := programConstants T.lib T.inputs (T.registry prg)

/-- All arrays of a program, by name. -/
abbrev Arrays (D : ℕ) := String → P D → ℝ

/-- What a kernel function sees at a point in a stage: `ops_par_loop` hands over the address of `t[stage]` (kernel.py 258-262). -/
noncomputable def Text.outer (stage : ℤ) (x : P D) : Outer D ℝ := ⟨T.const prg, fun t => (T.table t).getD stage.toNat 0, x⟩

/-- The printed function of a kernel, called at a point; `none`: it does not compile. -/
noncomputable def Text.callAt (c : Call D) (stage : ℤ) (a : Arrays D) (x : P D) : Option (Arrays D) :=
  (T.printed c).bind fun eqs => (callKernel T.lib c.globs (T.outer prg stage x) eqs (T.before prg c) fun b off => a b (x + off)).map fun data b y => data b (y - x)

/-- The effect of an event on the arrays. Boundary conditions and kernels without a text act on the arrays through their names. -/
noncomputable def Text.exec (pts : Ranges.Kernel D → List (P D)) (sol : Fin n → String) (B : (Fin n → P D → ℝ) → Fin n → P D → ℝ) :
    Alg.Event (Call D) → Arrays D → Option (Arrays D)
  | .call (.comp k) e, a => (pts k.range).foldlM (T.callAt prg (.comp k) (e.stage.getD 0)) a
  | .call .bc _, a => some fun b => match (List.finRange n).find? fun i : Fin n => T.names (.data (sol i)) = b with
    | some i => B (fun j => a (T.names (.data (sol j)))) i
    | none => a b
  | .call (.fn k) e, a => if (T.fns k).isSome then (pts k.range).foldlM (T.callAt prg (.fn k) (e.stage.getD 0)) a
    else some ((pts k.range).foldl (fun a x => k.eqs.foldl (fun a q b y =>
      if b = T.names q.1 ∧ y = x then q.2 ⟨T.const prg, T.table, e.stage.getD 0, fun _ _ _ _ => 0, T.lib.pow, T.lib.fn⟩ (fun A => a (T.names A)) x else a b y) a) a)
  | _, a => some a

/-- The run of events of a program. -/
noncomputable def Text.run (pts : Ranges.Kernel D → List (P D)) (sol : Fin n → String) (B : (Fin n → P D → ℝ) → Fin n → P D → ℝ)
    (events : List (Alg.Event (Call D))) (a : Arrays D) : Option (Arrays D) := events.foldlM (fun a v => T.exec prg pts sol B v a) a

/-! ### Printed boundary conditions -/

/-- A printed function called at a point, the registry being `s` when it is printed. -/
noncomputable def Text.callEqs (s : Rc (Sym D)) (eqs : List (Eqn D)) (stage : ℤ) (a : Arrays D) (x : P D) : Option (Arrays D) :=
  (callKernel T.lib ∅ (T.outer prg stage x) eqs s fun b off => a b (x + off)).map fun data b y => data b (y - x)

/-- The boundary conditions one after the other: the loop of a kernel over its points, or an exchange of all listed arrays. -/
noncomputable def Text.runBcs (pts : Ranges.Kernel D → List (P D)) (stage : ℤ) : List (BcCall D) → Rc (Sym D) → Arrays D → Option (Arrays D)
  | [], _, a => some a
  | .kernel r eqs :: l, s, a => ((pts r).foldlM (T.callEqs prg s eqs stage) a).bind (Text.runBcs pts stage l (printBody eqs s).2)
  | .exchange t names :: l, s, a => Text.runBcs pts stage l s fun b => if b ∈ names then t.apply (a b) else a b

/-- The effect of an event, with printed boundary conditions. -/
noncomputable def Text.execText (pts : Ranges.Kernel D → List (P D)) : Alg.Event (Call D) → Arrays D → Option (Arrays D)
  | .call .bc e, a => T.runBcs prg pts (e.stage.getD 0) T.bcs (T.before prg .bc) a
  | v, a => T.exec prg pts (n := 0) Fin.elim0 id v a

/-- The run of events with printed boundary conditions. -/
noncomputable def Text.runText (pts : Ranges.Kernel D → List (P D)) (events : List (Alg.Event (Call D))) (a : Arrays D) : Option (Arrays D) :=
  events.foldlM (fun a v => T.execText prg pts v a) a

end OpenSBLI.Sim
