import Verif.Model.ShockProgram

/-!
# The equations of the reconstruction kernel

`get_characteristic_equations` (schemes/spatial/shock_capturing.py 257-265): the list of equations in grid variables which `LLFWeno.discretise` and `LLFTeno.discretise` add to the reconstruction kernel of a direction
(weno.py 510-515, teno.py 512-524), in their order and with the names of their variables, and their execution.

`Model/ShockProgram.lean` takes the values stored by this kernel from `Llf.interfaceFlux`; C81 proves that the equations compute them.

Simplified: the algebra of SymPy (`factor`, `subs`, comparison with zero) is a parameter with a contract, `Sympy`; `horner` (weno.py 204), which only rearranges a polynomial, is left out; the replacement of the symbols `f[p]`,
`beta_%d`, … of a reconstruction class by the expressions and grid variables of a component (`update_quantities`, weno.py 228-246, teno.py 263-301) is done while the expressions are built; the sensors of the WENO filter (C76) and
the storing of the adaptive cut-off (teno.py 439-442) are left out.
-/
namespace OpenSBLI.Recon
open Sim Weno

/-- Grid variables of the kernel. -/
inductive Var where
  | avg (t : String)
  | roeInv
  | invA
  | invRho
  | invMet
  | lev (i j : ℕ)
  | cf (i j : ℕ)
  | cs (i j : ℕ)
  | lam (i : ℕ)
  | ct
  | beta (r : ℕ)
  | alpha (r : ℕ)
  | invAlpha
  | omega (r : ℕ)
  | delta (r : ℕ)
  | invOmega
  | recon (i : ℕ)
  deriving DecidableEq

/-- Names of the grid variables in direction `d`: averages shock_capturing.py 308 with averaging.py 50, 58, 80, 82, 90, 104, 113; inverses 321-324; eigenvectors 202-205 with 214; characteristic fluxes and solution 505 and 457;
wave speeds 192-195 with 214; cut-off teno.py 362; weights weno.py 195, 322, 331, 334 and teno.py 179, 211, 413, 453, 454; reconstruction shock_capturing.py 42. -/
def Var.name (d : ℕ) : Var → String
  | .avg t => "AVG_" ++ toString d ++ "_" ++ t
  | .roeInv => "AVG_" ++ toString d ++ "_inv_rho"
  | .invA => "inv_AVG_a"
  | .invRho => "inv_AVG_rho"
  | .invMet => "inv_AVG_met_fact"
  | .lev i j => "AVG_" ++ toString d ++ "_" ++ toString d ++ "_LEV_" ++ toString i ++ toString j
  | .cf i j => "CF_" ++ toString i ++ toString j
  | .cs i j => "CS_" ++ toString i ++ toString j
  | .lam i => "max_lambda_" ++ toString d ++ "_" ++ toString i ++ toString i
  | .ct => "TENO_CT"
  | .beta r => "beta_" ++ toString r
  | .alpha r => "alpha_" ++ toString r
  | .invAlpha => "inv_alpha_sum"
  | .omega r => "omega_" ++ toString r
  | .delta r => "delta_" ++ toString r
  | .invOmega => "inv_omega_sum"
  | .recon i => "Recon_" ++ toString i

/-- Right hand sides. `at e p` is the expression `e` with every dataset moved by `p` in the direction of the kernel (`increment_dataset`, `convert_symbolic_to_dataset`), `cut a c` is
`GroupedPiecewise((0.0, a < c), (1.0, True))` (teno.py 457-459), `tenFloor a` is `10.0**floor(a)`. -/
inductive Term (V : Type) (D : ℕ) where
  | num (q : ℝ)
  | const (c : String)
  | var (v : V)
  | at (e : Ex D) (p : ℤ)
  | add (a b : Term V D)
  | mul (a b : Term V D)
  | pow (a b : Term V D)
  | npow (a : Term V D) (k : ℕ)
  | inv (a : Term V D)
  | sqrt (a : Term V D)
  | abs (a : Term V D)
  | max (a b : Term V D)
  | fn (f : String) (a : Term V D)
  | cut (a c : Term V D)
  | tenFloor (a : Term V D)

variable {V W : Type} {D n : ℕ}

/-- `sum` of a list. -/
def Term.sum (l : List (Term V D)) : Term V D := l.foldr .add (.num 0)

/-- Variables occurring. -/
def Term.vars : Term V D → List V
  | .var v => [v]
  | .add a b => a.vars ++ b.vars
  | .mul a b => a.vars ++ b.vars
  | .pow a b => a.vars ++ b.vars
  | .max a b => a.vars ++ b.vars
  | .cut a b => a.vars ++ b.vars
  | .npow a _ => a.vars
  | .inv a => a.vars
  | .sqrt a => a.vars
  | .abs a => a.vars
  | .fn _ a => a.vars
  | .tenFloor a => a.vars
  | _ => []

/-- Renaming of variables. -/
def Term.map (g : V → W) : Term V D → Term W D
  | .num q => .num q
  | .const c => .const c
  | .var v => .var (g v)
  | .at e p => .at e p
  | .add a b => .add (a.map g) (b.map g)
  | .mul a b => .mul (a.map g) (b.map g)
  | .pow a b => .pow (a.map g) (b.map g)
  | .npow a k => .npow (a.map g) k
  | .inv a => .inv (a.map g)
  | .sqrt a => .sqrt (a.map g)
  | .abs a => .abs (a.map g)
  | .max a b => .max (a.map g) (b.map g)
  | .fn f a => .fn f (a.map g)
  | .cut a b => .cut (a.map g) (b.map g)
  | .tenFloor a => .tenFloor (a.map g)

noncomputable section

/-- Value at a point `x` of the arrays `m`, for a kernel of direction `d`; `σ` holds the values of the grid variables. -/
def Term.eval (I : Interp D) (m : Mem D) (d : Fin D) (x : P D) (σ : V → ℝ) : Term V D → ℝ
  | .num q => q
  | .const c => I.const c
  | .var v => σ v
  | .at e p => e.eval I m (shift x d p)
  | .add a b => a.eval I m d x σ + b.eval I m d x σ
  | .mul a b => a.eval I m d x σ * b.eval I m d x σ
  | .pow a b => I.pow (a.eval I m d x σ) (b.eval I m d x σ)
  | .npow a k => a.eval I m d x σ ^ k
  | .inv a => (a.eval I m d x σ)⁻¹
  | .sqrt a => Real.sqrt (a.eval I m d x σ)
  | .abs a => |a.eval I m d x σ|
  | .max a b => Max.max (a.eval I m d x σ) (b.eval I m d x σ)
  | .fn f a => I.fn f (a.eval I m d x σ)
  | .cut a c => if a.eval I m d x σ < c.eval I m d x σ then 0 else 1
  | .tenFloor a => (10 : ℝ) ^ (⌊a.eval I m d x σ⌋ : ℤ)

open Classical in
/-- `term.replace(old, new)`, shock_capturing.py 434-437. -/
def Term.replace (t old : Term V D) (new : V) : Term V D :=
  if t = old then .var new else
  match t with
  | .add a b => .add (a.replace old new) (b.replace old new)
  | .mul a b => .mul (a.replace old new) (b.replace old new)
  | .pow a b => .pow (a.replace old new) (b.replace old new)
  | .npow a k => .npow (a.replace old new) k
  | .inv a => .inv (a.replace old new)
  | .sqrt a => .sqrt (a.replace old new)
  | .abs a => .abs (a.replace old new)
  | .max a b => .max (a.replace old new) (b.replace old new)
  | .fn f a => .fn f (a.replace old new)
  | .cut a b => .cut (a.replace old new) (b.replace old new)
  | .tenFloor a => .tenFloor (a.replace old new)
  | t => t

/-- `for old, new in zip(to_be_replaced, inverses)`. -/
def Term.replaceAll (l : List (Term V D × V)) (t : Term V D) : Term V D := l.foldl (fun t q => t.replace q.1 q.2) t

/-- Equations and their execution, in order. -/
def run (I : Interp D) (m : Mem D) (d : Fin D) (x : P D) [DecidableEq V] (l : List (V × Term V D)) (σ : V → ℝ) : V → ℝ :=
  l.foldl (fun σ q => Function.update σ q.1 (q.2.eval I m d x σ)) σ

/-! ## SymPy -/

/-- What the code asks of SymPy: `factor`; whether an expression is zero (`rhs_matrix[no] != 0`, shock_capturing.py 243); `subs` of expressions by variables (327-330); `subs` of `gama - 1` (333-339). -/
structure Sympy (D : ℕ) where
  factor : Term Var D → Term Var D
  isZero : Term Var D → Bool
  subs : List (Term Var D × Var) → Term Var D → Term Var D
  gamma : Term Var D → Term Var D

/-- No singular powers in the value at `x` of an expression over the arrays: bases of powers are positive, except for integer exponents, where they are not zero, and natural exponents. -/
def exRegular (I : Interp D) (m : Mem D) : Ex D → P D → Prop
  | .add a b => fun x => exRegular I m a x ∧ exRegular I m b x
  | .mul a b => fun x => exRegular I m a x ∧ exRegular I m b x
  | .fn _ a => fun x => exRegular I m a x
  | .pow a b => fun x => exRegular I m a x ∧ exRegular I m b x ∧ ((∃ k : ℕ, b = .num k) ∨ ((∃ z : ℤ, b = .num z) ∧ a.eval I m x ≠ 0) ∨ 0 < a.eval I m x)
  | _ => fun _ => True

/-- The same for a right hand side. -/
def Term.Regular (I : Interp D) (m : Mem D) (d : Fin D) (x : P D) (σ : V → ℝ) : Term V D → Prop
  | .at e p => exRegular I m e (shift x d p)
  | .add a b => a.Regular I m d x σ ∧ b.Regular I m d x σ
  | .mul a b => a.Regular I m d x σ ∧ b.Regular I m d x σ
  | .max a b => a.Regular I m d x σ ∧ b.Regular I m d x σ
  | .cut a b => a.Regular I m d x σ ∧ b.Regular I m d x σ
  | .pow a b => a.Regular I m d x σ ∧ b.Regular I m d x σ ∧ ((∃ k : ℕ, b = .num k) ∨ ((∃ z : ℤ, b = .num z) ∧ a.eval I m d x σ ≠ 0) ∨ 0 < a.eval I m d x σ)
  | .npow a _ => a.Regular I m d x σ
  | .inv a => a.Regular I m d x σ ∧ a.eval I m d x σ ≠ 0
  | .sqrt a => a.Regular I m d x σ ∧ 0 ≤ a.eval I m d x σ
  | .abs a => a.Regular I m d x σ
  | .fn _ a => a.Regular I m d x σ
  | .tenFloor a => a.Regular I m d x σ
  | _ => True

/-- The contract of SymPy: where an expression has no singular powers its value is kept by `factor`; by `subs` if the new variables have the values of the expressions they replace, which are not numbers; and by `subs` of `gama - 1` by
`gamma_m1` if this constant has that value. What is taken for zero is zero. No variables appear which were not there. -/
structure Sympy.Sound (S : Sympy D) (I : Interp D) : Prop where
  factor : ∀ m d x σ t, t.Regular I m d x σ → (S.factor t).Regular I m d x σ ∧ (S.factor t).eval I m d x σ = t.eval I m d x σ
  zero : ∀ m d x σ t, S.isZero t = true → t.Regular I m d x σ → t.eval I m d x σ = 0
  subs : ∀ m d x σ l t, (∀ q ∈ l, (∀ r, q.1 ≠ .num r) ∧ σ q.2 = q.1.eval I m d x σ) → t.Regular I m d x σ →
    (S.subs l t).Regular I m d x σ ∧ (S.subs l t).eval I m d x σ = t.eval I m d x σ
  gamma : I.const "gamma_m1" = I.const "gama" - 1 → ∀ m d x σ t, t.Regular I m d x σ → (S.gamma t).eval I m d x σ = t.eval I m d x σ
  factor_vars : ∀ t, ∀ v ∈ (S.factor t).vars, v ∈ t.vars
  subs_vars : ∀ l t, ∀ v ∈ (S.subs l t).vars, v ∈ t.vars ∨ v ∈ l.map Prod.snd
  gamma_vars : ∀ t, ∀ v ∈ (S.gamma t).vars, v ∈ t.vars

/-! ## Expressions of the problem -/

/-- The problem of a kernel: direction, averaging procedure, the expression `1/factor` of the metric terms when the grid has cross metrics (euler_eigensystem.py 31-33), the sensor of the adaptive TENO scheme. -/
structure Input (D n : ℕ) where
  C : Shock D n
  d : Fin D
  roe : Bool
  invMetric : Option (Ex D)
  sensor : Option (Ex D)

variable (K : Input D n) (S : Sympy D)

/-- `convert_matrix_to_grid_variable` (shock_capturing.py 217-231) on an entry: symbols and metric datasets become averages. -/
def avgTerm : Ex D → Term Var D
  | .num z => .num z
  | .const c => .const c
  | .arr (.data t) => .var (.avg t)
  | .add a b => .add (avgTerm a) (avgTerm b)
  | .mul a b => .mul (avgTerm a) (avgTerm b)
  | .pow a b => .pow (avgTerm a) (avgTerm b)
  | .fn f a => .fn f (avgTerm a)
  | e => .at e 0

/-- `required_terms`, shock_capturing.py 311-312. -/
def Input.terms : List String :=
  ((List.finRange n).flatMap fun i => (K.C.ev K.d i).datas ++ (List.finRange n).flatMap fun j => (K.C.lev K.d i j).datas ++ (K.C.rev K.d i j).datas).dedup

/-- A dataset at the left and right point, averaging.py 21-28, for the locations `[0, 1]` which are the default and which the metric terms have in any case (57, 112). -/
def left (t : String) : Term Var D := .at (.arr (.data t)) 0

@[inherit_doc left] def right (t : String) : Term Var D := .at (.arr (.data t)) 1

/-- `SimpleAverage.average`, averaging.py 45-59. -/
def simpleEqs (ts : List String) : List (Var × Term Var D) := ts.map fun t => (.avg t, S.factor (.mul (.add (left t) (right t)) (.num (1/2))))

/-- The datasets which are not averaged by Roe's formulas: the metric terms, averaging.py 106-113. Simplified: symbols which are neither metric terms nor averaged by Roe's formulas are not averaged by the code; there are none in the eigensystems of the Euler equations. -/
def metricTerms (D : ℕ) (ts : List String) : List String := ts.filter fun t => decide (t ≠ "rho" ∧ t ≠ "a" ∧ ∀ i : Fin D, t ≠ s!"u{i.val}")

/-- `KE`, averaging.py 92. -/
def roeKETerm (D : ℕ) : Term Var D := .mul (.num (1/2)) (.sum ((List.finRange D).map fun i => .npow (.var (.avg s!"u{i.val}")) 2))

/-- `roe_enthalpy`, averaging.py 97-99. -/
def roeHTerm : Term Var D :=
  .mul (.add (.mul (.sqrt (left "rho")) (.mul (.add (left "rhoE") (left "p")) (.inv (left "rho")))) (.mul (.sqrt (right "rho")) (.mul (.add (right "rhoE") (right "p")) (.inv (right "rho"))))) (.var .roeInv)

/-- `RoeAverage.average`, averaging.py 70-114. -/
def roeEqs (ts : List String) : List (Var × Term Var D) :=
  [(.avg "rho", .sqrt (.mul (left "rho") (right "rho"))), (.roeInv, .inv (.add (.sqrt (right "rho")) (.sqrt (left "rho"))))] ++
  ((List.finRange D).map fun i => (.avg s!"u{i.val}", .mul (.add (.mul (.sqrt (left "rho")) (left s!"u{i.val}")) (.mul (.sqrt (right "rho")) (right s!"u{i.val}"))) (.var .roeInv))) ++
  [(.avg "a", .sqrt (.mul (.add (.const "gama") (.num (-1))) (.add roeHTerm (.mul (.num (-1)) (S.factor (roeKETerm D))))))] ++
  simpleEqs S (metricTerms D ts)

/-- The averages, shock_capturing.py 313. -/
def Input.avgEqs : List (Var × Term Var D) := if K.roe then roeEqs S K.terms else simpleEqs S K.terms

/-- `to_be_replaced` and `inverses`, shock_capturing.py 321-325 and 428-432. -/
def Input.inverses : List (Term Var D × Var) :=
  [(.pow (.var (.avg "a")) (.num (-1)), .invA), (.pow (.var (.avg "rho")) (.num (-1)), .invRho)] ++ (K.invMetric.toList.map fun e => (avgTerm e, .invMet))

/-- `inverse_evals`, shock_capturing.py 326. -/
def Input.invEqs : List (Var × Term Var D) := K.inverses.map fun q => (q.2, q.1)

/-- `generate_equations_from_matrices` (shock_capturing.py 233-245) with `remove_zero_equations` (267-271), for one entry. -/
def emit (v : Var) (t : Term Var D) : List (Var × Term Var D) := if S.isZero t then [] else [(v, S.factor t)]

open Classical in
/-- An entry of the matrix of grid variables, `symbol_matrix`, shock_capturing.py 207-215. -/
def Input.levTerm (i j : Fin n) : Term Var D := if K.C.lev K.d i j = .num 0 then .num 0 else .var (.lev i j)

open Classical in
/-- The left eigenvectors, shock_capturing.py 376-383. -/
def Input.levEqs : List (Var × Term Var D) :=
  (List.finRange n).flatMap fun i => (List.finRange n).flatMap fun j =>
    if K.C.lev K.d i j = .num 0 then [] else emit S (.lev i j) (S.subs K.inverses (avgTerm (K.C.lev K.d i j)))

/-- `stencil_points`, shock_capturing.py 451 and 499. -/
def Input.pts : List ℤ := K.C.scheme.stencilPoints

/-- An entry of `grid_LEV*flux_stencil`, shock_capturing.py 507. -/
def Input.cfTerm (i : Fin n) (p : ℤ) : Term Var D := .sum ((List.finRange n).map fun k => .mul (K.levTerm i k) (.at (K.C.flux K.d k) p))

/-- An entry of `grid_LEV*solution_vector_stencil`, shock_capturing.py 459. -/
def Input.csTerm (i : Fin n) (p : ℤ) : Term Var D := .sum ((List.finRange n).map fun k => .mul (K.levTerm i k) (.at (.arr (.data (K.C.sol k))) p))

/-- `create_characteristic_matrices`, shock_capturing.py 464-477: the fluxes by stencil location, then the solution by component. -/
def Input.charEqs : List (Var × Term Var D) :=
  (K.pts.zipIdx.flatMap fun pj => (List.finRange n).flatMap fun i => emit S (.cf i.val pj.2) (K.cfTerm i pj.1)) ++
  ((List.finRange n).flatMap fun i => K.pts.zipIdx.flatMap fun pj => emit S (.cs i.val pj.2) (K.csTerm i pj.1))

/-- `out`, shock_capturing.py 517-522, on the diagonal. -/
def Input.lamTerm (i : Fin n) : Term Var D := K.pts.foldl (fun o p => .max o (.abs (.at (K.C.ev K.d i) p))) (.num 0)

/-- `ev_equations`, shock_capturing.py 524-525. -/
def Input.lamAll : List (Var × Term Var D) := (List.finRange n).flatMap fun i => emit S (.lam i.val) (K.lamTerm i)

open Classical in
/-- Repeated eigenvalues are not computed again, shock_capturing.py 526-533. -/
def Input.lamEqs : List (Var × Term Var D) :=
  match K.lamAll S with
  | [] => []
  | q :: l => q :: l.map fun r => (r.1, if r.2 = q.2 then .var q.1 else r.2)

open Classical in
/-- The diagonal of `max_wave_speed`, shock_capturing.py 523 and 535. -/
def Input.lamVar (i : Fin n) : Term Var D := if K.C.ev K.d i = .num 0 then .num 0 else .var (.lam i)

/-- `pre_process`, shock_capturing.py 357-398. The equations of the inverses do not contain `gama`. -/
def Input.pre : List (Var × Term Var D) :=
  ((K.avgEqs S).map fun q => (q.1, S.gamma q.2)) ++ K.invEqs ++ ((K.levEqs S ++ K.charEqs S ++ K.lamEqs S).map fun q => (q.1, S.gamma q.2))

/-- `create_adaptive_CT`, teno.py 430-438, added to the pre-processing in teno.py 516-519. -/
def Input.ctEqs : List (Var × Term Var D) := K.sensor.toList.map fun e =>
  let m : Term Var D := .at e 0
  let one_m : Term Var D := .add (.num 1) (.mul (.num (-1)) m)
  (.ct, .inv (.tenFloor (.add (.const "teno_a1") (.mul (.num (-1)) (.mul (.const "teno_a2") (.add (.num 1) (.mul (.num (-1)) (.mul (.npow one_m 4) (.add (.num 1) (.mul (.num 4) m))))))))))

/-- `CT`, teno.py 361-365. -/
def Input.ctTerm : Term Var D := if K.sensor.isSome then .var .ct else .const "TENO_CT"

/-! ## Interpolation -/

/-- `positive_flux` and `negative_flux`, shock_capturing.py 480-487. -/
def Input.split (side : Side) (i : Fin n) (j : ℕ) : Term Var D :=
  match side with
  | .right => S.factor (.mul (.num (1/2)) (.add (.var (.cf i j)) (.mul (K.lamVar i) (.var (.cs i j)))))
  | .left => S.factor (.mul (.num (1/2)) (.add (.var (.cf i j)) (.mul (.num (-1)) (.mul (K.lamVar i) (.var (.cs i j))))))

/-- `function_stencil_dictionary`, shock_capturing.py 47-48 and 64-65. Other points are a `KeyError`; the value given here for them is not used (C81_points_weno, C81_points_teno). -/
def Input.entry (side : Side) (i : Fin n) (p : ℤ) : Term Var D := if p ∈ K.C.scheme.funcPoints side then K.split S side i (K.pts.idxOf p) else .num 0

/-- The smoothness indicators, weno.py 194-204. -/
def wenoBeta (side : Side) (k : ℕ) (dz : ℝ) (f : ℤ → Term Var D) (r : ℕ) : Term Var D :=
  .sum ((smoothCoeffs k r dz).map fun e => .mul (.num e.2) (.mul (f (-(r : ℤ) + e.1.1 + side.c)) (f (-(r : ℤ) + e.1.2 + side.c))))

/-- `b` with a coefficient. -/
def times (q : ℝ) (t : Term Var D) : Term Var D := .mul (.num q) t

/-- `global_smoothness_indicator`, weno.py 298-312. -/
def tauTerm (k : ℕ) : Option (Term Var D) :=
  let b (r : ℕ) : Term Var D := .var (.beta r)
  let lin (l : List (ℝ × ℕ)) : Option (Term Var D) := some (.abs (.sum (l.map fun e => times e.1 (b e.2))))
  if k = 2 then lin [(1, 0), (-1, 1)]
  else if k = 3 then lin [(1, 0), (-1, 2)]
  else if k = 4 then lin [(1, 0), (3, 1), (-3, 2), (-1, 3)]
  else if k = 5 then lin [(1, 0), (2, 1), (-6, 2), (2, 3), (1, 4)]
  else if k = 6 then lin [(1, 0), (1, 1), (-8, 2), (8, 3), (-1, 4), (-1, 5)]
  else if k = 7 then lin [(1, 0), (36, 1), (135, 2), (-135, 4), (-36, 5), (-1, 6)]
  else none

/-- `generate_alphas`, weno.py 352-354 and 319-323, for the optimal weights `w`. -/
def wenoAlpha (form : Formulation) (k : ℕ) : Option ((ℕ → ℝ) → ℕ → Term Var D) :=
  match form with
  | .JS => some fun w r => .mul (.num (w r)) (.inv (.npow (.add (.num epsJS) (.var (.beta r))) 2))
  | .Z => (tauTerm k).map fun tau w r => .mul (.num (w r)) (.add (.num 1) (.npow (.mul tau (.inv (.add (.num epsZ) (.var (.beta r))))) 2))

/-- `final_equations` of a WENO reconstruction variable, weno.py 248-260: indicators, alphas, the sum of the alphas, omegas, and the reconstruction added to `Recon_i`. -/
def wenoEqs (alpha : ℕ → Term Var D) (side : Side) (k : ℕ) (dz : ℝ) (i : ℕ) (f : ℤ → Term Var D) : List (Var × Term Var D) :=
  ((List.range k).map fun r => (.beta r, wenoBeta side k dz f r)) ++
  ((List.range k).map fun r => (.alpha r, alpha r)) ++
  [(.invAlpha, .inv (.sum ((List.range k).map fun r => .var (.alpha r))))] ++
  ((List.range k).map fun r => (.omega r, .mul (.var (.alpha r)) (.var .invAlpha))) ++
  [(.recon i, .add (.var (.recon i)) (.sum ((List.range k).map fun r => .mul (.var (.omega r))
    (.sum ((List.range k).map fun j => .mul (.num (enoCoeff ℝ side k r j)) (f (funcPoint side r j)))))))]

/-- A linear combination of function points. -/
def lin (f : ℤ → Term Var D) (l : List (ℝ × ℤ)) : Term Var D := .sum (l.map fun e => times e.1 (f e.2))

/-- The smoothness indicators of TENO, teno.py 159-177. -/
def tenoBeta (side : Side) (f : ℤ → Term Var D) (r : ℕ) : Term Var D :=
  let sq (q : ℝ) (l : List (ℝ × ℤ)) : Term Var D := times q (.npow (lin f l) 2)
  match side, r with
  | .right, 0 => .add (sq (1/4) [(1, -1), (-1, 1)]) (sq (13/12) [(1, -1), (-2, 0), (1, 1)])
  | .right, 1 => .add (sq (1/4) [(3, 0), (-4, 1), (1, 2)]) (sq (13/12) [(1, 0), (-2, 1), (1, 2)])
  | .right, 2 => .add (sq (1/4) [(1, -2), (-4, -1), (3, 0)]) (sq (13/12) [(1, -2), (-2, -1), (1, 0)])
  | .right, 3 => .add (sq (1/36) [(-11, 0), (18, 1), (-9, 2), (2, 3)]) (.add (sq (13/12) [(2, 0), (-5, 1), (4, 2), (-1, 3)]) (times (781/720) (lin f [(-1, 0), (3, 1), (-3, 2), (1, 3)])))
  | .left, 0 => .add (sq (1/4) [(1, 0), (-1, 2)]) (sq (13/12) [(1, 0), (-2, 1), (1, 2)])
  | .left, 1 => .add (sq (1/4) [(1, -1), (-4, 0), (3, 1)]) (sq (13/12) [(1, -1), (-2, 0), (1, 1)])
  | .left, 2 => .add (sq (1/4) [(3, 1), (-4, 2), (1, 3)]) (sq (13/12) [(1, 1), (-2, 2), (1, 3)])
  | .left, 3 => .add (sq (1/36) [(-2, -2), (9, -1), (-18, 0), (11, 1)]) (.add (sq (13/12) [(-1, -2), (4, -1), (-5, 0), (2, 1)]) (sq (781/720) [(-1, -2), (3, -1), (-3, 0), (1, 1)]))
  | _, _ => .num 0

/-- `tau_5`, `tau_6`, teno.py 209 and 230. -/
def tenoTau (o : Teno.Order) : Term Var D :=
  let b (r : ℕ) : Term Var D := .var (.beta r)
  match o with
  | .five => .abs (.add (b 0) (times (-1) (b 2)))
  | .six => .abs (.add (b 3) (times (-1/6) (.add (b 0) (.add (b 2) (times (-4) (b 1))))))

/-- `final_equations` of a TENO reconstruction variable, teno.py 303-319, with 207-212, 228-233, 413-427 and 453-464. -/
def tenoEqs (o : Teno.Order) (ct : Term Var D) (side : Side) (i : ℕ) (f : ℤ → Term Var D) : List (Var × Term Var D) :=
  ((List.range o.n).map fun r => (Var.beta r, tenoBeta side f r)) ++
  ((List.range o.n).map fun r => (Var.alpha r, .npow (.add (.num 1) (.mul (tenoTau o) (.inv (.add (.const "eps") (.var (.beta r)))))) 6)) ++
  [(.invAlpha, .inv (.sum ((List.range o.n).map fun r => .var (.alpha r))))] ++
  ((List.range o.n).map fun r => (Var.delta r, .cut (.mul (.var (.alpha r)) (.var .invAlpha)) ct)) ++
  [(.invOmega, .inv (.sum ((List.range o.n).map fun r => times (Teno.opt o r) (.var (.delta r)))))] ++
  [(.recon i, .add (.var (.recon i)) (.sum ((List.range o.n).map fun r => .mul (.mul (times (Teno.opt o r) (.var (.delta r))) (.var .invOmega))
    (.sum (((Teno.points side r).zip (Teno.coeffs side r)).map fun pc => .mul (f pc.1) (.num pc.2))))))]

/-- The equations of the reconstruction of a side of a component; `none` is the `ValueError` of WENO-Z (weno.py 310-311), raised when the scheme is created. -/
def Input.recipe : Option (Side → Fin n → List (Var × Term Var D)) :=
  match K.C.scheme with
  | .weno form k dz w => (wenoAlpha form k).map fun alpha side i => wenoEqs (alpha (w side)) side k dz i (K.entry S side i)
  | .teno o _ _ => some fun side i => tenoEqs o K.ctTerm side i (K.entry S side i)

/-- `interpolate_reconstruction_variables`, shock_capturing.py 72-96: for every component the right reconstruction, then the left one, in the order in which they were added (493-494). -/
def Input.interp : Option (List (Var × Term Var D)) := (K.recipe S).map fun f => (List.finRange n).flatMap fun i => f .right i ++ f .left i

/-- `post_process`, shock_capturing.py 418-448: what is stored in the work array of component `i`. -/
def Input.out (i : Fin n) : Term Var D :=
  S.gamma (.sum ((List.finRange n).map fun j => .mul ((avgTerm (K.C.rev K.d i j)).replaceAll K.inverses) (.var (.recon j))))

/-- All equations in grid variables. -/
def Input.eqs : Option (List (Var × Term Var D)) := (K.interp S).map fun l => K.pre S ++ K.ctEqs ++ l

/-- The kernel function at a point, in the generated C: the variables are declared with value `0.0` (code_generation/opsc.py 401-402), the equations are executed with variables identified by their names, and the values stored in
the work arrays are computed. -/
def Input.stored (I : Interp D) (m : Mem D) (x : P D) : Option (Fin n → ℝ) := (K.eqs S).map fun l i =>
  ((K.out S i).map (Var.name K.d)).eval I m K.d x (run I m K.d x (l.map fun q => (q.1.name K.d, q.2.map (Var.name K.d))) fun _ => 0)

/-- The kernel: its range and the work arrays are those of `Shock.reconKernel`. Nothing is generated when `recipe` raises. -/
def Input.kernel : FnKer D :=
  ⟨(K.C.reconKernel K.d).range, (List.finRange n).map fun i : Fin n => (.work (K.C.reconWork K.d i), fun I m x => match K.stored S I m x with | some v => v i | none => 0)⟩

end

end OpenSBLI.Recon
