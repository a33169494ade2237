import Verif.Model.BoundaryText
import Verif.Spec.SimulationText

/-!
# What the text of boundary conditions should do

`onLines` and `onPoints` say, without reference to texts or loops, what a boundary condition makes of the solution: on every line normal to the boundary, all at
once, the equations of the condition along the line; or the equations of the condition at every point.
-/
namespace OpenSBLI.Bc
open OpenSBLI.CCode OpenSBLI.Sim

variable {D n : ℕ}

/-- The contents of the cells, as a kernel function sees them. -/
def Spelling.view (N : Spelling D) (st : CCode.Mem D ℝ) : Cell D → ℝ
  | .data v k => st.data (N.array v) (Pi.single N.dir k)
  | .loc l => st.loc (N.var l)

/-- An equation of a kernel says what an equation of the condition says. -/
def SaysAssign (N : Spelling D) (L : Lib ℝ) (o : Outer D ℝ) (q : Eqn D) (a : Assign D) : Prop :=
  ∃ rhs, q = .assign ⟨N.lhs a.target, rhs⟩ ∧ ∀ st, rhs.val L o st = a.rhs.eval (N.view st)

/-- The equations of a kernel say, one by one, what those of the condition say. -/
def SaysLine (N : Spelling D) (L : Lib ℝ) (o : Outer D ℝ) (eqs : List (Eqn D)) (prog : List (Assign D)) : Prop := List.Forall₂ (SaysAssign N L o) eqs prog

/-- The grid variables of a program. -/
def locals (prog : List (Assign D)) : List Loc := prog.flatMap fun a => (a.target :: a.rhs.cells).filterMap fun | .loc l => some l | _ => none

/-- Different arrays and grid variables have different names. -/
structure Spelling.Distinct (N : Spelling D) (prog : List (Assign D)) : Prop where
  array : Function.Injective N.array
  var : ∀ l ∈ locals prog, ∀ l' ∈ locals prog, N.var l = N.var l' → l = l'

/-- The solution along the line normal to the boundary through a point. -/
def lineState (vs : Fin n → Var D) (dir : Fin D) (q : Sol D n) (x : P D) : Cell D → ℝ
  | .data v k => match (List.finRange n).find? fun i : Fin n => vs i = v with
    | some i => q i (shift x dir k)
    | none => 0
  | .loc _ => 0

open Classical in
/-- The condition on all normal lines through a set of points with coordinate `p`. -/
noncomputable def onLines (vs : Fin n → Var D) (range : P D → Prop) (dir : Fin D) (p : ℤ) (prog : List (Assign D)) (q : Sol D n) : Sol D n := fun i y =>
  if range (Function.update y dir p) then run prog (lineState vs dir q (Function.update y dir p)) (.data (vs i) (y dir - p)) else q i y

open Classical in
/-- The condition at all points of a set. -/
noncomputable def onPoints (vs : Fin n → Var D) (range : P D → Prop) (dir : Fin D) (prog : List (Assign D)) (q : Sol D n) : Sol D n := fun i y =>
  if range y then run prog (lineState vs dir q y) (.data (vs i) 0) else q i y

/-- The condition changes solution arrays only, and what it gives them depends on solution arrays only. -/
structure Confined (vs : Fin n → Var D) (prog : List (Assign D)) : Prop where
  targets : ∀ a ∈ prog, ∀ v k, a.target = .data v k → ∃ i, v = vs i
  reads : ∃ good : Cell D → Prop, (∀ i k, good (.data (vs i) k)) ∧ (∀ v k, good (.data v k) → ∃ i, v = vs i) ∧ ∀ a ∈ prog, good a.target → ∀ c ∈ a.rhs.cells, good c

/-- All datasets of the condition are at the point itself. -/
def AtPoint (prog : List (Assign D)) : Prop := ∀ a ∈ prog, ∀ v k, .data v k ∈ a.target :: a.rhs.cells → k = 0

/-- A boundary condition of a block. -/
inductive Item (D : ℕ) where
  /-- on the lines normal to the plane with coordinate `p` in direction `dir` -/
  | lines (range : Ranges.Kernel D) (dir : Fin D) (p : ℤ) (prog : List (Assign D))
  /-- at the points of a range -/
  | points (range : Ranges.Kernel D) (dir : Fin D) (prog : List (Assign D))
  /-- a periodic exchange -/
  | exchange (t : Ranges.Transfer D)

/-- What it makes of the solution. -/
noncomputable def Item.op (vs : Fin n → Var D) : Item D → Sol D n → Sol D n
  | .lines r dir p prog => onLines vs r.visits dir p prog
  | .points r dir prog => onPoints vs r.visits dir prog
  | .exchange t => fun q i => t.apply (q i)

/-- The conditions of a block one after the other. -/
noncomputable def conditions (vs : Fin n → Var D) (items : List (Item D)) (q : Sol D n) : Sol D n := items.foldl (fun q c => c.op vs q) q

/-- What is called has the text of the condition: its equations say, whatever the values of the constants and at any point, what the condition says, and use the
names of the solution arrays. -/
def Renders (T : Text D) (prg : List (Alg.Node (Call D))) (sol : Fin n → String) (vs : Fin n → Var D) : BcCall D → Item D → Prop
  | .kernel r eqs, .lines r' dir p prog => r = r' ∧ r.totalRange dir = (p, p + 1) ∧ Confined vs prog ∧
      ∃ N : Spelling D, N.dir = dir ∧ N.Distinct prog ∧ (∀ i, N.array (vs i) = T.names (.data (sol i))) ∧ ∀ stage x, SaysLine N T.lib (T.outer prg stage x) eqs prog
  | .kernel r eqs, .points r' dir prog => r = r' ∧ AtPoint prog ∧ Confined vs prog ∧
      ∃ N : Spelling D, N.dir = dir ∧ N.Distinct prog ∧ (∀ i, N.array (vs i) = T.names (.data (sol i))) ∧ ∀ stage x, SaysLine N T.lib (T.outer prg stage x) eqs prog
  | .exchange t names, .exchange t' => t = t' ∧ ∀ b, b ∈ names ↔ ∃ i, b = T.names (.data (sol i))
  | _, _ => False

end OpenSBLI.Bc
