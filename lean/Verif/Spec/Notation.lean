import Verif.Spec.Einstein
import Verif.Spec.Simulation
import Verif.Model.Notation

/-!
# The meaning of equations in index notation on a grid

Symbols are arrays, constants, numbers and coordinates; a derivative with respect to a coordinate is the difference formula of the scheme in its direction. Only the syntax and the names of components are taken from the model.
-/
namespace OpenSBLI.Note
open OpenSBLI.Ein (Expr Meaning Value)
open OpenSBLI.Sim (P Mem Interp)

variable {D n : ℕ}

/-- The coordinate of a direction, counted in grid points. -/
def coord (d : Fin D) : P D → ℝ := fun x => x d

open Classical in
/-- The meaning of the symbols: `I` gives the values of constants and the difference formulas, `m` the arrays. -/
noncomputable def meaning (r : Reading) (I : Interp D) (m : Mem D) : Meaning (P D → ℝ) where
  comp b vs :=
    if b = "" then fun _ => (vs.headD 0 : ℕ)
    else if b = r.coordinate then (if h : vs.headD 0 < D then coord ⟨vs.headD 0, h⟩ else 0)
    else match r.number b with
      | some q => fun _ => q
      | none => if b ∈ r.constants then fun _ => I.const (component b vs) else m (.data (component b vs))
  times f g := f * g
  fn s f g :=
    if s = "KD" then fun x => if f x = g x then 1 else 0
    else if s = "Pow" then fun x => I.pow (f x) (g x)
    else if h : s ∈ ["Der", "Conservative"] ∧ ∃ d : Fin D, g = coord d then I.cd h.2.choose 1 f else 0
  fn3 s f g g' :=
    if h : s ∈ ["Der", "Conservative"] ∧ (∃ d : Fin D, g = coord d) ∧ ∃ d : Fin D, g' = coord d then
      (if h.2.1.choose = h.2.2.choose then I.cd h.2.1.choose 2 f else I.cd (max h.2.1.choose h.2.2.choose) 1 (I.cd (min h.2.1.choose h.2.2.choose) 1 f))
    else 0

/-- The values `F` are the right hand sides of the equations: for every equation `Der(b_i..., t) = e` and all values of the indices, `F` has the value of `e` for the component of `b`; and every component has its equation. -/
def RightSides (r : Reading) (I : Interp D) (m : Mem D) (eqs : List (Expr × Expr)) (sol : Fin n → String) (F : Fin n → P D → ℝ) : Prop :=
  (∀ eq ∈ eqs, ∃ b idx, eq.1 = .fn "Der" (.term b idx) (.term "t" []) ∧ ∃ y, Value (meaning r I m) D eq.2 y ∧ ∀ env : String → ℕ, (∀ k, env k < D) → ∃ i, sol i = component b (idx.map env) ∧ F i = y env) ∧
  ∀ i, ∃ eq ∈ eqs, ∃ b idx y env, eq.1 = .fn "Der" (.term b idx) (.term "t" []) ∧ Value (meaning r I m) D eq.2 y ∧ (∀ k, env k < D) ∧ sol i = component b (idx.map env) ∧ F i = y env

/-- The arrays satisfy the relations `b_i... = e`, as far as they are required. -/
def Satisfied (r : Reading) (I : Interp D) (m : Mem D) (required : String → Prop) (rels : List (Expr × Expr)) : Prop :=
  ∀ eq ∈ rels, ∃ b idx, eq.1 = .term b idx ∧ ∃ y, Value (meaning r I m) D eq.2 y ∧ ∀ env : String → ℕ, (∀ k, env k < D) → required (component b (idx.map env)) → m (.data (component b (idx.map env))) = y env

end OpenSBLI.Note
