import Verif.Model.Source
import Verif.Spec.Parsing

/-!
# What a text means

The value of an expression as written, in a calculus (Spec/Parsing): operators are the operations, `Der`, `Conservative` and `Skew` are all the exact derivative of their first argument.
-/
namespace OpenSBLI.Source
open OpenSBLI.Parse (Calculus)

variable {R : Type*} [CommRing R] [Algebra ℚ R]

/-- A number: digits, a minus sign, a fraction. -/
def Syn.rational : Syn → Option ℚ
  | .num q => some q
  | .neg a => do some (-(← a.rational))
  | .bin .div a b => do some ((← a.rational) / (← b.rational))
  | _ => none

/-- The value of what is written. -/
def Syn.value (C : Calculus R) (N : Names) : Syn → R
  | .num q => algebraMap ℚ R q
  | .name s =>
    match Parse.classify N.coordinate N.time N.loc N.glob s with
    | .coordinate _ => C.coord s
    | .dataObject => C.data s
    | _ => C.const s
  | .kw _ => 0
  | .neg a => -a.value C N
  | .bin .add a b => a.value C N + b.value C N
  | .bin .sub a b => a.value C N - b.value C N
  | .bin .mul a b => a.value C N * b.value C N
  | .bin .div a b => a.value C N * C.fn "**-1" (b.value C N)
  | .bin .pow a b => C.fn ("**" ++ Front.numeral (b.rational.getD 0)) (a.value C N)
  | .call _ [] => 0
  | .call f (a :: as) =>
    if f = "KD" ∨ f = "LC" then C.const (f ++ "(" ++ String.intercalate "," ((indexNames (a :: as)).getD []) ++ ")")
    else if f = "Der" ∨ f = "Conservative" ∨ f = "Skew" then C.Ds ((coordinates N as).getD ([], none)).1 (a.value C N)
    else C.fn f (a.value C N)

/-- No coordinate is called like a scheme; `Skew` is written of the product of two names, in one direction. -/
def Syn.Fine (N : Names) : Syn → Prop
  | .neg a => a.Fine N
  | .bin _ a b => a.Fine N ∧ b.Fine N
  | .call f (a :: as) =>
    f ≠ "KD" ∧ f ≠ "LC" → a.Fine N ∧ (∀ xs scheme, coordinates N as = some (xs, scheme) → (∀ s ∈ scheme, s ∉ xs) ∧ "Central" ∉ xs ∧ "Temporal" ∉ xs) ∧
      (f = "Skew" → (∃ s t, a = .bin .mul (.name s) (.name t)) ∧ ∃ x scheme, coordinates N as = some ([x], scheme))
  | _ => True

end OpenSBLI.Source
