import Verif.Model.Source

/-!
# The grammar of equations

The rules of the Python language reference for arithmetic expressions, as far as they occur in equations: sums (level 1) of terms (level 2) of factors (level 3), powers and minus signs being factors; the base of a power is an atom
(level 5): a number, a name, a call or an expression in parentheses. Operators group to the left, powers to the right.
-/
namespace OpenSBLI.Source

/-- The level of an expression with this operator. -/
def Bin.level : Bin → ℕ
  | .add | .sub => 1
  | .mul | .div => 2
  | .pow => 3

/-- The level of the left operand. -/
def Bin.left : Bin → ℕ
  | .add | .sub => 1
  | .mul | .div => 2
  | .pow => 5

/-- The level of the right operand. -/
def Bin.right : Bin → ℕ
  | .add | .sub => 2
  | .mul | .div => 3
  | .pow => 3

/-- What is derived: an expression of a level, or the arguments of a call. -/
inductive Item where
  | expr (level : ℕ) (e : Syn)
  | args (es : List Syn)

/-- The rules: which tokens say what. -/
inductive Says : Item → List Tok → Prop
  | num {k} (q : ℚ) : Says (.expr k (.num q)) [.num q]
  | name {k} (s : String) : Says (.expr k (.name s)) [.name s]
  | kw {k} (s : String) : Says (.expr k (.kw s)) [.kw s]
  | paren {k} {e : Syn} {ts : List Tok} : Says (.expr 1 e) ts → Says (.expr k e) (.lpar :: ts ++ [.rpar])
  | neg {k} {a : Syn} {ts : List Tok} (h : k ≤ 3) : Says (.expr 3 a) ts → Says (.expr k (.neg a)) (.op .sub :: ts)
  | bin {k} {o : Bin} {a b : Syn} {ts us : List Tok} (h : k ≤ o.level) : Says (.expr o.left a) ts → Says (.expr o.right b) us → Says (.expr k (.bin o a b)) (ts ++ .op o :: us)
  | call {k} {f : String} {es : List Syn} {ts : List Tok} : Says (.args es) ts → Says (.expr k (.call f es)) (.call f :: ts ++ [.rpar])
  | one {e : Syn} {ts : List Tok} : Says (.expr 1 e) ts → Says (.args [e]) ts
  | more {es : List Syn} {e : Syn} {us ts : List Tok} : Says (.args es) us → Says (.expr 1 e) ts → Says (.args (es ++ [e])) (us ++ .comma :: ts)

/-- How a token may be written. -/
inductive Written : Tok → List Char → Prop
  | name {c : Char} {s : List Char} (hc : (c.isAlpha || c = '_') = true) (hs : ∀ x ∈ s, (x.isAlphanum || x = '_') = true) : Written (.name (String.ofList (c :: s))) (c :: s)
  | call {c : Char} {s : List Char} (hc : (c.isAlpha || c = '_') = true) (hs : ∀ x ∈ s, (x.isAlphanum || x = '_') = true) : Written (.call (String.ofList (c :: s))) (c :: s ++ ['('])
  | num {c : Char} {s : List Char} {q : ℚ} (hc : c.isDigit = true) (hs : ∀ x ∈ s, (x.isDigit || x = '.') = true) (hq : decimal (c :: s) = some q) : Written (.num q) (c :: s)
  | kw {s : List Char} (hs : '}' ∉ s) : Written (.kw (String.ofList s)) ('*' :: '*' :: '{' :: s ++ ['}'])
  | add : Written (.op .add) ['+']
  | sub : Written (.op .sub) ['-']
  | mul : Written (.op .mul) ['*']
  | div : Written (.op .div) ['/']
  | pow : Written (.op .pow) ['*', '*']
  | lpar : Written .lpar ['(']
  | rpar : Written .rpar [')']
  | comma : Written .comma [',']

/-- Tokens with spaces between them. -/
inductive Spaced : List Tok → List Char → Prop
  | nil : Spaced [] []
  | space {ts : List Tok} {s : List Char} : Spaced ts s → Spaced ts (' ' :: s)
  | token {t : Tok} {w : List Char} {ts : List Tok} {s : List Char} : Written t w → Spaced ts s → Spaced (t :: ts) (w ++ ' ' :: s)

end OpenSBLI.Source
