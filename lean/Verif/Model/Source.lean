import Verif.Model.FrontEnd

/-!
# The text of equations

What a user writes: `"Eq(Der(rho,t), - Skew(rho*u_j,x_j))"`. `EinsteinEquation.expand` gives the text to SymPy's `parse_expr` (core/parsing.py 403, 406) with its own transformation of the tokens in front (`convert_coordinate`,
483-542). Modelled here: Python's tokens and the grammar of Python's arithmetic expressions as far as equations use them (names, numbers, calls, the five operators, unary minus, parentheses, and the keywords `**{'scheme':'Weno'}`), and what
the names and calls become. Simplified: numbers written with a decimal point are rationals; numbers are combined at once (`evaluate=False` delays this); exponents are numbers.
-/
namespace OpenSBLI.Source
open OpenSBLI.Parse (Expr)

/-- The binary operators. -/
inductive Bin where
  | add | sub | mul | div | pow
  deriving DecidableEq

/-- Tokens. A name directly before a parenthesis is a call; `kw` is the text between the braces of `**{...}`. -/
inductive Tok where
  | num (q : ℚ)
  | name (s : String)
  | call (s : String)
  | kw (s : String)
  | op (o : Bin)
  | lpar
  | rpar
  | comma
  deriving DecidableEq

/-- Expressions as written. -/
inductive Syn where
  | num (q : ℚ)
  | name (s : String)
  | kw (s : String)
  | neg (a : Syn)
  | bin (o : Bin) (a b : Syn)
  | call (f : String) (args : List Syn)

/-! ## Tokens -/

/-- What the tokenizer has read of a token. The characters are in reverse. -/
inductive Lex where
  | start
  | name (s : List Char)
  | num (s : List Char)
  | star
  | brace (s : List Char)

/-- `1.25`. -/
def decimal (s : List Char) : Option ℚ :=
  let digits (l : List Char) : ℕ := l.foldl (fun n c => 10 * n + (c.toNat - '0'.toNat)) 0
  let whole := s.takeWhile (· ≠ '.')
  match s.dropWhile (· ≠ '.') with
  | [] => some (digits whole)
  | _ :: frac => if '.' ∈ frac then none else some (digits whole + digits frac / 10 ^ frac.length)

/-- The token that ends here. -/
def finish : Lex → Option (List Tok)
  | .start => some []
  | .name s => some [.name (String.ofList s.reverse)]
  | .num s => do some [.num (← decimal s.reverse)]
  | .star => some [.op .mul]
  | .brace _ => none

/-- A character between tokens. -/
def between (c : Char) : Option (Lex × List Tok) :=
  if c = ' ' then some (.start, [])
  else if c.isAlpha || c = '_' then some (.name [c], [])
  else if c.isDigit then some (.num [c], [])
  else match c with
    | '+' => some (.start, [.op .add])
    | '-' => some (.start, [.op .sub])
    | '*' => some (.star, [])
    | '/' => some (.start, [.op .div])
    | '(' => some (.start, [.lpar])
    | ')' => some (.start, [.rpar])
    | ',' => some (.start, [.comma])
    | _ => none

/-- One character: what has been read then, and the tokens that are complete. -/
def next (st : Lex) (c : Char) : Option (Lex × List Tok) :=
  match st with
  | .start => between c
  | .name s =>
    if c.isAlphanum || c = '_' then some (.name (c :: s), [])
    else if c = '(' then some (.start, [.call (String.ofList s.reverse)])
    else do
      let (st, ts) ← between c
      some (st, .name (String.ofList s.reverse) :: ts)
  | .num s =>
    if c.isDigit || c = '.' then some (.num (c :: s), [])
    else do
      let q ← decimal s.reverse
      let (st, ts) ← between c
      some (st, .num q :: ts)
  | .star =>
    if c = '*' then some (.start, [.op .pow])
    else do
      let (st, ts) ← between c
      some (st, .op .mul :: ts)
  | .brace s => if c = '}' then some (.start, [.kw (String.ofList s.reverse)]) else some (.brace (c :: s), [])

/-- The tokens of a text. `**{` begins keywords. -/
def lex : Lex → List Char → Option (List Tok)
  | st, [] => finish st
  | st, c :: cs =>
    match st, c, cs with
    | .start, '*', '*' :: '{' :: cs => lex (.brace []) cs
    | st, c, cs => do
      let (st, ts) ← next st c
      some (ts ++ (← lex st cs))

/-! ## Grammar -/

/-- What waits for an expression: an open parenthesis, a call with its arguments so far (in reverse), an operator with its left operand, a minus. -/
inductive Frame where
  | paren
  | call (f : String) (args : List Syn)
  | bin (o : Bin) (a : Syn)
  | neg

/-- How strongly operators bind. -/
def Bin.prec : Bin → ℕ
  | .add | .sub => 1
  | .mul | .div => 2
  | .pow => 4

/-- How strongly a waiting operator binds; parentheses and calls wait for their end. -/
def Frame.prec : Frame → Option ℕ
  | .paren | .call _ _ => none
  | .bin o _ => some o.prec
  | .neg => some 3

/-- Before the operator `o` the waiting operator is applied: it binds more strongly, or as strongly and to the left. Powers bind to the right. -/
def Frame.yields (f : Frame) (o : Bin) : Bool :=
  match f.prec with
  | none => false
  | some p => o.prec < p || (o.prec = p && o ≠ .pow)

/-- The waiting operator applied. -/
def Frame.apply (e : Syn) : Frame → Syn
  | .bin o a => .bin o a e
  | .neg => .neg e
  | _ => e

/-- The waiting operators are applied as long as they come before `o`. -/
def reduceOn (o : Bin) : List Frame → Syn → List Frame × Syn
  | [], e => ([], e)
  | f :: s, e => if f.yields o then reduceOn o s (f.apply e) else (f :: s, e)

/-- All waiting operators are applied, up to the parenthesis. -/
def reduceAll : List Frame → Syn → List Frame × Syn
  | [], e => ([], e)
  | f :: s, e => if f.prec.isSome then reduceAll s (f.apply e) else (f :: s, e)

/-- The parser: `cur` is the expression just read, or nothing when one has to follow. -/
def parse : List Frame → Option Syn → List Tok → Option Syn
  | s, none, .num q :: ts => parse s (some (.num q)) ts
  | s, none, .name n :: ts => parse s (some (.name n)) ts
  | s, none, .kw n :: ts => parse s (some (.kw n)) ts
  | s, none, .call f :: ts => parse (.call f [] :: s) none ts
  | s, none, .lpar :: ts => parse (.paren :: s) none ts
  | s, none, .op .sub :: ts => parse (.neg :: s) none ts
  | s, some e, .op o :: ts => let r := reduceOn o s e; parse (.bin o r.2 :: r.1) none ts
  | s, some e, .comma :: ts =>
    match reduceAll s e with
    | (.call f args :: s, e) => parse (.call f (e :: args) :: s) none ts
    | _ => none
  | s, some e, .rpar :: ts =>
    match reduceAll s e with
    | (.call f args :: s, e) => parse s (some (.call f (e :: args).reverse)) ts
    | (.paren :: s, e) => parse s (some e) ts
    | _ => none
  | s, some e, [] =>
    match reduceAll s e with
    | ([], e) => some e
    | _ => none
  | _, _, _ => none

/-- The expression a text says. -/
def read (text : String) : Option Syn := (lex .start text.toList).bind (parse [] none)

/-! ## Names and calls -/

/-- What the names mean: the symbol of the coordinates, that of time, the names of `local_dict` and those of SymPy (parsing.py 389-401). -/
structure Names where
  coordinate : String
  time : String
  loc : List String
  glob : List String

/-- `-e`. -/
def minus : Expr → Expr
  | .num q => .num (-q)
  | e => .mul (.num (-1)) e

/-- `a*b`: a number in front stays in front. -/
def times : Expr → Expr → Expr
  | .mul (.num q) a, b => .mul (.num q) (.mul a b)
  | a, b => .mul a b

/-- `a/b`. -/
def over : Expr → Expr → Option Expr
  | .num p, .num q => if q = 0 then none else some (.num (p / q))
  | a, b => some (.mul a (.app "**-1" b))

/-- `a**b`. -/
def power (a : Expr) : Expr → Option Expr
  | .num q => some (.app ("**" ++ Front.numeral q) a)
  | _ => none

/-- The variables of a derivative, and its scheme. -/
def coordinates (N : Names) : List Syn → Option (List String × Option String)
  | [] => some ([], none)
  | [.kw s] =>
    match s.toList.dropWhile (· ≠ ':') with
    | ':' :: '\'' :: cs => if s.toList.takeWhile (· ≠ ':') = "'scheme'".toList then some ([], some (String.ofList (cs.takeWhile (· ≠ '\'')))) else none
    | _ => none
  | .name x :: as =>
    match Parse.classify N.coordinate N.time N.loc N.glob x with
    | .coordinate _ => do
      let (xs, scheme) ← coordinates N as
      some (x :: xs, scheme)
    | _ => none
  | _ => none

/-- The names of the arguments of `KD` and `LC`. -/
def indexNames : List Syn → Option (List String)
  | [] => some []
  | .name s :: as => do some (s :: (← indexNames as))
  | _ => none

/-- The expression of parsing.py: names as `convert_coordinate` makes them, operators as SymPy makes them, `Der`, `Conservative` and `Skew` as their constructors do (55-139, 196-200). -/
def meaning (N : Names) : Syn → Option Expr
  | .num q => some (.num q)
  | .name s =>
    match Parse.classify N.coordinate N.time N.loc N.glob s with
    | .coordinate _ => some (.coord s)
    | .dataObject => some (.data s)
    | .asIs => some (.const s)
    | .einsteinTerm => none
  | .kw _ => none
  | .neg a => do some (minus (← meaning N a))
  | .bin .add a b => do some (.add (← meaning N a) (← meaning N b))
  | .bin .sub a b => do some (.add (← meaning N a) (minus (← meaning N b)))
  | .bin .mul a b => do some (times (← meaning N a) (← meaning N b))
  | .bin .div a b => do over (← meaning N a) (← meaning N b)
  | .bin .pow a b => do power (← meaning N a) (← meaning N b)
  | .call _ [] => none
  | .call f (a :: as) =>
    if f = "KD" ∨ f = "LC" then do some (.const (f ++ "(" ++ String.intercalate "," (← indexNames (a :: as)) ++ ")"))
    else if f = "Der" ∨ f = "Conservative" ∨ f = "Skew" then do
      let e ← meaning N a
      let (xs, scheme) ← coordinates N as
      if xs = [] then none
      else if f = "Skew" then (Parse.skew N.time scheme e xs).toOption
      else some (.user (if f = "Der" then .der else .conservative) e (Parse.setArgs N.time scheme xs))
    else if as.isEmpty then do some (.app f (← meaning N a))
    else none

/-- The two sides of `Eq(lhs, rhs)`. -/
def equation (N : Names) (text : String) : Option (Expr × Expr) :=
  match read text with
  | some (.call "Eq" [l, r]) => do some (← meaning N l, ← meaning N r)
  | _ => none

/-- A substitution: the left hand side is a data object (parsing.py 405-408). -/
def substitution (N : Names) (text : String) : Option (String × Expr) :=
  match equation N text with
  | some (.data s, e) => some (s, e)
  | _ => none

/-- `EinsteinEquation.expand` up to the expansion of the indices, for several equations with the same substitutions: from the texts to expressions with indices. `canon` as in `Parse.differentiate`. -/
def equations (N : Names) (canon : List String → List String) (substitutions texts : List String) : Option (List (Ein.Expr × Ein.Expr)) := do
  let subs ← substitutions.mapM (substitution N)
  let eqs ← texts.mapM (equation N)
  Front.equations N.time canon subs eqs

end OpenSBLI.Source
