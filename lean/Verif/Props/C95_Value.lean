import Verif.Spec.TextValue
import Verif.Props.C82_Parsing

/-!
# C95: expressions keep the value of the text
-/
namespace OpenSBLI.Source
open OpenSBLI.Parse (Calculus Expr)

universe u
variable {R : Type u} [CommRing R] [Algebra ℚ R]

/-- Numbers have the inverses they have. -/
def Inverts (C : Calculus R) : Prop := ∀ q : ℚ, q ≠ 0 → C.fn "**-1" (algebraMap ℚ R q) = algebraMap ℚ R q⁻¹

theorem eval_minus (C : Calculus R) (e : Expr) : C.eval (minus e) = -C.eval e := by
  cases e <;> simp [minus, Calculus.eval]

theorem eval_times (C : Calculus R) (a b : Expr) : C.eval (times a b) = C.eval a * C.eval b := by
  unfold times
  split
  · simp only [Calculus.eval, mul_assoc]
  · rfl

theorem eval_over (C : Calculus R) (hC : Inverts C) {a b r : Expr} (h : over a b = some r) : C.eval r = C.eval a * C.fn "**-1" (C.eval b) := by
  unfold over at h
  split at h
  · split at h
    · cases h
    · rename_i p q hq
      cases h
      simp only [Calculus.eval, hC q hq, div_eq_mul_inv, map_mul]
  · cases h
    rfl

theorem minus_num {e : Expr} {q : ℚ} (h : minus e = .num q) : e = .num (-q) := by
  unfold minus at h
  split at h
  · cases h; simp
  · cases h

theorem times_num {a b : Expr} {q : ℚ} : times a b ≠ .num q := by
  unfold times
  split <;> simp

theorem over_num {a b : Expr} {q : ℚ} (h : over a b = some (.num q)) : ∃ x y, a = .num x ∧ b = .num y ∧ q = x / y := by
  unfold over at h
  split at h
  · rename_i x y
    split at h
    · cases h
    · cases h; exact ⟨x, y, rfl, rfl, rfl⟩
  · cases h

theorem skew_num {time : String} {scheme : Option String} {e : Expr} {vars : List String} {q : ℚ} : (Parse.skew time scheme e vars).toOption ≠ some (.num q) := by
  unfold Parse.skew
  split <;> simp [Except.toOption]

theorem meaning_rational (N : Names) : ∀ (e : Syn) (q : ℚ), meaning N e = some (.num q) → e.rational = some q
  | .num x, q, h => by simpa [meaning, Syn.rational] using h
  | .name s, q, h => by
    simp only [meaning] at h
    split at h <;> simp at h
  | .kw s, q, h => by simp [meaning] at h
  | .neg a, q, h => by
    simp only [meaning, Option.bind_eq_bind, Option.bind_eq_some_iff, Option.some.injEq] at h
    obtain ⟨x, hx, h⟩ := h
    have := meaning_rational N a (-q) (by rw [hx, minus_num h])
    simp [Syn.rational, this]
  | .bin .add a b, q, h => by simp [meaning, Option.bind_eq_some_iff] at h
  | .bin .sub a b, q, h => by simp [meaning, Option.bind_eq_some_iff] at h
  | .bin .mul a b, q, h => by simp [meaning, Option.bind_eq_some_iff, times_num] at h
  | .bin .div a b, q, h => by
    simp only [meaning, Option.bind_eq_bind, Option.bind_eq_some_iff] at h
    obtain ⟨x, hx, y, hy, h⟩ := h
    obtain ⟨x', y', rfl, rfl, rfl⟩ := over_num h
    simp [Syn.rational, meaning_rational N a x' hx, meaning_rational N b y' hy]
  | .bin .pow a b, q, h => by
    simp only [meaning, Option.bind_eq_bind, Option.bind_eq_some_iff] at h
    obtain ⟨x, hx, y, hy, h⟩ := h
    cases y <;> simp [power] at h
  | .call f [], q, h => by simp [meaning] at h
  | .call f (a :: as), q, h => by
    rw [meaning] at h
    split at h
    · simp [Option.bind_eq_some_iff] at h
    · split at h
      · simp only [Option.bind_eq_bind, Option.bind_eq_some_iff] at h
        obtain ⟨x, _, ⟨xs, scheme⟩, _, h⟩ := h
        split at h
        · cases h
        · split at h
          · exact absurd h skew_num
          · simp at h
      · split at h
        · simp [Option.bind_eq_some_iff] at h
        · cases h

theorem power_value (C : Calculus R) (N : Names) {b : Syn} {x y r : Expr} (hb : meaning N b = some y) (h : power x y = some r) :
    C.eval r = C.fn ("**" ++ Front.numeral (b.rational.getD 0)) (C.eval x) := by
  cases y with
  | num q =>
    simp only [power, Option.some.injEq] at h
    subst h
    rw [meaning_rational N b q hb]
    rfl
  | _ => simp [power] at h

theorem name_value (C : Calculus R) (N : Names) {s : String} {r : Expr} (h : meaning N (.name s) = some r) : C.eval r = (Syn.name s).value C N ∧ Parse.factors r = [r] ∧ ∀ b, times r b = .mul r b := by
  simp only [meaning] at h
  simp only [Syn.value]
  split at h <;> simp only [Option.some.injEq, reduceCtorEq] at h <;> subst h <;> rename_i hc <;> simp [hc, Calculus.eval, Parse.factors, times]

/-- C95: the expression that is made of a text has the value of what is written. -/
theorem C95_value (N : Names) (C : Calculus R) (hC : Inverts C) : ∀ (e : Syn) (r : Expr), e.Fine N → meaning N e = some r → C.eval r = e.value C N
  | .num x, r, _, h => by
    simp only [meaning, Option.some.injEq] at h
    subst h
    rfl
  | .name s, r, _, h => (name_value C N h).1
  | .kw s, r, _, h => by simp [meaning] at h
  | .neg a, r, he, h => by
    simp only [meaning, Option.bind_eq_bind, Option.bind_eq_some_iff, Option.some.injEq] at h
    obtain ⟨x, hx, rfl⟩ := h
    rw [eval_minus, C95_value N C hC a x he hx, Syn.value]
  | .bin .add a b, r, he, h => by
    simp only [meaning, Option.bind_eq_bind, Option.bind_eq_some_iff, Option.some.injEq] at h
    obtain ⟨x, hx, y, hy, rfl⟩ := h
    rw [Calculus.eval, C95_value N C hC a x he.1 hx, C95_value N C hC b y he.2 hy, Syn.value]
  | .bin .sub a b, r, he, h => by
    simp only [meaning, Option.bind_eq_bind, Option.bind_eq_some_iff, Option.some.injEq] at h
    obtain ⟨x, hx, y, hy, rfl⟩ := h
    rw [Calculus.eval, eval_minus, C95_value N C hC a x he.1 hx, C95_value N C hC b y he.2 hy, Syn.value, sub_eq_add_neg]
  | .bin .mul a b, r, he, h => by
    simp only [meaning, Option.bind_eq_bind, Option.bind_eq_some_iff, Option.some.injEq] at h
    obtain ⟨x, hx, y, hy, rfl⟩ := h
    rw [eval_times, C95_value N C hC a x he.1 hx, C95_value N C hC b y he.2 hy, Syn.value]
  | .bin .div a b, r, he, h => by
    simp only [meaning, Option.bind_eq_bind, Option.bind_eq_some_iff] at h
    obtain ⟨x, hx, y, hy, h⟩ := h
    rw [eval_over C hC h, C95_value N C hC a x he.1 hx, C95_value N C hC b y he.2 hy, Syn.value]
  | .bin .pow a b, r, he, h => by
    simp only [meaning, Option.bind_eq_bind, Option.bind_eq_some_iff] at h
    obtain ⟨x, hx, y, hy, h⟩ := h
    rw [power_value C N hy h, C95_value N C hC a x he.1 hx, Syn.value]
  | .call f [], r, _, h => by simp [meaning] at h
  | .call f (a :: as), r, he, h => by
    have ih := C95_value N C hC a
    rw [meaning] at h
    rw [Syn.value]
    by_cases hk : f = "KD" ∨ f = "LC"
    · rw [if_pos hk] at h ⊢
      simp only [Option.bind_eq_bind, Option.bind_eq_some_iff, Option.some.injEq] at h
      obtain ⟨l, hl, rfl⟩ := h
      rw [hl]
      rfl
    · rw [if_neg hk] at h ⊢
      rw [Syn.Fine] at he
      obtain ⟨h1, h2, h3⟩ := he (by tauto)
      by_cases hd : f = "Der" ∨ f = "Conservative" ∨ f = "Skew"
      · rw [if_pos hd] at h ⊢
        simp only [Option.bind_eq_bind, Option.bind_eq_some_iff] at h
        obtain ⟨x, hx, ⟨xs, scheme⟩, hxs, h⟩ := h
        obtain ⟨g1, g2, g3⟩ := h2 xs scheme hxs
        rw [hxs]
        split at h
        · cases h
        · split at h
          · rename_i hf
            obtain ⟨⟨s, t, rfl⟩, y, scheme', hy⟩ := h3 hf
            rw [hxs] at hy
            cases hy
            rw [← ih x h1 hx]
            rw [meaning] at hx
            simp only [Option.bind_eq_bind, Option.bind_eq_some_iff, Option.some.injEq] at hx
            obtain ⟨p, hp, q, hq, rfl⟩ := hx
            obtain ⟨-, p1, p2⟩ := name_value C N hp
            obtain ⟨-, q1, -⟩ := name_value C N hq
            rw [p2] at h ⊢
            obtain ⟨r', hr, hv⟩ := Parse.C82_skew_partial.{u} N.time scheme p q p1 q1 y ⟨fun e => g2 (by simp [e]), fun e => g3 (by simp [e])⟩ (fun s hs e => g1 s hs (by simp [e]))
            rw [hr] at h
            simp only [Except.toOption, Option.some.injEq] at h
            subst h
            rw [hv]
            rfl
          · cases h
            rw [Calculus.eval, (Parse.C82_scheme N.time scheme xs g1 g2 g3).1, ih x h1 hx]
            rfl
      · rw [if_neg hd] at h ⊢
        split at h
        · simp only [Option.bind_eq_bind, Option.bind_eq_some_iff, Option.some.injEq] at h
          obtain ⟨x, hx, rfl⟩ := h
          rw [Calculus.eval, ih x h1 hx]
        · cases h

/-! ## Up to index notation -/

theorem eval_plus (C : Calculus R) (a b : Expr) : C.eval (Front.plus a b) = C.eval a + C.eval b := by
  unfold Front.plus
  split
  · simp only [Calculus.eval, map_add]
  · split
    · rename_i h; simp [Calculus.eval, h]
    · rfl
  · split
    · rename_i h; simp [Calculus.eval, h]
    · rfl
  · rfl

theorem eval_product (C : Calculus R) (a b : Expr) : C.eval (Front.times a b) = C.eval a * C.eval b := by
  unfold Front.times
  split
  · simp only [Calculus.eval, map_mul]
  · split
    · rename_i h; simp [Calculus.eval, h]
    · split
      · rename_i h; simp [Calculus.eval, h]
      · rfl
  · split
    · rename_i h; simp [Calculus.eval, h]
    · split
      · rename_i h; simp [Calculus.eval, h]
      · rfl
  · rfl

theorem eval_tidy (C : Calculus R) (e : Expr) : C.eval (Front.tidy e) = C.eval e := by
  induction e with
  | add a b iha ihb => rw [Front.tidy, eval_plus, iha, ihb, Calculus.eval]
  | mul a b iha ihb => rw [Front.tidy, eval_product, iha, ihb, Calculus.eval]
  | app f a ih => rw [Front.tidy, Calculus.eval, ih, Calculus.eval]
  | disc s a vs ih => rw [Front.tidy, Calculus.eval, ih, Calculus.eval]
  | _ => rfl

theorem tidy_expanded {e : Expr} (h : e.Expanded) : (Front.tidy e).Expanded := by
  have hp : ∀ a b : Expr, a.Expanded → b.Expanded → (Front.plus a b).Expanded := by
    intro a b ha hb
    unfold Front.plus
    split
    · trivial
    · split
      · exact hb
      · exact ⟨ha, hb⟩
    · split
      · exact ha
      · exact ⟨ha, hb⟩
    · exact ⟨ha, hb⟩
  have ht : ∀ a b : Expr, a.Expanded → b.Expanded → (Front.times a b).Expanded := by
    intro a b ha hb
    unfold Front.times
    split
    · trivial
    · split
      · trivial
      · split
        · exact hb
        · exact ⟨ha, hb⟩
    · split
      · trivial
      · split
        · exact ha
        · exact ⟨ha, hb⟩
    · exact ⟨ha, hb⟩
  induction e with
  | add a b iha ihb => exact hp _ _ (iha h.1) (ihb h.2)
  | mul a b iha ihb => exact ht _ _ (iha h.1) (ihb h.2)
  | app f a ih => exact ih h
  | disc s a vs ih => exact ih h
  | _ => exact h

/-- C95: a side of an equation, from its text to the expression that is written in index notation, with the substitutions made, the products differentiated and the numbers combined: nothing is left of the derivatives as written, and the value is that of
the text if the left hand sides of the substitutions have the values of the right hand sides. -/
theorem C95_side_partial (N : Names) (canon : List String → List String) (hc : ∀ l, (canon l).Perm l) {e : Syn} {subs : List (String × Expr)} {r : Expr} (he : e.Fine N) (hr : meaning N e = some r)
    (hd : r.Default N.time) (hs : ∀ s ∈ subs, s.2.Default N.time) (hp : (Parse.substitutions N.time subs r).Supported N.time) :
    ∃ t : Expr, Front.side N.time canon subs r = Front.lower t ∧ t.Expanded ∧
      ∀ (R : Type u) [CommRing R] [Algebra ℚ R] (C : Calculus R), Inverts C → (∀ s ∈ subs, C.data s.1 = C.eval s.2) → C.eval t = e.value C N := by
  obtain ⟨r', h1, h2, h3⟩ := Parse.C82_expand_partial.{u} N.time canon hc _ hp
  refine ⟨Front.tidy r', by rw [Front.side, h1], tidy_expanded h2, fun R _ _ C hC hsub => ?_⟩
  rw [eval_tidy, h3, Parse.C82_substitutions_partial N.time subs r hd hs C hsub, C95_value N C hC e r he hr]

/-! ## Names with indices -/

theorem pieces_ne_nil (l : List Char) : Front.pieces l ≠ [] := by
  cases l with
  | nil => simp [Front.pieces]
  | cons c cs =>
    rw [Front.pieces]
    split
    · simp
    · split <;> simp

theorem pieces_append {p : List Char} (hp : '_' ∉ p) (cs : List Char) : Front.pieces (p ++ '_' :: cs) = p :: Front.pieces cs := by
  induction p with
  | nil => simp [Front.pieces]
  | cons c p ih =>
    have hc : c ≠ '_' := fun h => hp (by simp [h])
    rw [List.cons_append, Front.pieces, if_neg hc, ih fun h => hp (by simp [h])]

theorem pieces_single {p : List Char} (hp : '_' ∉ p) : Front.pieces p = [p] := by
  induction p with
  | nil => rfl
  | cons c p ih =>
    have hc : c ≠ '_' := fun h => hp (by simp [h])
    rw [Front.pieces, if_neg hc, ih fun h => hp (by simp [h])]

/-- C95: a name is the base and the indices behind the underscores, in the order in which they are written: `tau_i_j` is `tau` with the indices `i` and `j`. -/
theorem C95_indices (base : String) (indices : List String) (hb : '_' ∉ base.toList) (hi : ∀ i ∈ indices, '_' ∉ i.toList) :
    Front.symbol (indices.foldl (fun s i => s ++ "_" ++ i) base) = .term base indices := by
  have key : ∀ (l : List String), (∀ i ∈ l, '_' ∉ i.toList) → ∀ p : List Char, '_' ∉ p → Front.pieces (p ++ l.flatMap fun i => '_' :: i.toList) = p :: l.map String.toList := by
    intro l
    induction l with
    | nil => intro _ p hp; simpa using pieces_single hp
    | cons i l ih =>
      intro hl p hp
      rw [List.flatMap_cons, List.cons_append, pieces_append hp, ih (fun j hj => hl j (by simp [hj])) _ (hl i (by simp))]
      rfl
  have hf : ∀ (l : List String) (b : String), (l.foldl (fun s i => s ++ "_" ++ i) b).toList = b.toList ++ l.flatMap fun i => '_' :: i.toList := by
    intro l
    induction l with
    | nil => intro b; simp
    | cons i l ih => intro b; rw [List.foldl_cons, ih]; simp [String.toList_append]
  rw [Front.symbol, hf, key indices hi _ hb]
  simp [Function.comp_def]

example : Front.symbol "tau_i_j" = .term "tau" ["i", "j"] := C95_indices "tau" ["i", "j"] (by decide) (by decide)

set_option maxRecDepth 20000 in
/-- A text with both kinds of derivatives and a substitution that meets the conditions. -/
example : let N : Names := ⟨"x", "t", ["Re"], []⟩
    let e : Syn := .bin .add (.neg (.call "Skew" [.bin .mul (.name "rhou_i") (.name "u_j"), .name "x_j"])) (.call "Der" [.name "tau_i_j", .name "x_j"])
    let s : Expr := .mul (.user .der (.data "u_i") ["x_j", "Central"]) (.app "**-1" (.const "Re"))
    let r : Expr := .add (.mul (.num (-1)) (.mul (.num (1/2)) (.add (.user .conservative (.mul (.data "rhou_i") (.data "u_j")) ["x_j", "Central"])
      (.add (.mul (.data "u_j") (.user .der (.data "rhou_i") ["x_j", "Central"])) (.mul (.data "rhou_i") (.user .der (.data "u_j") ["x_j", "Central"])))))) (.user .der (.data "tau_i_j") ["x_j", "Central"])
    read "- Skew(rhou_i*u_j, x_j) + Der(tau_i_j,x_j)" = some e ∧ (equation N "Eq(tau_i_j, Der(u_i,x_j)/Re)") = some (.data "tau_i_j", s) ∧
    e.Fine N ∧ meaning N e = some r ∧ r.Default "t" ∧ s.Default "t" ∧ (Parse.substitutions "t" [("tau_i_j", s)] r).Supported "t" := by
  intro N e s r
  have hx : coordinates N [.name "x_j"] = some (["x_j"], none) := by decide +kernel
  refine ⟨by with_unfolding_all rfl, by decide +kernel, ?_, by decide +kernel, ?_, ?_, ?_⟩
  · simp only [e, Syn.Fine, hx]
    simp
  · simp [r, Expr.Default, Parse.schemeOf]
  · simp [s, Expr.Default, Parse.schemeOf]
  · simp [r, s, Parse.substitutions, Parse.subst, Parse.setArgs, Expr.Supported, Expr.Flat, Expr.Plain, Expr.Default, Parse.schemeOf, Parse.schemes]

/-- Polynomials, in which numbers have inverses. -/
noncomputable def inverting (data : String → MvPolynomial String ℚ) : Calculus (MvPolynomial String ℚ) :=
  { Parse.polynomials data with
    fn := fun f a => if f = "**-1" then MvPolynomial.C (MvPolynomial.constantCoeff a)⁻¹ else 0
    chain := by
      intro x f a
      have h : f ++ "'" ≠ "**-1" := by
        intro h
        have h' := congrArg (fun s : String => s.toList.getLast?) h
        simp at h'
      rw [if_neg h]
      split <;> simp [Parse.polynomials] }

/-- The value of `p/2`. -/
example : Inverts (inverting fun _ => MvPolynomial.X "x_0") ∧
    (Syn.bin .div (.name "p") (.num 2)).value (inverting fun _ => MvPolynomial.X "x_0") ⟨"x", "t", [], []⟩ = MvPolynomial.X "x_0" * MvPolynomial.C (1/2) := by
  constructor
  · intro q hq
    simp [inverting, MvPolynomial.algebraMap_eq]
  · have h : Parse.classify "x" "t" [] [] "p" = .dataObject := by decide +kernel
    simp only [Syn.value, h]
    simp [inverting, Parse.polynomials, MvPolynomial.algebraMap_eq]

end OpenSBLI.Source
