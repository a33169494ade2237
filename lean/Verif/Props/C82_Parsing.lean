import Mathlib.Algebra.MvPolynomial.PDeriv
import Mathlib.RingTheory.Derivation.Lie
import Mathlib.Tactic.LinearCombination
import Mathlib.Tactic.NormNum
import Verif.Lemmas.Parsing

/-!
# C82: equations as written

The text of an equation is read as it is meant: names stand for coordinates, time, data, constants and index symbols; the derivatives that the code passes on to the schemes have the same
value as those written by the user; `Conservative` keeps its argument whole, `Der` applies the product rule; the scheme is the one that was asked for.
-/
namespace OpenSBLI.Parse

universe u

/-! ## Derivatives -/

/-- `Der`: for an expression with any number of derivatives in it, not nested and without a `scheme` keyword, the result exists, all derivatives in it are derivatives of single data objects, for the
scheme of the outer derivative, with the variables of the outer derivative last, and its value is that of the expression as written. -/
theorem C82_der (time : String) (a : Expr) (args : List String) (ha : a.Flat .der) (hd : a.Default time) (hs : schemeOf args ∈ schemes) :
    ∃ r, derDifferentiate time a args = .ok r ∧ r.Discretised (schemeOf args)
      ∧ (∀ p ∈ r.discs, (∃ d, p.1 = .data d) ∧ ∃ l1 l2, p.2 = l1 ++ l2 ∧ (∀ x ∈ l1, x ∉ args.dropLast) ∧ ∀ x ∈ l2, x ∈ args.dropLast)
      ∧ ∀ (R : Type u) [CommRing R] [Algebra ℚ R] (C : Calculus R), C.eval r = C.eval (.user .der a args) := by
  rw [derDifferentiate, rebuilt_default hd]
  simp only [resolve_flat time _ ha]
  set deps := args.dropLast ++ (derNodes a).flatMap (fun p => p.2.dropLast) with hdeps
  set order := (derNodes a).flatMap (fun p => p.2.dropLast) ++ args.dropLast with horder
  have hE := diffs_elementary deps args.dropLast (resolve_elementary deps ha)
  refine ⟨_, setSchemes_elementary time hs _ hE, inner_discretised _ _ _ hE, ?_, ?_⟩
  · intro p hp
    obtain ⟨d, vs, rfl⟩ := inner_discs _ _ _ hE p hp
    exact ⟨⟨d, rfl⟩, sortBy_split _ _ vs⟩
  · intro R _ _ C
    rw [eval_inner C _ _ _ (sortBy_perm order) hE, eval_diffs C (by intro x hx; simp [hdeps, hx]) (resolve_elementary deps ha), eval_mapUser, Calculus.eval]
    intro p hp
    refine eval_diffs C ?_ ?_
    · intro x hx
      rw [← derNodes_flat ha] at hp
      exact List.mem_append_right _ (List.mem_flatMap.2 ⟨p, hp, hx⟩)
    · exact (userNodes_plain ha hp).elementary

/-- `Conservative`: the result is the derivative of the whole argument, in which the derivatives of the user stand where they were; its value is that of the expression as written. -/
theorem C82_conservative (time : String) (canon : List String → List String) (hc : ∀ l, (canon l).Perm l) (a : Expr) (args : List String) (ha : a.Flat .conservative) (hs : schemeOf args ∈ schemes) :
    consDifferentiate time canon a args = .ok (consForm (schemeOf args) canon a args.dropLast)
      ∧ ∀ (R : Type u) [CommRing R] [Algebra ℚ R] (C : Calculus R), C.eval (consForm (schemeOf args) canon a args.dropLast) = C.eval (.user .conservative a args) := by
  rw [consDifferentiate, unwrap_flat time ha, setSchemes_conservative time hs canon ha]
  exact ⟨rfl, fun R _ _ C => eval_consForm C _ canon hc ha _⟩

theorem discretised_expanded {s : String} {e : Expr} (h : e.Discretised s) : e.Expanded := by
  induction e <;> simp_all [Expr.Discretised, Expr.Expanded]

theorem consForm_expanded (s : String) (canon : List String → List String) {a : Expr} {o : Op} (h : a.Flat o) (vars : List String) : (consForm s canon a vars).Expanded := by
  have hp : ∀ {e : Expr}, e.Plain → e.Expanded := by
    intro e he
    induction e <;> simp_all [Expr.Plain, Expr.Expanded]
  have hw : ∀ {e : Expr}, e.Flat o → (e.withScheme s canon).Expanded := by
    intro e he
    induction e with
    | user o' b bs => simpa [Expr.withScheme, Expr.Expanded, withScheme_plain s canon he.2] using hp he.2
    | _ => simp_all [Expr.Flat, Expr.withScheme, Expr.Expanded]
  cases a with
  | user o' b bs => exact hp (e := b) h.2
  | _ => exact hw h

/-- A side of an equation with any number of derivatives of both kinds: nothing is left of the derivatives as written, and the value is the same. -/
theorem C82_expand_partial (time : String) (canon : List String → List String) (hc : ∀ l, (canon l).Perm l) (e : Expr) (he : e.Supported time) :
    ∃ r, expandDers time canon e = .ok r ∧ r.Expanded ∧ ∀ (R : Type u) [CommRing R] [Algebra ℚ R] (C : Calculus R), C.eval r = C.eval e := by
  induction e with
  | add a b iha ihb =>
    obtain ⟨r, hr, h1, h2⟩ := iha he.1
    obtain ⟨r', hr', h1', h2'⟩ := ihb he.2
    exact ⟨.add r r', by rw [expandDers, hr, hr']; rfl, ⟨h1, h1'⟩, fun R _ _ C => by rw [Calculus.eval, Calculus.eval, h2, h2']⟩
  | mul a b iha ihb =>
    obtain ⟨r, hr, h1, h2⟩ := iha he.1
    obtain ⟨r', hr', h1', h2'⟩ := ihb he.2
    exact ⟨.mul r r', by rw [expandDers, hr, hr']; rfl, ⟨h1, h1'⟩, fun R _ _ C => by rw [Calculus.eval, Calculus.eval, h2, h2']⟩
  | app f a ih =>
    obtain ⟨r, hr, h1, h2⟩ := ih he
    exact ⟨.app f r, by rw [expandDers, hr]; rfl, h1, fun R _ _ C => by rw [Calculus.eval, Calculus.eval, h2]⟩
  | user o a args =>
    obtain ⟨h1, h2, h3⟩ := he
    cases o with
    | der =>
      obtain ⟨r, hr, h4, -, h5⟩ := C82_der.{u} time a args h1 (h2 rfl) h3
      exact ⟨r, hr, discretised_expanded h4, h5⟩
    | conservative =>
      obtain ⟨hr, h5⟩ := C82_conservative.{u} time canon hc a args h1 h3
      exact ⟨_, hr, consForm_expanded _ _ h1 _, h5⟩
  | der => exact he.elim
  | disc => exact he.elim
  | bad => exact he.elim
  | _ => exact ⟨_, rfl, trivial, fun R _ _ C => rfl⟩

/-- Substitutions, for example of the stress tensor: if the left-hand sides have the values of the right-hand sides, then the equation keeps its value. The derivatives of the equation and of the
substitutions have no `scheme` keyword. -/
theorem C82_substitutions_partial (time : String) (subs : List (String × Expr)) (e : Expr) (he : e.Default time) (hsub : ∀ s ∈ subs, s.2.Default time)
    {R : Type u} [CommRing R] [Algebra ℚ R] (C : Calculus R) (hC : ∀ s ∈ subs, C.data s.1 = C.eval s.2) :
    C.eval (substitutions time subs e) = C.eval e := by
  induction subs generalizing e with
  | nil => rfl
  | cons s subs ih =>
    rw [substitutions, List.foldl_cons]
    change C.eval (substitutions time subs _) = _
    rw [ih _ (subst_default time (hsub s List.mem_cons_self) he) (fun s' hs' => hsub s' (List.mem_cons_of_mem _ hs')) (fun s' hs' => hC s' (List.mem_cons_of_mem _ hs')),
      eval_subst C time (p := .data s.1) (hC s List.mem_cons_self) he]

/-! ## The scheme -/

/-- A derivative as written: the variables, then the scheme that the keyword names, or else `Temporal` for the time and `Central` for space. -/
theorem C82_scheme (time : String) (scheme : Option String) (vars : List String) (h : ∀ s ∈ scheme, s ∉ vars) (hC : "Central" ∉ vars) (hT : "Temporal" ∉ vars) :
    (setArgs time scheme vars).dropLast = vars
      ∧ schemeOf (setArgs time scheme vars) = match scheme with
        | some s => s
        | none => if vars.head? = some time then "Temporal" else "Central" := by
  have key : ∀ s, s ∉ vars → ¬ vars.getLast? = some s := fun s hs he => hs (List.mem_of_getLast? he)
  have hn : (if vars.head? = some time then "Temporal" else "Central") ∉ vars := by split <;> assumption
  cases scheme with
  | none => simp [setArgs, key _ hn, schemeOf]
  | some s => simp [setArgs, key _ (h s rfl), schemeOf]

/-- A derivative with another scheme than the default does not survive being built anew: the default scheme is appended, and the name of the scheme that was asked for becomes a variable. -/
theorem C82_rebuilt (time : String) (vars : List String) (s : String) (hv : vars ≠ []) (hs : s ≠ if vars.head? = some time then "Temporal" else "Central") :
    (setArgs time none (vars ++ [s])).dropLast = vars ++ [s] ∧ schemeOf (setArgs time none (vars ++ [s])) = if vars.head? = some time then "Temporal" else "Central" := by
  have : (vars ++ [s]).head? = vars.head? := by cases vars; exacts [absurd rfl hv, rfl]
  rw [setArgs, this]
  simp [hs, schemeOf]

/-- A substitution inside such a derivative therefore turns `Conservative(tau, x, scheme=Weno)` into a central derivative with respect to `x` and `Weno`. -/
theorem C82_substitution_scheme (time n x s : String) (q : Expr) (hq : q ≠ .data n) (o : Op) (hx : x ≠ time) (hs : s ≠ "Central") :
    substitutions time [(n, q)] (.user o (.data n) [x, s]) = .user o q [x, s, "Central"] := by
  simp [substitutions, subst, hq, setArgs, hx, hs]

/-- An inner `Der` with another scheme than the default is lost: the result is zero. -/
theorem C82_inner_scheme (time u x y s s' : String) (hs : s ≠ if x = time then "Temporal" else "Central") (hx : s ≠ x) (hy : s ≠ y) :
    derDifferentiate time (.user .der (.data u) [x, s]) [y, s'] = .ok (.num 0) := by
  have hr : rebuilt time (.user .der (.data u) [x, s]) = .user .der (.data u) [x, s, if x = time then "Temporal" else "Central"] := by
    simp [rebuilt, Expr.hasData, setArgs, hs]
  rw [derDifferentiate, hr]
  simp only [derNodes, resolve, List.nil_append, List.foldl_cons, List.foldl_nil]
  simp [subst, diffs, diff, hx, hy, setSchemes, modifications, inner, Expr.hasDer]
  rfl

/-- Inside `Conservative`, an inner derivative gets the scheme of the outer one, whatever it asked for. -/
theorem C82_inner_scheme_conservative (time : String) (canon : List String → List String) (a b : Expr) (ha : a.Plain) (hb : b.Plain) (x y s s' : String) (hs : s ∈ schemes) :
    consDifferentiate time canon (.mul a (.user .conservative b [y, s'])) [x, s] = .ok (.disc s (.mul a (.disc s b (canon [y]))) (canon [x])) := by
  have hf : Expr.Flat .conservative (.mul a (.user .conservative b [y, s'])) := ⟨ha.flat _, rfl, hb⟩
  rw [consDifferentiate, unwrap_flat time hf, setSchemes_conservative time (by simpa [schemeOf] using hs) canon hf]
  simp [consForm, Expr.withScheme, withScheme_plain, ha, hb, schemeOf]

/-- A scheme that the code does not know is an error for every conservative derivative. -/
theorem C82_unknown_scheme (time : String) (canon : List String → List String) (a : Expr) (args : List String) (ha : a.Flat .conservative) (hs : schemeOf args ∉ schemes) :
    consDifferentiate time canon a args = .error .key := by
  rw [consDifferentiate, unwrap_flat time ha, setSchemes, if_pos]
  have : ∀ (b : Expr) vs, (mkDer b vs).hasDer = true := by intro b vs; cases b <;> simp [mkDer, Expr.hasDer]
  simp [this, hs]

/-! ## Deeper nesting -/

/-- `Conservative` inside `Conservative` inside `Conservative` is refused. -/
theorem C82_three_conservative (time : String) (canon : List String → List String) (a b c : Expr) (ha : a.Plain) (hb : b.Plain) (hc : c.Plain) (x y z s s' s'' : String) (hs : s ∈ schemes) :
    consDifferentiate time canon (.mul a (.user .conservative (.mul b (.user .conservative c [z, s''])) [y, s'])) [x, s] = .error .value := by
  have hu : unwrap time (.user .conservative (.mul a (.user .conservative (.mul b (.user .conservative c [z, s''])) [y, s'])) [x, s])
      = .der (.mul a (.der (.mul b (.der c [z])) [y])) [x] := by
    simp only [unwrap, consNodes, ha.consNodes, hb.consNodes, hc.consNodes, List.nil_append, List.foldl_cons, List.foldl_nil, subst_self, mkDer, subst_der, subst_mul,
      subst_tidy time _ _ _ _ ha.tidy, subst_tidy time _ _ _ _ hb.tidy, List.dropLast_cons_cons, List.dropLast_singleton]
    have := mkDer_of_ne hc.ne_der [z]
    rw [mkDer.eq_def] at this
    rw [this]
  rw [consDifferentiate, hu, setSchemes]
  simp [schemeOf, hs, modifications, modifications_plain ha, modifications_plain hb, modifications_plain hc, ha.hasDer, hb.hasDer, hc.hasDer, Expr.hasDer, inner, inner_plain time s canon ha,
    inner_plain time s canon hb, mkDer]
  rfl

/-- A `Der` inside a `Conservative` is left as it is: no scheme ever discretises it. -/
theorem C82_der_in_conservative (time : String) (canon : List String → List String) (a b : Expr) (ha : a.Plain) (hb : b.Plain) (x s : String) (args : List String) (hs : s ∈ schemes) :
    expandDers time canon (.user .conservative (.mul a (.user .der b args)) [x, s]) = .ok (.disc s (.mul a (.user .der b args)) (canon [x])) := by
  have hu : unwrap time (.user .conservative (.mul a (.user .der b args)) [x, s]) = .der (.mul a (.user .der b args)) [x] := by
    simp only [unwrap, consNodes, ha.consNodes, hb.consNodes, List.nil_append, List.foldl_cons, List.foldl_nil, subst_self, mkDer, List.dropLast_cons_cons, List.dropLast_singleton]
  rw [expandDers, differentiate, consDifferentiate, hu, setSchemes]
  simp [schemeOf, hs, modifications, modifications_plain ha, modifications_plain hb, ha.hasDer, hb.hasDer, Expr.hasDer, inner]
  rfl

/-- `Der` inside `Der` inside `Der` is not refused, but the middle one is never differentiated: it is left in the result, beside what SymPy makes of differentiating it. -/
theorem C82_three_der (time : String) (a b c : Expr) (ha : a.Plain) (hb : b.Plain) (hc : c.Plain) (x y z s : String) (hy : y ≠ time) (hz : z ≠ time) (hs : s ∈ schemes) :
    ∃ r, derDifferentiate time (.mul a (.user .der (.mul b (.user .der c [z, "Central"])) [y, "Central"])) [x, s] = .ok r ∧ ¬ r.Expanded := by
  have hd : Expr.Default time (.mul a (.user .der (.mul b (.user .der c [z, "Central"])) [y, "Central"])) := by
    have hp : ∀ {e : Expr}, e.Plain → e.Default time := by
      intro e he
      induction e <;> simp_all [Expr.Plain, Expr.Default]
    simp [Expr.Default, schemeOf, hy, hz, hp ha, hp hb, hp hc]
  rw [derDifferentiate, rebuilt_default hd]
  generalize hdeps : [x, s].dropLast ++ _ = deps
  generalize hord : _ ++ [x, s].dropLast = order
  set D := diffs deps [z] c with hD
  have hDe : D.Elementary := diffs_elementary _ _ hc.elementary
  have hbD : Expr.Elementary (.mul b D) := ⟨hb.elementary, hDe⟩
  have hres : resolve time deps (.mul a (.user .der (.mul b (.user .der c [z, "Central"])) [y, "Central"])) = .mul a (.user .der (.mul b D) [y, "Central"]) := by
    have h1 : subst time (.user .der c [z, "Central"]) D (.user .der (.mul b (.user .der c [z, "Central"])) [y, "Central"]) = .user .der (.mul b D) [y, "Central"] := by
      have hne : ¬ (Expr.mul b (.user .der c [z, "Central"]) = c) := by intro h; rw [← h] at hc; exact hc.2
      have hset : setArgs time none [y, "Central"] = [y, "Central"] := by simp [setArgs, hy]
      rw [subst]
      simp only [subst_mul, subst_tidy time _ _ _ _ hb.tidy, subst_self, hset, ite_self]
      rw [if_neg]
      simp [hne]
    have h2 : ∀ q, subst time (.user .der (.mul b (.user .der c [z, "Central"])) [y, "Central"]) q (.user .der (.mul b D) [y, "Central"]) = .user .der (.mul b D) [y, "Central"] := by
      intro q
      have hne : D ≠ .user .der c [z, "Central"] := by intro h; rw [h] at hDe; exact hDe
      rw [subst, subst_tidy time _ _ _ _ hbD.tidy]
      simp [hne]
    rw [resolve]
    simp only [derNodes, ha.derNodes, hb.derNodes, hc.derNodes, List.nil_append, List.cons_append, List.foldl_cons, List.foldl_nil, List.dropLast_cons_cons, List.dropLast_singleton]
    simp only [subst_mul, subst_tidy time _ _ _ _ ha.tidy, ← hD, h1, h2]
  rw [hres]
  have hdiff : diffs deps ([x, s].dropLast) (.mul a (.user .der (.mul b D) [y, "Central"])) = .add (.mul (diff deps x a) (.user .der (.mul b D) [y, "Central"])) (.mul a .bad) := by
    simp [diffs, diff]
  rw [hdiff, setSchemes]
  have hda := diff_elementary deps x ha.elementary
  simp only [schemeOf, List.getLastD_cons, List.getLastD_nil, modifications, hda.modifications, hb.elementary.modifications, hDe.modifications, modifications_plain ha,
    List.map_nil, List.nil_append, List.foldlM_nil]
  refine ⟨_, if_neg (by simp [hs]), ?_⟩
  simp [inner, Expr.Expanded]

/-! ## The skew-symmetric form -/

/-- `Skew` of a product of two factors, none of which is a product, in one direction has the value of the derivative of the product. -/
theorem C82_skew_partial (time : String) (scheme : Option String) (a b : Expr) (ha : factors a = [a]) (hb : factors b = [b]) (x : String) (hx : x ≠ "Central" ∧ x ≠ "Temporal") (hs : ∀ s ∈ scheme, s ≠ x) :
    ∃ r, skew time scheme (.mul a b) [x] = .ok r ∧ ∀ (R : Type u) [CommRing R] [Algebra ℚ R] (C : Calculus R), C.eval r = C.D x (C.eval a * C.eval b) := by
  have hd : (setArgs time scheme [x]).dropLast = [x] :=
    (C82_scheme time scheme [x] (by simpa using hs) (by simpa using hx.1.symm) (by simpa using hx.2.symm)).1
  refine ⟨_, by simp only [skew, Expr.args, ha, hb, List.cons_append, List.nil_append]; rfl, fun R _ _ C => ?_⟩
  simp only [Calculus.eval, hd, Calculus.Ds, List.foldl_cons, List.foldl_nil, Derivation.leibniz, smul_eq_mul]
  have h2 : algebraMap ℚ R (1 / 2) * 2 = 1 := by
    rw [show (2 : R) = algebraMap ℚ R 2 from (map_ofNat _ 2).symm, ← map_mul]; norm_num
  linear_combination (C.eval a * C.D x (C.eval b) + C.eval b * C.D x (C.eval a)) * h2

/-- `Skew` of a single data object, constant or coordinate is an error. -/
theorem C82_skew_symbol (time : String) (scheme : Option String) (n : String) (vars : List String) :
    skew time scheme (.data n) vars = .error .value ∧ skew time scheme (.const n) vars = .error .value ∧ skew time scheme (.coord n) vars = .error .value := ⟨rfl, rfl, rfl⟩

/-- `Skew` of a function of one argument ignores the `scheme` keyword. -/
theorem C82_skew_function (time : String) (scheme : Option String) (f : String) (a : Expr) (vars : List String) :
    skew time scheme (.app f a) vars = skew time none (.app f a) vars := rfl

/-! ## Coordinates in the equations -/

/-- A coordinate is differentiated as a symbol with its index, before the indices are expanded: the derivative of `x_i` with respect to `x_i` is the number one, with no sum over `i` left, and that of
`x_i` with respect to `x_j` is zero for every `i` and `j`. -/
theorem C82_coordinates (time x y s : String) : derDifferentiate time (.coord x) [y, s] = .ok (.num (if x = y then 1 else 0)) := by
  rw [derDifferentiate]
  by_cases h : x = y <;> simp [derNodes, rebuilt, resolve, diffs, diff, h, setSchemes, Expr.hasDer, modifications, inner] <;> rfl

/-! ## Names -/

theorem not_occursIn {pat name : String} (h : ¬ pat.toList <:+: name.toList) : occursIn pat name = false := decide_eq_false h

/-- A declared constant is read as a constant, if its name does not contain the coordinate with an underscore, and is not the name of a coordinate. -/
theorem C82_constants_partial (coordinate time : String) (loc glob : List String) (name : String) (hl : name ∈ loc) (hx : ¬ (coordinate ++ "_").toList <:+: name.toList) (h1 : name ≠ time)
    (h2 : name ≠ coordinate) : classify coordinate time loc glob name = .asIs := by
  simp [classify, not_occursIn hx, h1.symm, h2.symm, hl]

/-- A name that is nothing else is read as data, or, if it begins with an underscore, as an index symbol. -/
theorem C82_data_partial (coordinate time : String) (loc glob : List String) (name : String) (hl : name ∉ loc) (hg : name ∉ glob) (hx : ¬ (coordinate ++ "_").toList <:+: name.toList)
    (h1 : name ≠ time) (h2 : name ≠ coordinate) :
    classify coordinate time loc glob name = if name.toList.head? = some '_' then .einsteinTerm else .dataObject := by
  have h3 : occursIn "_" name = false → ¬ name.toList.head? = some '_' := by
    intro h hh
    rw [occursIn, decide_eq_false_iff_not] at h
    apply h
    obtain ⟨l, hl⟩ : ∃ l, name.toList = '_' :: l := by
      cases hn : name.toList with
      | nil => rw [hn] at hh; simp at hh
      | cons c l => rw [hn] at hh; simp at hh; exact ⟨l, by rw [hh]⟩
    rw [hl]
    exact ⟨[], l, rfl⟩
  rw [classify]
  cases hu : occursIn "_" name
  · simp [not_occursIn hx, h1.symm, h2.symm, hl, hg, h3 hu]
  · simp [not_occursIn hx, h1.symm, h2.symm, hl]

/-- Coordinates and time are read as such. -/
theorem C82_coordinate_names (coordinate time : String) (loc glob : List String) (index : String) (ht : time ≠ coordinate) :
    classify coordinate time loc glob coordinate = .coordinate false ∧ classify coordinate time loc glob time = .coordinate true
      ∧ (coordinate ++ "_" ++ index ≠ time → classify coordinate time loc glob (coordinate ++ "_" ++ index) = .coordinate false) := by
  refine ⟨by simp [classify, ht], by simp [classify], ?_⟩
  intro h
  have : occursIn (coordinate ++ "_") (coordinate ++ "_" ++ index) = true := by
    rw [occursIn, decide_eq_true_iff]
    exact ⟨[], index.toList, by simp [String.toList_append]⟩
  simp [classify, this, h.symm]

/-- Every name that contains the coordinate followed by an underscore is read as a coordinate, wherever it contains it, even when it is a declared constant. -/
theorem C82_names_coordinate (coordinate time : String) (loc glob : List String) (pre post : String) (h : pre ++ coordinate ++ "_" ++ post ≠ time) :
    classify coordinate time loc glob (pre ++ coordinate ++ "_" ++ post) = .coordinate false := by
  have : occursIn (coordinate ++ "_") (pre ++ coordinate ++ "_" ++ post) = true := by
    rw [occursIn, decide_eq_true_iff]
    exact ⟨pre.toList, post.toList, by simp [String.toList_append]⟩
  simp [classify, this, h.symm]

/-- A name without underscore that SymPy uses is not read as data. -/
theorem C82_names_library (coordinate time : String) (loc glob : List String) (name : String) (hg : name ∈ glob) (hu : ¬ "_".toList <:+: name.toList) (h1 : name ≠ time) (h2 : name ≠ coordinate) :
    classify coordinate time loc glob name = .asIs := by
  have hx : ¬ (coordinate ++ "_").toList <:+: name.toList := by
    rintro ⟨l, r, h⟩
    exact hu ⟨l ++ coordinate.toList, r, by rw [← h]; simp [String.toList_append]⟩
  by_cases hl : name ∈ loc <;> simp [classify, not_occursIn hx, not_occursIn hu, h1.symm, h2.symm, hl, hg]

/-! ## Examples -/

/-- Polynomials in the coordinates are a calculus (with the functions of one argument left out). -/
noncomputable def polynomials (data : String → MvPolynomial String ℚ) : Calculus (MvPolynomial String ℚ) where
  D x := MvPolynomial.pderiv x
  comm x y a := by
    let P : String → Derivation ℚ (MvPolynomial String ℚ) (MvPolynomial String ℚ) := fun z => MvPolynomial.pderiv z
    have : ⁅P x, P y⁆ = 0 := by
      apply MvPolynomial.derivation_ext
      intro i
      simp [P, Derivation.commutator_apply, MvPolynomial.pderiv_X, Pi.single_apply]
      split <;> split <;> simp
    have := congrArg (fun d => d a) this
    simpa [P, Derivation.commutator_apply, sub_eq_zero] using this
  data := data
  const _ := 2
  coord y := MvPolynomial.X y
  fn _ _ := 0
  const_D x c := by
    have : (2 : MvPolynomial String ℚ) = MvPolynomial.C 2 := (map_ofNat _ 2).symm
    rw [this, MvPolynomial.pderiv_C]
  coord_D x y := by
    by_cases h : y = x
    · subst h; simp
    · simp [h, MvPolynomial.pderiv_X_of_ne h]
  chain x f a := by simp

/-- The viscous term of the momentum equation, as in the applications: `Der(mu*(Der(u_i,x_j) + Der(u_j,x_i)), x_j)`. -/
def viscous : Expr :=
  .mul (.data "mu") (.add (.user .der (.data "u_i") (setArgs "t" none ["x_j"])) (.user .der (.data "u_j") (setArgs "t" none ["x_i"])))

example : viscous.Flat .der ∧ viscous.Default "t" ∧ schemeOf (setArgs "t" none ["x_j"]) ∈ schemes := by
  refine ⟨by simp [viscous, Expr.Flat, Expr.Plain], ?_, by decide⟩
  simp [viscous, Expr.Default, schemeOf, setArgs]

/-- Its mixed derivative takes the derivative with respect to `x_i`, written inside, first. -/
example : ∃ r, derDifferentiate "t" viscous ["x_j", "Central"] = .ok r ∧ (.data "u_j", ["x_i", "x_j"]) ∈ r.discs ∧ (.data "u_i", ["x_j", "x_j"]) ∈ r.discs := by
  refine ⟨_, rfl, ?_, ?_⟩ <;> decide +kernel

/-- The convective term of the same equation, with a scheme of its own. -/
example (canon : List String → List String) : consDifferentiate "t" canon (.mul (.data "rhou_i") (.data "u_j")) (setArgs "t" (some "Weno") ["x_j"])
    = .ok (.disc "Weno" (.mul (.data "rhou_i") (.data "u_j")) (canon ["x_j"])) := rfl

/-- `Der(Der(u, x, scheme=Weno), y, scheme=Weno)` is read as zero, although the derivative of `x*y` is one. -/
theorem C82_inner_scheme_example :
    derDifferentiate "t" (.user .der (.data "u") (setArgs "t" (some "Weno") ["x0"])) (setArgs "t" (some "Weno") ["x1"]) = .ok (.num 0)
      ∧ (polynomials fun _ => MvPolynomial.X "x0" * MvPolynomial.X "x1").eval (.user .der (.user .der (.data "u") (setArgs "t" (some "Weno") ["x0"])) (setArgs "t" (some "Weno") ["x1"])) ≠ 0 := by
  refine ⟨C82_inner_scheme "t" "u" "x0" "x1" "Weno" "Weno" (by decide) (by decide) (by decide), ?_⟩
  simp [setArgs, Calculus.eval, Calculus.Ds, polynomials, MvPolynomial.pderiv_X]

/-- `Skew` of a sum of two terms takes the terms for factors: for `x + x` it has the value `1 + x` instead of 2. -/
theorem C82_skew_sum : ∃ r, skew "t" none (.add (.data "a") (.data "b")) ["x0"] = .ok r
    ∧ (polynomials fun _ => MvPolynomial.X "x0").eval r = 1 + MvPolynomial.X "x0"
    ∧ (polynomials fun _ => MvPolynomial.X "x0").D "x0" ((polynomials fun _ => MvPolynomial.X "x0").eval (.add (.data "a") (.data "b"))) = 2 := by
  refine ⟨_, rfl, ?_, ?_⟩
  · simp [setArgs, Calculus.eval, Calculus.Ds, polynomials]
    have h2 : (MvPolynomial.C 2⁻¹ : MvPolynomial String ℚ) * 2 = 1 := by
      rw [show (2 : MvPolynomial String ℚ) = MvPolynomial.C 2 from (map_ofNat _ 2).symm, ← map_mul]; norm_num
    linear_combination (1 + MvPolynomial.X "x0") * h2
  · simp [Calculus.eval, polynomials]; norm_num

example : factors (.data "rho") = [.data "rho"] ∧ factors (.data "u_j") = [.data "u_j"] := ⟨rfl, rfl⟩

/-- Data and constants with names that happen to contain `x_` are read as coordinates: a flux, a maximum. -/
example : classify "x" "t" ["gama", "max_iter"] [] "flux_i" = .coordinate false ∧ classify "x" "t" ["gama", "max_iter"] [] "max_iter" = .coordinate false
    ∧ classify "x" "t" ["gama", "max_iter"] [] "gama" = .asIs ∧ classify "x" "t" ["gama"] ["gamma"] "rhou_i" = .dataObject ∧ classify "x" "t" ["gama"] ["gamma"] "_i" = .einsteinTerm
    ∧ classify "x" "t" ["gama"] ["gamma"] "gamma" = .asIs ∧ classify "x" "t" [] [] "x_i" = .coordinate false ∧ classify "x" "t" [] [] "t" = .coordinate true := by
  decide +kernel

end OpenSBLI.Parse
