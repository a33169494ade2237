import Verif.Spec.Notation
import Verif.Props.C49_Indices
import Verif.Props.C85_SimulationText

/-!
# C92: programs compute what the equations in index notation say
-/
namespace OpenSBLI.Note
open OpenSBLI.Ein OpenSBLI.Sim

variable {D n : ℕ} {r : Reading} {I : Interp D} {m : Mem D}

/-! ### Sums and products -/

theorem plus_eval (a b : Ex D) (x : P D) : (plus a b).eval I m x = a.eval I m x + b.eval I m x := by
  unfold plus
  split_ifs with h h'
  · subst h; simp [Ex.eval]
  · subst h'; simp [Ex.eval]
  · rfl

theorem factor_eval (q : ℚ) (e : Ex D) (x : P D) : (factor q e).eval I m x = q * e.eval I m x := by
  unfold factor
  split_ifs with h h'
  · subst h; simp [Ex.eval]
  · subst h'; simp
  · rfl

theorem scale_eval (q : ℚ) (e : Ex D) (x : P D) : (scale q e).eval I m x = q * e.eval I m x := by
  induction e using scale.induct with
  | case1 a b iha ihb => simp only [scale, plus_eval, iha, ihb, Ex.eval, mul_add]
  | case2 r => simp [scale, Ex.eval]
  | case3 r e => simp only [scale, factor_eval, Ex.eval, Rat.cast_mul, mul_assoc]
  | case4 e h1 h2 h3 => rw [scale.eq_4 q e h1 h2 h3, factor_eval]

theorem times_eval (a b : Ex D) (x : P D) : (times a b).eval I m x = a.eval I m x * b.eval I m x := by
  unfold times
  split
  · simp [scale_eval, Ex.eval]
  · simp [scale_eval, Ex.eval, mul_comm]
  · rfl

/-! ### Reading -/

theorem coord_injective : Function.Injective (coord (D := D)) := fun d d' h => by
  by_contra hne
  have := congrFun h (Pi.single d 1)
  simp [coord, Ne.symm hne] at this

theorem value_eval {i : Ix} {v : ℕ} (h : value i = some v) (env : String → ℕ) : i.eval env = v := by
  cases i <;> simp [value] at h
  exact h

theorem values_eval {idx : List Ix} {vs : List ℕ} (h : values idx = some vs) (env : String → ℕ) : idx.map (Ix.eval env) = vs := by
  induction idx generalizing vs with
  | nil => simpa [values] using h.symm
  | cons i is ih =>
    simp only [values, Option.bind_eq_bind, Option.bind_eq_some_iff, Option.some.injEq] at h
    obtain ⟨v, hv, vs', hvs, rfl⟩ := h
    rw [List.map_cons, value_eval hv, ih hvs]

theorem direction_eval (hr : r.coordinate ≠ "") {e : SumExpr} {d : Fin D} (h : direction r e = some d) (env : String → ℕ) : e.eval (meaning r I m) D env = coord d := by
  unfold direction at h
  split at h
  · split_ifs at h with h1 h2
    · cases h
      subst h1
      simp [SumExpr.eval, meaning, hr, Ix.eval, h2]
  · cases h

theorem number_eval {e : SumExpr} {v : ℕ} (h : number e = some v) (env : String → ℕ) : e.eval (meaning r I m) D env = fun _ => (v : ℝ) := by
  unfold number at h
  split at h
  · split_ifs at h with h1
    · cases h
      subst h1
      simp [SumExpr.eval, meaning, Ix.eval]
  · cases h

/-- Reading keeps the meaning. -/
theorem read_eval (hr : r.coordinate ≠ "") (e : SumExpr) (e' : Ex D) (h : read r e = some e') (env : String → ℕ) : e'.eval I m = e.eval (meaning r I m) D env := by
  induction e generalizing e' with
  | zero => cases h; funext x; simp [Ex.eval, SumExpr.eval]
  | term b idx =>
    simp only [read, Option.bind_eq_bind, Option.bind_eq_some_iff] at h
    obtain ⟨vs, hvs, h⟩ := h
    simp only [SumExpr.eval, values_eval hvs]
    unfold leaf at h
    by_cases h0 : b = "" ∨ b = r.coordinate
    · rw [if_pos h0] at h
      cases h
    rw [if_neg h0] at h
    push Not at h0
    simp only [meaning, h0.1, h0.2, if_false]
    split at h <;> rename_i hq
    · cases h; simp only [hq]; rfl
    · cases h
      simp only [hq]
      split_ifs <;> rfl
  | add a b iha ihb =>
    simp only [read, Option.bind_eq_bind, Option.bind_eq_some_iff, Option.some.injEq] at h
    obtain ⟨a', ha, b', hb, rfl⟩ := h
    funext x
    rw [plus_eval, iha a' ha, ihb b' hb]
    rfl
  | mul a b iha ihb =>
    simp only [read, Option.bind_eq_bind, Option.bind_eq_some_iff, Option.some.injEq] at h
    obtain ⟨a', ha, b', hb, rfl⟩ := h
    funext x
    rw [times_eval, iha a' ha, ihb b' hb]
    rfl
  | fn f a b iha ihb =>
    simp only [read] at h
    split_ifs at h with h1 h2 h3
    · simp only [Option.bind_eq_bind, Option.bind_eq_some_iff, Option.some.injEq] at h
      obtain ⟨i, hi, j, hj, rfl⟩ := h
      funext x
      simp only [SumExpr.eval, number_eval hi, number_eval hj]
      simp only [meaning, h1, if_true, Nat.cast_inj, Ex.eval]
      split_ifs <;> simp
    · simp only [Option.bind_eq_bind, Option.bind_eq_some_iff, Option.some.injEq] at h
      obtain ⟨a', ha, b', hb, rfl⟩ := h
      funext x
      simp only [SumExpr.eval, Ex.eval, iha a' ha, ihb b' hb]
      simp [meaning, h2]
    · simp only [Option.bind_eq_bind, Option.bind_eq_some_iff, Option.some.injEq] at h
      obtain ⟨d, hd, a', ha, rfl⟩ := h
      simp only [SumExpr.eval, Ex.eval, iha a' ha, direction_eval hr hd]
      have hex : f ∈ ["Der", "Conservative"] ∧ ∃ d' : Fin D, coord d = coord d' := ⟨h3, d, rfl⟩
      simp only [meaning, h1, h2, if_false, dif_pos hex]
      rw [← coord_injective hex.2.choose_spec]
  | fn3 f a b c iha ihb ihc =>
    simp only [read] at h
    split_ifs at h with h3
    simp only [Option.bind_eq_bind, Option.bind_eq_some_iff, Option.some.injEq] at h
    obtain ⟨a', ha, i, hi, j, hj, rfl⟩ := h
    simp only [SumExpr.eval, direction_eval hr hi, direction_eval hr hj, ← iha a' ha]
    have hex : f ∈ ["Der", "Conservative"] ∧ (∃ d' : Fin D, coord i = coord d') ∧ ∃ d' : Fin D, coord j = coord d' := ⟨h3, ⟨i, rfl⟩, ⟨j, rfl⟩⟩
    simp only [meaning, dif_pos hex]
    rw [← coord_injective hex.2.1.choose_spec, ← coord_injective hex.2.2.choose_spec]
    split_ifs <;> rfl
  | sum k a _ => cases h

/-! ### Expanding -/

theorem setMany_self (env : String → ℕ) (ks : List String) : setMany env (ks.zip (ks.map env)) = env := by
  funext k
  unfold setMany
  induction ks with
  | nil => rfl
  | cons j ks ih =>
    simp only [List.map_cons, List.zip_cons_cons, List.find?_cons]
    by_cases h : j = k
    · subst h; simp
    · simp only [beq_eq_false_iff_ne.mpr h, ih]

/-- The equations an equation stands for, by the values of the indices. -/
theorem expand_mem {order : List String → List String} {lhs rhs : Expr} {l : List (SumExpr × SumExpr)} (h : expandEquation D order lhs rhs = .ok l) :
    ∃ pl pr, structure_ lhs = .ok pl ∧ structure_ rhs = .ok pr ∧
      (∀ env : String → ℕ, (∀ k, env k < D) → ∃ map : List (String × ℕ), setMany env map = env ∧ ((expandSums D pl.1).applyMany map, (expandSums D pr.1).applyMany map) ∈ l) ∧
      ∀ p ∈ l, ∃ map : List (String × ℕ), (∀ q ∈ map, q.2 < D) ∧ p = ((expandSums D pl.1).applyMany map, (expandSums D pr.1).applyMany map) := by
  simp only [expandEquation, bind, Except.bind] at h
  split at h
  · cases h
  · rename_i pl hpl
    split at h
    · cases h
    · rename_i pr hpr
      refine ⟨pl, pr, hpl, hpr, ?_⟩
      split_ifs at h
      · cases h
        exact ⟨fun env _ => ⟨[], rfl, List.mem_singleton.2 rfl⟩, fun p hp => ⟨[], by simp, List.mem_singleton.1 hp⟩⟩
      · cases h
        refine ⟨fun env he => ⟨(order pl.2).zip ((order pl.2).map env), setMany_self env _, List.mem_map.2 ⟨_, (mem_ndindex D _ _).2 ⟨by simp, fun v hv => ?_⟩, rfl⟩⟩, fun p hp => ?_⟩
        · obtain ⟨k, -, rfl⟩ := List.mem_map.1 hv
          exact he k
        · obtain ⟨vs, hvs, rfl⟩ := List.mem_map.1 hp
          exact ⟨_, fun q hq => ((mem_ndindex D _ _).1 hvs).2 _ (List.of_mem_zip hq).2, rfl⟩

/-! ### Left sides -/

/-- The form of an expression. -/
def form : SumExpr → ℕ
  | .zero => 0
  | .term _ _ => 1
  | .add _ _ => 0
  | .mul _ _ => 3
  | .fn _ _ _ => 4
  | .fn3 _ _ _ _ => 5
  | .sum _ _ => 6

theorem form_applyMany (map : List (String × ℕ)) (e : SumExpr) : form (e.applyMany map) = form e := by
  induction map generalizing e with
  | nil => rfl
  | cons p map ih =>
    rw [show e.applyMany (p :: map) = (e.apply p.1 p.2).applyMany map from rfl, ih]
    cases e <;> rfl

theorem form_expanded (k : String) (e : SumExpr) : form (expandSums D (.sum k e)) = 0 := by
  simp only [expandSums]
  rcases List.eq_nil_or_concat (List.range D) with h | ⟨l, v, h⟩
  · rw [h]; rfl
  · rw [h, List.concat_eq_append, List.foldl_append]; rfl

theorem wrapSum_sum (ks : List String) (e : SumExpr) : ks = [] ∨ ∃ k e', wrapSum ks e = .sum k e' := by
  rcases List.eq_nil_or_concat ks with h | ⟨l, v, h⟩
  · exact .inl h
  · exact .inr ⟨v, wrapSum l e, by rw [h, wrapSum, List.concat_eq_append, List.foldl_append]; rfl⟩

theorem form_wrapSum {ks : List String} {e : SumExpr} {map : List (String × ℕ)} (h : form ((expandSums D (wrapSum ks e)).applyMany map) ≠ 0) : wrapSum ks e = e := by
  rcases wrapSum_sum ks e with rfl | ⟨k, e', h'⟩
  · rfl
  · rw [form_applyMany, h', form_expanded] at h
    exact absurd rfl h

theorem setMany_cons (env : String → ℕ) (p : String × ℕ) (map : List (String × ℕ)) : setMany env (p :: map) = Function.update (setMany env map) p.1 p.2 := by
  funext k
  by_cases hk : p.1 = k
  · subst hk; simp [setMany]
  · have : k ≠ p.1 := fun h => hk h.symm
    simp only [setMany, List.find?_cons]
    rw [Function.update_of_ne this, show (p.1 == k) = false from beq_eq_false_iff_ne.mpr hk]
    rfl

theorem applyMany_term (map : List (String × ℕ)) (b : String) (idx : List Ix) (env : String → ℕ) :
    ∃ idx', (SumExpr.term b idx).applyMany map = .term b idx' ∧ idx'.map (Ix.eval env) = idx.map (Ix.eval (setMany env map)) := by
  induction map generalizing idx with
  | nil => exact ⟨idx, rfl, rfl⟩
  | cons p map ih =>
    obtain ⟨idx', h1, h2⟩ := ih (idx.map (Ix.apply p.1 p.2))
    refine ⟨idx', h1, h2.trans ?_⟩
    rw [List.map_map, setMany_cons]
    refine List.map_congr_left fun i _ => ?_
    cases i with
    | name s =>
      by_cases hs : s = p.1
      · subst hs; simp [Ix.apply, Ix.eval]
      · simp [Ix.apply, Ix.eval, hs]
    | val w => rfl

theorem applyMany_fn (map : List (String × ℕ)) (f : String) (a b : SumExpr) : (SumExpr.fn f a b).applyMany map = .fn f (a.applyMany map) (b.applyMany map) := by
  induction map generalizing a b with
  | nil => rfl
  | cons p map ih => exact ih (a.apply p.1 p.2) (b.apply p.1 p.2)

/-- What is a symbol after the expansion was one before. -/
theorem structure_term {e : Expr} {p : SumExpr × List String} (h : structure_ e = .ok p) {map : List (String × ℕ)} {b : String} {idx' : List Ix} (he : (expandSums D p.1).applyMany map = .term b idx') :
    ∃ idx, e = .term b idx ∧ ∀ env, idx'.map (Ix.eval env) = idx.map (setMany env map) := by
  have hf : form ((expandSums D p.1).applyMany map) = 1 := by rw [he]; rfl
  cases e with
  | term b' idx =>
    cases h
    rw [form_wrapSum (by rw [hf]; decide)] at he
    simp only [expandSums] at he
    refine ⟨idx, ?_, fun env => ?_⟩ <;> obtain ⟨i, h1, h2⟩ := applyMany_term map b' (idx.map .name) (by first | exact env | exact fun _ => 0) <;> rw [h1] at he <;> cases he
    · rfl
    · rw [h2, List.map_map]; rfl
  | add a b =>
    simp only [structure_, bind, Except.bind] at h
    split at h
    · cases h
    split at h
    · cases h
    split_ifs at h <;> cases h <;> rw [form_applyMany] at hf <;> exact absurd hf (by simp [expandSums, form])
  | mul a b =>
    simp only [structure_, bind, Except.bind] at h
    split at h
    · cases h
    split at h
    · cases h
    cases h
    rw [form_wrapSum (by rw [hf]; decide), form_applyMany] at hf
    exact absurd hf (by simp [expandSums, form])
  | fn f a b =>
    simp only [structure_, bind, Except.bind] at h
    split at h
    · cases h
    split at h
    · cases h
    cases h
    rw [form_wrapSum (by rw [hf]; decide), form_applyMany] at hf
    exact absurd hf (by simp [expandSums, form])
  | fn3 f a b c =>
    simp only [structure_, bind, Except.bind] at h
    split at h
    · cases h
    split at h
    · cases h
    split at h
    · cases h
    cases h
    rw [form_wrapSum (by rw [hf]; decide), form_applyMany] at hf
    exact absurd hf (by simp [expandSums, form])

/-- What is a function after the expansion was one before. -/
theorem structure_fn {e : Expr} {p : SumExpr × List String} (h : structure_ e = .ok p) {map : List (String × ℕ)} {f : String} {a' b' : SumExpr} (he : (expandSums D p.1).applyMany map = .fn f a' b') :
    ∃ a b pa pb, e = .fn f a b ∧ structure_ a = .ok pa ∧ structure_ b = .ok pb ∧ (expandSums D pa.1).applyMany map = a' ∧ (expandSums D pb.1).applyMany map = b' := by
  have hf : form ((expandSums D p.1).applyMany map) = 4 := by rw [he]; rfl
  cases e with
  | term b' idx =>
    cases h
    rw [form_wrapSum (by rw [hf]; decide), form_applyMany] at hf
    exact absurd hf (by simp [expandSums, form])
  | add a b =>
    simp only [structure_, bind, Except.bind] at h
    split at h
    · cases h
    split at h
    · cases h
    split_ifs at h <;> cases h <;> rw [form_applyMany] at hf <;> exact absurd hf (by simp [expandSums, form])
  | mul a b =>
    simp only [structure_, bind, Except.bind] at h
    split at h
    · cases h
    split at h
    · cases h
    cases h
    rw [form_wrapSum (by rw [hf]; decide), form_applyMany] at hf
    exact absurd hf (by simp [expandSums, form])
  | fn f' a b =>
    simp only [structure_, bind, Except.bind] at h
    split at h
    · cases h
    rename_i pa hpa
    split at h
    · cases h
    rename_i pb hpb
    cases h
    rw [form_wrapSum (by rw [hf]; decide)] at he
    simp only [expandSums, applyMany_fn] at he
    cases he
    exact ⟨a, b, pa, pb, rfl, hpa, hpb, rfl, rfl⟩
  | fn3 f a b c =>
    simp only [structure_, bind, Except.bind] at h
    split at h
    · cases h
    split at h
    · cases h
    split at h
    · cases h
    cases h
    rw [form_wrapSum (by rw [hf]; decide), form_applyMany] at hf
    exact absurd hf (by simp [expandSums, form])

/-- The left side of a simulation equation is a time derivative, and names its component. -/
theorem advanced_spec {e : Expr} {p : SumExpr × List String} (h : structure_ e = .ok p) {map : List (String × ℕ)} {s : String} (hs : advanced ((expandSums D p.1).applyMany map) = some s) :
    ∃ b idx, e = .fn "Der" (.term b idx) (.term "t" []) ∧ ∀ env, s = component b (idx.map (setMany env map)) := by
  unfold advanced at hs
  split at hs
  · rename_i f b idx' t he
    split_ifs at hs with hft
    obtain ⟨rfl, rfl⟩ := hft
    obtain ⟨a, c, pa, pb, rfl, ha, hc, ea, ec⟩ := structure_fn h he
    obtain ⟨idx, rfl, hidx⟩ := structure_term ha ea
    obtain ⟨idt, rfl, hidt⟩ := structure_term hc ec
    obtain ⟨vs, hvs, rfl⟩ := Option.map_eq_some_iff.1 hs
    refine ⟨b, idx, ?_, fun env => by rw [← hidx, values_eval hvs]⟩
    have := hidt fun _ => 0
    simp only [List.map_nil] at this
    rw [List.map_eq_nil_iff.1 this.symm]
  · cases hs

/-- The left side of a constituent relation is a symbol. -/
theorem defined_spec {e : Expr} {p : SumExpr × List String} (h : structure_ e = .ok p) {map : List (String × ℕ)} {s : String} (hs : defined ((expandSums D p.1).applyMany map) = some s) :
    ∃ b idx, e = .term b idx ∧ ∀ env, s = component b (idx.map (setMany env map)) := by
  unfold defined at hs
  split at hs
  · rename_i b idx' he
    obtain ⟨idx, rfl, hidx⟩ := structure_term h he
    obtain ⟨vs, hvs, rfl⟩ := Option.map_eq_some_iff.1 hs
    exact ⟨b, idx, rfl, fun env => by rw [← hidx, values_eval hvs]⟩
  · cases hs

/-! ### Equations -/

/-- What the left sides say: `Left left form` means that `left` reads names off expanded equations whose left side has the form `form b idx`. -/
def Left (D : ℕ) (left : SumExpr → Option String) (form : String → List String → Expr) : Prop :=
  ∀ {e : Expr} {p : SumExpr × List String}, structure_ e = .ok p → ∀ {map : List (String × ℕ)} {s : String}, left ((expandSums D p.1).applyMany map) = some s →
    ∃ b idx, e = form b idx ∧ ∀ env, s = component b (idx.map (setMany env map))

theorem left_advanced : Left D advanced fun b idx => .fn "Der" (.term b idx) (.term "t" []) := advanced_spec
theorem left_defined : Left D defined .term := defined_spec

theorem mapM_mem {α β : Type} {f : α → Option β} {l : List α} {l' : List β} (h : l.mapM f = some l') : (∀ a ∈ l, ∃ b ∈ l', f a = some b) ∧ ∀ b ∈ l', ∃ a ∈ l, f a = some b := by
  induction l generalizing l' with
  | nil => cases h; simp
  | cons a l ih =>
    simp only [List.mapM_cons, Option.bind_eq_bind, Option.bind_eq_some_iff, Option.pure_def, Option.some.injEq] at h
    obtain ⟨b, hb, l'', hl, rfl⟩ := h
    obtain ⟨h1, h2⟩ := ih hl
    refine ⟨fun x hx => ?_, fun y hy => ?_⟩
    · rcases List.mem_cons.1 hx with rfl | hx
      · exact ⟨b, List.mem_cons_self, hb⟩
      · obtain ⟨y, hy, e⟩ := h1 x hx
        exact ⟨y, List.mem_cons_of_mem _ hy, e⟩
    · rcases List.mem_cons.1 hy with rfl | hy
      · exact ⟨a, List.mem_cons_self, hb⟩
      · obtain ⟨x, hx, e⟩ := h2 y hy
        exact ⟨x, List.mem_cons_of_mem _ hx, e⟩

theorem setMany_lt {map : List (String × ℕ)} (h : ∀ q ∈ map, q.2 < D) (hD : 0 < D) (k : String) : setMany (fun _ => 0) map k < D := by
  unfold setMany
  cases hf : map.find? fun p => p.1 == k with
  | none => exact hD
  | some q => exact h q (List.mem_of_find?_eq_some hf)

/-- What a list of equations in index notation becomes. -/
theorem equations_spec {r : Reading} (hr : r.coordinate ≠ "") (hD : 0 < D) {order : List String → List String} {left : SumExpr → Option String} {form : String → List String → Expr} (hl : Left D left form) (hi : ∀ b idx b' idx', form b idx = form b' idx' → b = b' ∧ idx = idx')
    {eqs : List (Expr × Expr)} {l : List (String × Ex D)} (h : equations r order left eqs = some l) (I : Interp D) (m : Mem D) :
    (∀ eq ∈ eqs, ∃ b idx, eq.1 = form b idx ∧ ∃ y, Value (meaning r I m) D eq.2 y ∧ ∀ env : String → ℕ, (∀ k, env k < D) → ∃ p ∈ l, p.1 = component b (idx.map env) ∧ p.2.eval I m = y env) ∧
    ∀ p ∈ l, ∃ eq ∈ eqs, ∃ b idx y env, eq.1 = form b idx ∧ Value (meaning r I m) D eq.2 y ∧ (∀ k, env k < D) ∧ p.1 = component b (idx.map env) ∧ p.2.eval I m = y env := by
  obtain ⟨ls, hls, rfl⟩ := Option.map_eq_some_iff.1 h
  obtain ⟨h1, h2⟩ := mapM_mem hls
  have key : ∀ eq l, equation r order left eq = some l → ∃ y, Value (meaning r I m) D eq.2 y ∧
      (∀ env : String → ℕ, (∀ k, env k < D) → ∃ b idx, eq.1 = form b idx ∧ ∃ p ∈ l, p.1 = component b (idx.map env) ∧ p.2.eval I m = y env) ∧
      ∀ p ∈ l, ∃ b idx env, eq.1 = form b idx ∧ (∀ k, env k < D) ∧ p.1 = component b (idx.map env) ∧ p.2.eval I m = y env := by
    intro eq l he
    simp only [equation] at he
    split at he
    · cases he
    rename_i l0 hl0
    obtain ⟨pl, pr, hpl, hpr, m1, m2⟩ := expand_mem hl0
    obtain ⟨n1, n2⟩ := mapM_mem he
    obtain ⟨hv, hs, -⟩ := C49_summation (meaning r I m) D eq.2 pr.1 pr.2 hpr
    have one : ∀ map (q : String × Ex D) env, (do some (← left ((expandSums D pl.1).applyMany map), ← read r ((expandSums D pr.1).applyMany map))) = some q →
        (∃ b idx, eq.1 = form b idx ∧ q.1 = component b (idx.map (setMany env map))) ∧ q.2.eval I m = (expandSums D pr.1).eval (meaning r I m) D (setMany env map) := by
      intro map q env hq
      simp only [Option.bind_eq_bind, Option.bind_eq_some_iff, Option.some.injEq] at hq
      obtain ⟨s, hs1, e, he1, rfl⟩ := hq
      obtain ⟨b, idx, e1, e2⟩ := hl hpl hs1
      refine ⟨⟨b, idx, e1, e2 env⟩, ?_⟩
      rw [read_eval hr _ _ he1 env, (applyMany_spec (meaning r I m) D map _ hs).2.1 env]
    refine ⟨_, hv, fun env henv => ?_, fun p hp => ?_⟩
    · obtain ⟨map, hmap, hmem⟩ := m1 env henv
      obtain ⟨q, hq, hq'⟩ := n1 _ hmem
      obtain ⟨⟨b, idx, e1, e2⟩, e3⟩ := one map q env hq'
      rw [hmap] at e2 e3
      exact ⟨b, idx, e1, q, hq, e2, e3⟩
    · obtain ⟨q, hq, hq'⟩ := n2 p hp
      obtain ⟨map, hmap, rfl⟩ := m2 q hq
      obtain ⟨⟨b, idx, e1, e2⟩, e3⟩ := one map p (fun _ => 0) hq'
      exact ⟨b, idx, _, e1, setMany_lt hmap hD, e2, e3⟩
  refine ⟨fun eq heq => ?_, fun p hp => ?_⟩
  · obtain ⟨l, hlm, hle⟩ := h1 eq heq
    obtain ⟨y, hy, k1, -⟩ := key eq l hle
    obtain ⟨b, idx, e1, -⟩ := k1 (fun _ => 0) fun _ => hD
    refine ⟨b, idx, e1, y, hy, fun env henv => ?_⟩
    obtain ⟨b', idx', e1', p, hp, e2, e3⟩ := k1 env henv
    obtain ⟨rfl, rfl⟩ := hi _ _ _ _ (e1.symm.trans e1')
    exact ⟨p, List.mem_flatten.2 ⟨l, hlm, hp⟩, e2, e3⟩
  · obtain ⟨l, hlm, hpl⟩ := List.mem_flatten.1 hp
    obtain ⟨eq, heq, hle⟩ := h2 l hlm
    obtain ⟨y, hy, -, k2⟩ := key eq l hle
    obtain ⟨b, idx, env, e1, e2, e3, e4⟩ := k2 p hpl
    exact ⟨eq, heq, b, idx, y, env, e1, hy, e2, e3, e4⟩

/-- C92: when equations in index notation become the equations of a simulation, the right hand sides of the simulation have the values of the right hand sides written, with the summation convention. -/
theorem C92_equations {r : Reading} (hr : r.coordinate ≠ "") (hD : 0 < D) {order : List String → List String} {eqs : List (Expr × Expr)} {sol : Fin n → String} {rhs : Fin n → Ex D}
    (h : equations r order advanced eqs = some (List.ofFn fun i => (sol i, rhs i))) (I : Interp D) (m : Mem D) : RightSides r I m eqs sol fun i x => (rhs i).eval I m x := by
  obtain ⟨h1, h2⟩ := equations_spec hr hD left_advanced (fun _ _ _ _ h => by cases h; exact ⟨rfl, rfl⟩) h I m
  refine ⟨fun eq heq => ?_, fun i => ?_⟩
  · obtain ⟨b, idx, e1, y, hy, hc⟩ := h1 eq heq
    refine ⟨b, idx, e1, y, hy, fun env henv => ?_⟩
    obtain ⟨p, hp, e2, e3⟩ := hc env henv
    obtain ⟨i, rfl⟩ := (List.mem_ofFn' _ _).1 hp
    exact ⟨i, e2, e3⟩
  · obtain ⟨eq, heq, b, idx, y, env, e1, hy, e2, e3, e4⟩ := h2 (sol i, rhs i) ((List.mem_ofFn' _ _).2 ⟨i, rfl⟩)
    exact ⟨eq, heq, b, idx, y, env, e1, hy, e2, e3, e4⟩

/-- C92: and arrays consistent with the relations of the simulation satisfy the relations written. -/
theorem C92_relations {r : Reading} (hr : r.coordinate ≠ "") (hD : 0 < D) {order : List String → List String} {rels : List (Expr × Expr)} {S : Setup D n} (h : equations r order defined rels = some S.rel)
    {I : Interp D} {init : String → P D → ℝ} {q : Sol D n} {f : String → P D → ℝ} (hf : Consistent S I init q f) : Satisfied r I (memOf f) S.required rels := by
  obtain ⟨h1, -⟩ := equations_spec hr hD left_defined (fun _ _ _ _ h => by cases h; exact ⟨rfl, rfl⟩) h I (memOf f)
  intro eq heq
  obtain ⟨b, idx, e1, y, hy, hc⟩ := h1 eq heq
  refine ⟨b, idx, e1, y, hy, fun env henv hq => ?_⟩
  obtain ⟨p, hp, e2, e3⟩ := hc env henv
  rw [← e2] at hq ⊢
  rw [← e3]
  exact funext fun x => hf.rel p.1 p.2 hq hp x

/-- What the names of a complete system of equations mean: the simulation has the equations and relations in index notation. -/
structure Reads (r : Reading) (order : List String → List String) (eqs rels : List (Expr × Expr)) (S : Setup D n) : Prop where
  coordinate : r.coordinate ≠ ""
  dimensions : 0 < D
  equations : equations r order advanced eqs = some (List.ofFn fun i => (S.sol i, S.rhs i))
  relations : Note.equations r order defined rels = some S.rel

variable {T : Text D} {S : Setup D n} {inp : Alg.Input (Call D)} {U : Arr → Prop} {prg : List (Alg.Node (Call D))} {pts : Ranges.Kernel D → List (P D)}

/-- C92: from index notation to the printed program. The solution arrays of the program printed for a system of equations in index notation have the Runge-Kutta iterates of a system of
ordinary differential equations, whose right hand sides have the values of the right hand sides written in index notation, on arrays satisfying the relations written in index notation. Derivatives are the
difference formulas of the scheme. Partial: as C85; numbers are symbols, and SymPy's order of terms and factors and the collection of equal ones are left out. -/
theorem C92_rk_partial {r : Reading} {order : List String → List String} {eqs rels : List (Expr × Expr)} (hR : Reads r order eqs rels S)
    (hS : T.Suits S .rk inp U) (hP : Program S .rk (T.meaning (T.const prg) 0) pts inp prg) (hst : inp.stages = 3)
    (hnew : T.table "rknew" = [2/3, 5/12, 3/5]) (hold : T.table "rkold" = [1/4, 3/20, 3/5]) (B : Sol D n → Sol D n) (a : Arrays D) :
    ∃ (full : Sol D n → String → P D → ℝ) (F : Sol D n → Sol D n),
      (∀ q, (∀ i, full q (S.sol i) = q i) ∧ (∀ s, (∀ e, (s, e) ∉ S.rel) → (∀ i, s ≠ S.sol i) → full q s = T.startState S prg pts B inp a (.data s)) ∧ Satisfied r (T.meaning (T.const prg) 0) (memOf (full q)) S.required rels ∧ RightSides r (T.meaning (T.const prg) 0) (memOf (full q)) eqs S.sol (F q)) ∧
      let step := rkStep S.np F B (T.const prg "dt") [(2/3, 1/4), (5/12, 3/20), (3/5, 3/5)]
      let s0 := stateOf S (T.startState S prg pts B inp a)
      (∃ a', T.run prg pts S.sol B (Alg.runProgram prg) a = some a' ∧ ∀ i, a' (T.names (.data (S.sol i))) = (step^[inp.niter.toNat] s0).q i) ∧
      ∀ before after o k e, Alg.runProgram prg = before ++ .write o (some k) e :: after → ∃ j : ℕ, (j : ℤ) = k ∧ 1 ≤ j ∧ j ≤ inp.niter.toNat ∧
        ∃ a', T.run prg pts S.sol B before a = some a' ∧ ∀ i, a' (T.names (.data (S.sol i))) = (step^[j] s0).q i := by
  obtain ⟨full, hfull⟩ := program_full hP fun s => T.startState S prg pts B inp a (.data s)
  exact ⟨full, fun q i x => (S.rhs i).eval (T.meaning (T.const prg) 0) (memOf (full q)) x,
    fun q => ⟨(hfull q).sol, (hfull q).rest, C92_relations hR.coordinate hR.dimensions hR.relations (hfull q), C92_equations hR.coordinate hR.dimensions hR.equations _ _⟩,
    C85_rk_partial hS hP hst hnew hold B a full hfull⟩

/-- C92: so do those of the program of a low storage scheme with any number of stages. -/
theorem C92_ls_partial {r : Reading} {order : List String → List String} {eqs rels : List (Expr × Expr)} (hR : Reads r order eqs rels S)
    (hS : T.Suits S .lowStorage inp U) (hP : Program S .lowStorage (T.meaning (T.const prg) 0) pts inp prg) (A C : List ℝ) (hAC : A.length = C.length)
    (hst : inp.stages = A.length) (hA : T.table "rkA" = A) (hC : T.table "rkB" = C) (B : Sol D n → Sol D n) (a : Arrays D) :
    ∃ (full : Sol D n → String → P D → ℝ) (F : Sol D n → Sol D n),
      (∀ q, (∀ i, full q (S.sol i) = q i) ∧ (∀ s, (∀ e, (s, e) ∉ S.rel) → (∀ i, s ≠ S.sol i) → full q s = T.startState S prg pts B inp a (.data s)) ∧ Satisfied r (T.meaning (T.const prg) 0) (memOf (full q)) S.required rels ∧ RightSides r (T.meaning (T.const prg) 0) (memOf (full q)) eqs S.sol (F q)) ∧
      let step := lsStep S.np F B (T.const prg "dt") (A.zip C)
      let s0 := stateOf S (T.startState S prg pts B inp a)
      (∃ a', T.run prg pts S.sol B (Alg.runProgram prg) a = some a' ∧ ∀ i, a' (T.names (.data (S.sol i))) = (step^[inp.niter.toNat] s0).q i) ∧
      ∀ before after o k e, Alg.runProgram prg = before ++ .write o (some k) e :: after → ∃ j : ℕ, (j : ℤ) = k ∧ 1 ≤ j ∧ j ≤ inp.niter.toNat ∧
        ∃ a', T.run prg pts S.sol B before a = some a' ∧ ∀ i, a' (T.names (.data (S.sol i))) = (step^[j] s0).q i := by
  obtain ⟨full, hfull⟩ := program_full hP fun s => T.startState S prg pts B inp a (.data s)
  exact ⟨full, fun q i x => (S.rhs i).eval (T.meaning (T.const prg) 0) (memOf (full q)) x,
    fun q => ⟨(hfull q).sol, (hfull q).rest, C92_relations hR.coordinate hR.dimensions hR.relations (hfull q), C92_equations hR.coordinate hR.dimensions hR.equations _ _⟩,
    C85_ls_partial hS hP A C hAC hst hA hC B a full hfull⟩

end OpenSBLI.Note
