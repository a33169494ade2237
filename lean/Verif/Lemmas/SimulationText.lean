import Verif.Spec.SimulationText
import Verif.Props.C42_C44_Algorithm
import Verif.Lemmas.ScopeConsts
import Mathlib.Algebra.Polynomial.Eval.Degree

/-! # Helper lemmas on the text of a simulation -/
namespace OpenSBLI.Sim
open OpenSBLI.Reg OpenSBLI.CCode

variable {D n : ℕ} {T : Text D}

/-! ## The weights -/

theorem weight_cast (o k : ℕ) (p : ℤ) : Central.weight ℝ o k p = ((Central.weight ℚ o k p : ℚ) : ℝ) := by
  have hb : Lagrange.basis (Central.points o) (fun i : ℤ => (i : ℝ)) p =
      (Lagrange.basis (Central.points o) (fun i : ℤ => (i : ℚ)) p).map (Rat.castHom ℝ) := by
    simp only [Lagrange.basis, Polynomial.map_prod, Lagrange.basisDivisor, Polynomial.map_mul, Polynomial.map_sub, Polynomial.map_X, Polynomial.map_C]
    refine Finset.prod_congr rfl fun j _ => ?_
    simp
  unfold Central.weight
  rw [hb, Polynomial.iterate_derivative_map]
  exact Polynomial.eval_zero_map (Rat.castHom ℝ) _

theorem sumSym_val (L : Lib ℝ) (o : Outer D ℝ) (st : CCode.Mem D ℝ) (l : List (Sym D)) : (sumSym l).val L o st = (l.map fun e => e.val L o st).sum := by
  induction l with
  | nil => simp [sumSym, Sym.val]
  | cons x l ih =>
    cases l with
    | nil => simp [sumSym]
    | cons y l => simp only [sumSym, Sym.val, ih, List.map_cons, List.sum_cons]

theorem sum_filterMap {α β : Type} (l : List α) (f : α → Option β) (g : β → ℝ) :
    ((l.filterMap f).map g).sum = (l.map fun a => ((f a).map g).getD 0).sum := by
  induction l with
  | nil => rfl
  | cons a l ih =>
    rw [List.filterMap_cons]
    cases h : f a with
    | none => simp [h, ih]
    | some b => simp [h, ih]

/-! ## Values -/

/-- The generated inverse spacing has its value. -/
def Inverses (T : Text D) (o : Outer D ℝ) (d : Fin D) (k : ℕ) : Prop := o.const (T.invName d k) = 1 / o.const (T.delta d) ^ k

theorem shift_add (x off : P D) (d : Fin D) (p : ℤ) : shift (x + off) d p = x + shift off d p := by
  funext e
  by_cases h : e = d
  · subst h; simp [shift, add_assoc]
  · simp [shift, h]

/-! ## Boundary closures -/

theorem closureWeight_val (L : Lib ℝ) (o : Outer D ℝ) (st : CCode.Mem D ℝ) (K : Closure.Kind) (k : ℕ) (q : ℚ) : (closureWeight K k q : Sym D).val L o st = q := by
  unfold closureWeight
  split <;> rfl

theorem secondQ_cast (i : Fin 2) (k : Fin 5) : Closure.bc4_2 i k = (secondQ i k : ℚ) := by
  fin_cases i <;> fin_cases k <;> simp [Closure.bc4_2, secondQ]

theorem accessQ_cast (i : Fin 4) (k : Fin 5) : Closure.raFirst i k = (accessQ i k : ℚ) := by
  fin_cases i <;> fin_cases k <;> simp [Closure.raFirst, accessQ]

theorem formulas_eq (K : Closure.Kind) (side : Bool) (k : ℕ) :
    T.formulas (some K) side k = (closureQ T.carpenter side K k).map fun r => r.map fun q => (q.1, (q.2 : ℝ)) := by
  have hk : ∀ k, k ≠ 1 → k ≠ 2 → Closure.rows K side k = none ∧ closureQ T.carpenter side K k = [] := by
    intro k h1 h2
    match k with
    | 0 => cases K <;> exact ⟨rfl, rfl⟩
    | 1 => exact absurd rfl h1
    | 2 => exact absurd rfl h2
    | k + 3 => cases K <;> exact ⟨rfl, rfl⟩
  unfold Text.formulas
  by_cases h1 : k = 1
  · subst h1
    cases K
    · simp [closureQ, List.map_map, Function.comp_def, apply_ite (Rat.cast : ℚ → ℝ)]
    · simp [closureQ, Closure.rows, Closure.reducedAccess, List.map_map, Function.comp_def, accessQ_cast]
    · cases side <;> simp [closureQ, Closure.rows, Closure.reducedOrder, Closure.roRow, orderQ, Closure.fact]
  · by_cases h2 : k = 2
    · subst h2
      cases K
      · simp [closureQ, Closure.rows, Closure.carpenter, List.map_map, Function.comp_def, secondQ_cast]
      · simp [closureQ, Closure.rows, Closure.reducedAccess, List.map_map, Function.comp_def, secondQ_cast]
      · cases side <;> simp [closureQ, Closure.rows, Closure.reducedOrder, Closure.roRow, orderQ, Closure.fact]
    · simp [(hk k h1 h2).1, (hk k h1 h2).2, h1]

theorem pieces_locate (L : Lib ℝ) (o : Outer D ℝ) (st : CCode.Mem D ℝ) (d : Fin D) (loc : ℕ → Sym D) (g : ℤ → Sym D) (w : ℚ → Sym D)
    (hw : ∀ q, (w q).val L o st = q) (t : ℤ) (h : ∀ no : ℕ, (o.idx d : ℝ) = (loc no).val L o st ↔ t = no) (rs : List (List (ℤ × ℚ))) (n : ℕ)
    (rest : List (Sym D × Sym D)) (c : Sym D) :
    (pieces d (locate loc g w rs n ++ rest) c).val L o st =
      match (if (n : ℤ) ≤ t then (rs.map fun r => r.map fun q => (q.1, (q.2 : ℝ)))[(t - n).toNat]? else none) with
      | some r => (r.map fun q => q.2 * (g q.1).val L o st).sum
      | none => (pieces d rest c).val L o st := by
  induction rs generalizing n with
  | nil => simp [locate]
  | cons r rs ih =>
    change (Sym.pw .eq (.idx d) (loc n) (sumSym _) (pieces d (locate loc g w rs (n + 1) ++ rest) c)).val L o st = _
    simp only [Sym.val, Rel.holds, sumSym_val, h n, ih]
    by_cases ht : t = n
    · subst ht
      simp only [if_pos, le_refl, sub_self, Int.toNat_zero, List.map_cons, List.getElem?_cons_zero, List.map_map, Function.comp_def, Sym.val, hw]
    · rw [if_neg ht]
      by_cases hn : (n : ℤ) ≤ t
      · have h1 : (((n + 1 : ℕ) : ℤ)) ≤ t := by push_cast; omega
        have h2 : (t - n).toNat = (t - ((n + 1 : ℕ) : ℤ)).toNat + 1 := by omega
        rw [if_pos hn, if_pos h1, h2, List.map_cons, List.getElem?_cons_succ]
      · rw [if_neg hn, if_neg (by push_cast; omega)]

theorem closures_val (L : Lib ℝ) (o : Outer D ℝ) (st : CCode.Mem D ℝ) (d : Fin D) (k : ℕ) (g : ℤ → Sym D) (c : Sym D)
    (hz : T.hasClosure d → ∃ z : ℤ, o.const (T.points d) = z) :
    (pieces d (T.closed d k g) c).val L o st = match T.formulaAt ⌊o.const (T.points d)⌋ d k (o.idx d) with
      | some r => (r.map fun q => q.2 * (g q.1).val L o st).sum
      | none => c.val L o st := by
  have left : ∀ K rest, (pieces d (locate (fun no => .num (0 + (no : ℚ))) g (closureWeight K k) (closureQ T.carpenter false K k) 0 ++ rest) c).val L o st =
      match (if 0 ≤ o.idx d then (T.formulas (some K) false k)[(o.idx d).toNat]? else none) with
      | some r => (r.map fun q => q.2 * (g q.1).val L o st).sum
      | none => (pieces d rest c).val L o st := by
    intro K rest
    rw [pieces_locate L o st d _ g _ (closureWeight_val L o st K k) (o.idx d), formulas_eq]
    · simp only [Nat.cast_zero, sub_zero]
      rfl
    · intro no
      simp only [Sym.val]
      push_cast
      rw [zero_add]
      exact_mod_cast Iff.rfl
  have right : ∀ K, T.hasClosure d → (pieces d (locate (fun no => .add (.const (T.points d)) (.num (-1 - (no : ℚ)))) g (closureWeight K k)
      (closureQ T.carpenter true K k) 0) c).val L o st =
      match (if 0 ≤ ⌊o.const (T.points d)⌋ - 1 - o.idx d then (T.formulas (some K) true k)[(⌊o.const (T.points d)⌋ - 1 - o.idx d).toNat]? else none) with
      | some r => (r.map fun q => q.2 * (g q.1).val L o st).sum
      | none => c.val L o st := by
    intro K hc
    obtain ⟨z, hz⟩ := hz hc
    have := pieces_locate L o st d (fun no => .add (.const (T.points d)) (.num (-1 - (no : ℚ)))) g _ (closureWeight_val L o st K k) (z - 1 - o.idx d) (fun no => by
      simp only [Sym.val, hz]
      push_cast
      constructor
      · intro h
        have h' : (o.idx d : ℝ) = ((z + (-1 - (no : ℤ)) : ℤ) : ℝ) := by push_cast; exact h
        have := Int.cast_injective h'
        omega
      · intro h
        have : o.idx d = z + (-1 - (no : ℤ)) := by omega
        rw [this]; push_cast; ring) (closureQ T.carpenter true K k) 0 [] c
    rw [List.append_nil] at this
    rw [this, formulas_eq, hz, Int.floor_intCast]
    simp only [Nat.cast_zero, sub_zero]
    rfl
  unfold Text.closed Text.formulaAt
  cases hl : (T.mods d).left with
  | none =>
    cases hr : (T.mods d).right with
    | none => simp [Text.formulas, pieces]
    | some K =>
      simp only [List.nil_append, right K (.inr (by rw [hr]; rfl))]
      have : (if 0 ≤ o.idx d then (T.formulas none false k)[(o.idx d).toNat]? else none) = none := by simp [Text.formulas]
      rw [this, Option.none_or]
  | some K =>
    have hc : T.hasClosure d := .inl (by rw [hl]; rfl)
    cases hr : (T.mods d).right with
    | none =>
      simp only
      rw [left K]
      have : (if 0 ≤ ⌊o.const (T.points d)⌋ - 1 - o.idx d then (T.formulas none true k)[(⌊o.const (T.points d)⌋ - 1 - o.idx d).toNat]? else none) = none := by simp [Text.formulas]
      rw [this, Option.or_none]
      rfl
    | some K' =>
      simp only
      rw [left K, right K' hc]
      cases (if 0 ≤ o.idx d then (T.formulas (some K) false k)[(o.idx d).toNat]? else none) with
      | none => rw [Option.none_or]
      | some r => rw [Option.some_or]

theorem sym_val (e : Ex D) (hp : e.Unnested T) (o : Outer D ℝ) (st : CCode.Mem D ℝ) (m : Mem D) (stage : ℤ) (x off : P D) (hx : o.idx = x)
    (ho : ∀ t, o.glob t = (T.table t).getD stage.toNat 0) (hd : ∀ q ∈ e.ders, Inverses T o q.1 q.2)
    (hz : ∀ q ∈ e.ders, T.hasClosure q.1 → off q.1 = 0 ∧ ∃ z : ℤ, o.const (T.points q.1) = z)
    (hst : ∀ a ∈ e.arrs, ∀ off, st.data (T.names a) off = m a (x + off)) :
    (e.sym T off).val T.lib o st = e.eval (T.meaning o.const stage) m (x + off) := by
  induction e generalizing off with
  | num z => simp [Ex.sym, Sym.val, Ex.eval]
  | const c => rfl
  | indexed t => exact ho t
  | arr a => exact hst a (by simp [Ex.arrs]) off
  | cd d k e ih =>
    have hk : o.const (T.invName d k) = 1 / o.const (T.delta d) ^ k := hd (d, k) (by simp [Ex.ders])
    have inner : ∀ p, (e.sym T (shift off d p)).val T.lib o st = e.eval (T.meaning o.const stage) m (shift (x + off) d p) := by
      intro p
      rw [shift_add]
      refine ih hp.1 (shift off d p) (fun q hq => hd q (List.mem_cons_of_mem _ hq)) (fun q hq hc => ?_) hst
      obtain ⟨h1, h2⟩ := hz q (List.mem_cons_of_mem _ hq) hc
      refine ⟨?_, h2⟩
      by_cases hqd : q.1 = d
      · exact absurd hqd (hp.2 (hqd ▸ hc) q hq)
      · rw [shift, Function.update_of_ne hqd, h1]
    have hcl : ∀ c : Sym D, (pieces d (T.closed d k fun p => e.sym T (shift off d p)) c).val T.lib o st =
        match T.formulaAt ⌊o.const (T.points d)⌋ d k ((x + off) d) with
        | some r => (r.map fun q => q.2 * e.eval (T.meaning o.const stage) m (shift (x + off) d q.1)).sum
        | none => c.val T.lib o st := by
      intro c
      rw [closures_val T.lib o st d k _ c fun hc => (hz (d, k) (by simp [Ex.ders]) hc).2]
      simp only [inner]
      by_cases hc : T.hasClosure d
      · have h0 : (x + off) d = x d := by simp [(hz (d, k) (by simp [Ex.ders]) hc).1]
        rw [h0, hx]
      · have hn : ∀ i, T.formulaAt ⌊o.const (T.points d)⌋ d k i = none := by
          simp only [Text.hasClosure, not_or, Option.not_isSome_iff_eq_none] at hc
          intro i
          simp [Text.formulaAt, hc.1, hc.2, Text.formulas]
        rw [hn, hn]
    simp only [Ex.sym, Sym.val, Ex.eval, Text.meaning, hk, hcl]
    rw [mul_comm]
    congr 1
    cases T.formulaAt ⌊o.const (T.points d)⌋ d k ((x + off) d) with
    | some r => rfl
    | none =>
      simp only [sumSym_val, sum_filterMap]
      have key : ∀ p : ℤ, ((if Central.weight ℚ T.order k p = 0 then none else some (.mul (.num (Central.weight ℚ T.order k p)) (e.sym T (shift off d p))) :
          Option (Sym D)).map fun s => s.val T.lib o st).getD 0 =
          Central.weight ℝ T.order k p * e.eval (T.meaning o.const stage) m (shift (x + off) d p) := by
        intro p
        rw [weight_cast, ← inner]
        split
        · rename_i h0
          simp [h0]
        · rfl
      simp only [key]
      rw [← Finset.sum_map_toList, ← List.Perm.sum_eq ((Finset.sort_perm_toList (Central.points T.order) (· ≤ ·)).map _)]
      rfl
  | add a b iha ihb =>
    simp only [Ex.sym, Sym.val, Ex.eval]
    rw [iha hp.1 off (fun q hq => hd q (List.mem_append_left _ hq)) (fun q hq => hz q (List.mem_append_left _ hq)) fun a h => hst a (List.mem_append_left _ h),
      ihb hp.2 off (fun q hq => hd q (List.mem_append_right _ hq)) (fun q hq => hz q (List.mem_append_right _ hq)) fun a h => hst a (List.mem_append_right _ h)]
  | mul a b iha ihb =>
    simp only [Ex.sym, Sym.val, Ex.eval]
    rw [iha hp.1 off (fun q hq => hd q (List.mem_append_left _ hq)) (fun q hq => hz q (List.mem_append_left _ hq)) fun a h => hst a (List.mem_append_left _ h),
      ihb hp.2 off (fun q hq => hd q (List.mem_append_right _ hq)) (fun q hq => hz q (List.mem_append_right _ hq)) fun a h => hst a (List.mem_append_right _ h)]
  | pow a b iha ihb =>
    simp only [Ex.sym, Sym.val, Ex.eval]
    rw [iha hp.1 off (fun q hq => hd q (List.mem_append_left _ hq)) (fun q hq => hz q (List.mem_append_left _ hq)) fun a h => hst a (List.mem_append_left _ h),
      ihb hp.2 off (fun q hq => hd q (List.mem_append_right _ hq)) (fun q hq => hz q (List.mem_append_right _ hq)) fun a h => hst a (List.mem_append_right _ h)]
    rfl
  | fn f e ih =>
    simp only [Ex.sym, Sym.val, Ex.eval]
    rw [ih hp off hd hz hst]
    rfl

/-! ## The text of an expression -/

theorem sym_isInt (e : Ex D) (off : P D) : (e.sym T off).isInt = e.isInt := by
  induction e generalizing off with
  | num z => simp [Ex.sym, Sym.isInt, Ex.isInt]
  | add a b iha ihb => simp only [Ex.sym, Sym.isInt, Ex.isInt, iha, ihb]
  | mul a b iha ihb => simp only [Ex.sym, Sym.isInt, Ex.isInt, iha, ihb]
  | cd d k e ih => simp [Ex.sym, Sym.isInt, Ex.isInt]
  | _ => rfl

theorem sym_recipInt (e : Ex D) (off : P D) : (e.sym T off).recipInt = e.recipInt := by
  cases e with
  | pow a b =>
    cases b with
    | num z =>
      simp only [Ex.sym, Sym.recipInt, Ex.recipInt, sym_isInt]
    | _ => rfl
  | _ => rfl

theorem sumSym_faithful (L : Lib ℝ) (o : Outer D ℝ) (st : CCode.Mem D ℝ) (md : Mode) (l : List (Sym D)) (h : ∀ e ∈ l, e.Faithful L o st md) :
    (sumSym l).Faithful L o st md := by
  induction l with
  | nil => trivial
  | cons x l ih =>
    cases l with
    | nil => exact h x (by simp)
    | cons y l => exact ⟨h x (by simp), ih fun e he => h e (List.mem_cons_of_mem _ he)⟩

theorem sumSym_recipInt (l : List (Sym D)) (h : ∀ e ∈ l, e.recipInt = false) : (sumSym l).recipInt = false := by
  match l with
  | [] => rfl
  | [x] => exact h x (by simp)
  | x :: y :: l => rfl

theorem mem_locate (loc : ℕ → Sym D) (g : ℤ → Sym D) (w : ℚ → Sym D) (rs : List (List (ℤ × ℚ))) (n : ℕ) (b : Sym D × Sym D) (h : b ∈ locate loc g w rs n) :
    (∃ r : List (ℤ × ℚ), b.1 = sumSym (r.map fun q => .mul (w q.2) (g q.1))) ∧ ∃ no, b.2 = loc no := by
  induction rs generalizing n with
  | nil => cases h
  | cons r rs ih =>
    rcases List.mem_cons.1 h with rfl | h
    · exact ⟨⟨r, rfl⟩, n, rfl⟩
    · exact ih _ h

theorem mem_closed (d : Fin D) (k : ℕ) (g : ℤ → Sym D) (b : Sym D × Sym D) (h : b ∈ T.closed d k g) : T.hasClosure d ∧
    (∃ K, ∃ r : List (ℤ × ℚ), b.1 = sumSym (r.map fun q => .mul (closureWeight K k q.2) (g q.1))) ∧
    ((∃ q, b.2 = .num q) ∨ ∃ q, b.2 = .add (.const (T.points d)) (.num q)) := by
  rcases List.mem_append.1 h with h | h
  · split at h
    · cases h
    · rename_i K hK
      obtain ⟨⟨r, hr⟩, no, hn⟩ := mem_locate _ _ _ _ _ _ h
      exact ⟨.inl (by rw [hK]; rfl), ⟨K, r, hr⟩, .inl ⟨_, hn⟩⟩
  · split at h
    · cases h
    · rename_i K hK
      obtain ⟨⟨r, hr⟩, no, hn⟩ := mem_locate _ _ _ _ _ _ h
      exact ⟨.inr (by rw [hK]; rfl), ⟨K, r, hr⟩, .inr ⟨_, hn⟩⟩

theorem pieces_faithful (L : Lib ℝ) (o : Outer D ℝ) (st : CCode.Mem D ℝ) (md : Mode) (d : Fin D) (l : List (Sym D × Sym D)) (c : Sym D) (hc : c.Faithful L o st md)
    (h : ∀ b ∈ l, b.1.Faithful L o st md ∧ b.2.Faithful L o st md) : (pieces d l c).Faithful L o st md := by
  induction l with
  | nil => exact hc
  | cons b l ih =>
    obtain ⟨h1, h2⟩ := h b (by simp)
    exact ⟨trivial, h2, h1, ih fun b hb => h b (List.mem_cons_of_mem _ hb)⟩

theorem pieces_consts (d : Fin D) (l : List (Sym D × Sym D)) (c : Sym D) (n : String) (h : n ∈ (pieces d l c).consts) :
    n ∈ c.consts ∨ ∃ b ∈ l, n ∈ b.1.consts ∨ n ∈ b.2.consts := by
  induction l with
  | nil => exact .inl h
  | cons b l ih =>
    change n ∈ (Sym.pw .eq (.idx d) b.2 b.1 (pieces d l c)).consts at h
    simp only [Sym.consts, Finset.mem_union, Finset.notMem_empty, false_or] at h
    rcases h with h | h | h
    · exact .inr ⟨b, by simp, .inr h⟩
    · exact .inr ⟨b, by simp, .inl h⟩
    · rcases ih h with h | ⟨b, hb, h⟩
      · exact .inl h
      · exact .inr ⟨b, List.mem_cons_of_mem _ hb, h⟩

theorem pieces_inverses (d : Fin D) (l : List (Sym D × Sym D)) (c : Sym D) (n : Sym D) (h : n ∈ (pieces d l c).inverses) :
    n ∈ c.inverses ∨ ∃ b ∈ l, n ∈ b.1.inverses ∨ n ∈ b.2.inverses := by
  induction l with
  | nil => exact .inl h
  | cons b l ih =>
    change n ∈ (Sym.pw .eq (.idx d) b.2 b.1 (pieces d l c)).inverses at h
    simp only [Sym.inverses, List.mem_append, List.not_mem_nil, false_or] at h
    rcases h with h | h | h
    · exact .inr ⟨b, by simp, .inr h⟩
    · exact .inr ⟨b, by simp, .inl h⟩
    · rcases ih h with h | ⟨b, hb, h⟩
      · exact .inl h
      · exact .inr ⟨b, List.mem_cons_of_mem _ hb, h⟩

theorem pieces_gvars (d : Fin D) (l : List (Sym D × Sym D)) (c : Sym D) (hc : c.gvars = ∅) (h : ∀ b ∈ l, b.1.gvars = ∅ ∧ b.2.gvars = ∅) :
    (pieces d l c).gvars = ∅ := by
  induction l with
  | nil => exact hc
  | cons b l ih =>
    change (Sym.pw .eq (.idx d) b.2 b.1 (pieces d l c)).gvars = ∅
    obtain ⟨h1, h2⟩ := h b (by simp)
    simp only [Sym.gvars, h1, h2, ih fun b hb => h b (List.mem_cons_of_mem _ hb), Finset.empty_union]

theorem closureWeight_plain (K : Closure.Kind) (k : ℕ) (q : ℚ) : (closureWeight K k q : Sym D).consts = ∅ ∧ (closureWeight K k q : Sym D).inverses = [] ∧
    (closureWeight K k q : Sym D).gvars = ∅ ∧ ∀ (L : Lib ℝ) (o : Outer D ℝ) (st : CCode.Mem D ℝ) md, (closureWeight K k q : Sym D).Faithful L o st md := by
  unfold closureWeight
  split <;> exact ⟨rfl, rfl, rfl, fun _ _ _ _ => trivial⟩

theorem sym_faithful (e : Ex D) (h : e.Printable T) (o : Outer D ℝ) (st : CCode.Mem D ℝ) (off : P D) : (e.sym T off).Faithful T.lib o st Mode.inKernel := by
  induction e generalizing off with
  | indexed t => rfl
  | cd d k e ih =>
    refine ⟨trivial, pieces_faithful _ _ _ _ _ _ _ (sumSym_faithful _ _ _ _ _ fun s hs => ?_) fun b hb => ?_, by simp [Sym.isInt]⟩
    · obtain ⟨p, -, hp⟩ := List.mem_filterMap.1 hs
      split at hp
      · cases hp
      · cases hp
        exact ⟨trivial, ih h.1 _, fun hh => by rw [sym_recipInt, h.2.1] at hh; cases hh.2⟩
    · obtain ⟨-, ⟨K, r, hr⟩, hl⟩ := mem_closed _ _ _ _ hb
      constructor
      · rw [hr]
        refine sumSym_faithful _ _ _ _ _ fun s hs => ?_
        obtain ⟨q, -, rfl⟩ := List.mem_map.1 hs
        exact ⟨(closureWeight_plain K k q.2).2.2.2 _ _ _ _, ih h.1 _, fun hh => by rw [sym_recipInt, h.2.1] at hh; cases hh.2⟩
      · rcases hl with ⟨q, hl⟩ | ⟨q, hl⟩ <;> rw [hl]
        · trivial
        · exact ⟨trivial, trivial⟩
  | add a b iha ihb => exact ⟨iha h.1 off, ihb h.2 off⟩
  | mul a b iha ihb => exact ⟨iha h.1 off, ihb h.2.1 off, by rw [sym_isInt, sym_recipInt]; exact h.2.2⟩
  | pow a b iha ihb => exact ⟨iha h.1 off, ihb h.2.1 off⟩
  | fn f e ih => exact ih h off
  | _ => trivial

theorem sumSym_consts (l : List (Sym D)) (c : String) (h : c ∈ (sumSym l).consts) : ∃ e ∈ l, c ∈ e.consts := by
  induction l with
  | nil => simp [sumSym, Sym.consts] at h
  | cons x l ih =>
    cases l with
    | nil => exact ⟨x, by simp, h⟩
    | cons y l =>
      simp only [sumSym, Sym.consts, Finset.mem_union] at h
      rcases h with h | h
      · exact ⟨x, by simp, h⟩
      · obtain ⟨e, he, hc⟩ := ih h
        exact ⟨e, List.mem_cons_of_mem _ he, hc⟩

theorem sumSym_inverses (l : List (Sym D)) (q : Sym D) (h : q ∈ (sumSym l).inverses) : ∃ e ∈ l, q ∈ e.inverses := by
  induction l with
  | nil => simp [sumSym, Sym.inverses] at h
  | cons x l ih =>
    cases l with
    | nil => exact ⟨x, by simp, h⟩
    | cons y l =>
      simp only [sumSym, Sym.inverses, List.mem_append] at h
      rcases h with h | h
      · exact ⟨x, by simp, h⟩
      · obtain ⟨e, he, hc⟩ := ih h
        exact ⟨e, List.mem_cons_of_mem _ he, hc⟩

theorem sumSym_gvars (l : List (Sym D)) (h : ∀ e ∈ l, e.gvars = ∅) : (sumSym l).gvars = ∅ := by
  induction l with
  | nil => rfl
  | cons x l ih =>
    cases l with
    | nil => exact h x (by simp)
    | cons y l =>
      simp only [sumSym, Sym.gvars, h x (by simp), ih fun e he => h e (List.mem_cons_of_mem _ he), Finset.empty_union]

theorem sym_gvars (e : Ex D) (off : P D) : (e.sym T off).gvars = ∅ := by
  induction e generalizing off with
  | cd d k e ih =>
    simp only [Ex.sym, Sym.gvars, Finset.empty_union]
    refine pieces_gvars _ _ _ (sumSym_gvars _ fun s hs => ?_) fun b hb => ?_
    · obtain ⟨p, -, hp⟩ := List.mem_filterMap.1 hs
      split at hp
      · cases hp
      · cases hp
        simp [Sym.gvars, ih]
    · obtain ⟨-, ⟨K, r, hr⟩, hl⟩ := mem_closed _ _ _ _ hb
      constructor
      · rw [hr]
        refine sumSym_gvars _ fun s hs => ?_
        obtain ⟨q, -, rfl⟩ := List.mem_map.1 hs
        simp [Sym.gvars, ih, (closureWeight_plain K k q.2).2.2.1]
      · rcases hl with ⟨q, hl⟩ | ⟨q, hl⟩ <;> rw [hl] <;> rfl
  | add a b iha ihb => simp [Ex.sym, Sym.gvars, iha, ihb]
  | mul a b iha ihb => simp [Ex.sym, Sym.gvars, iha, ihb]
  | pow a b iha ihb => simp [Ex.sym, Sym.gvars, iha, ihb]
  | fn f e ih => simp [Ex.sym, Sym.gvars, ih]
  | _ => rfl

/-- A requested power is there. -/
theorem requested (ops : List (Rc.Op (Sym D))) (s : Rc (Sym D)) (p : Prefix) (k : Sym D) (h : .request p k ∈ ops) : ∃ n, (k, n) ∈ (s.performs ops).existing := by
  have grow : ∀ (ops : List (Rc.Op (Sym D))) (s : Rc (Sym D)) x, x ∈ s.existing → x ∈ (s.performs ops).existing := by
    intro ops
    induction ops with
    | nil => exact fun _ _ h => h
    | cons op ops ih =>
      intro s x hx
      refine ih _ x ?_
      cases op with
      | add c => exact hx
      | request p k => exact (request_prefix s p k).1.subset hx
  induction ops generalizing s with
  | nil => cases h
  | cons op ops ih =>
    rcases List.mem_cons.1 h with h | h
    · subst h
      exact ⟨_, grow ops _ _ (request_prefix s p k).2⟩
    · exact ih _ h

/-- The name of a requested inverse spacing. -/
theorem invName_mem (hr : Registered T.ops) (d : Fin D) (k : ℕ) (h : ∃ p, .request p (T.inverse d k) ∈ T.ops) :
    (T.inverse d k, T.invName d k) ∈ T.start.existing ∧ T.invName d k ∈ T.start.names := by
  obtain ⟨p, hp⟩ := h
  obtain ⟨n, hn⟩ := requested T.ops Rc.empty p _ hp
  have s := hr.sound
  have e : T.invName d k = n := by
    unfold Text.invName
    have := mem_lookup s.ok.keys hn
    change ((Rc.empty.performs T.ops).existing.lookup _).getD "" = n
    rw [this]
    rfl
  rw [e]
  refine ⟨hn, ?_⟩
  have hd := s.ok.declared _ n hn
  rw [declared, Option.map_eq_some_iff] at hd
  obtain ⟨c, hc, -⟩ := hd
  have : c.name = n := by simpa using List.find?_some hc
  exact List.mem_map.2 ⟨c, List.mem_of_find?_eq_some hc, this⟩

theorem sym_consts (hr : Registered T.ops) (e : Ex D) (h : e.Printable T) (off : P D) : ∀ c ∈ (e.sym T off).consts, c ∈ T.start.names := by
  induction e generalizing off with
  | num z => intro c hc; simp [Ex.sym, Sym.consts] at hc
  | const c' => intro c hc; simp only [Ex.sym, Sym.consts, Finset.mem_singleton] at hc; exact hc ▸ h
  | indexed t => intro c hc; simp [Ex.sym, Sym.consts] at hc
  | arr a => intro c hc; simp [Ex.sym, Sym.consts] at hc
  | cd d k e ih =>
    intro c hc
    simp only [Ex.sym, Sym.consts, Finset.mem_union, Finset.mem_singleton] at hc
    rcases hc with rfl | hc
    · exact (invName_mem hr d k h.2.2.1).2
    · rcases pieces_consts _ _ _ _ hc with hc | ⟨b, hb, hc⟩
      · obtain ⟨s, hs, hc⟩ := sumSym_consts _ _ hc
        obtain ⟨p, -, hp⟩ := List.mem_filterMap.1 hs
        split at hp
        · cases hp
        · cases hp
          simp only [Sym.consts, Finset.mem_union, Finset.notMem_empty, false_or] at hc
          exact ih h.1 _ c hc
      · obtain ⟨hcl, ⟨K, r, hr⟩, hl⟩ := mem_closed _ _ _ _ hb
        rcases hc with hc | hc
        · rw [hr] at hc
          obtain ⟨s, hs, hc⟩ := sumSym_consts _ _ hc
          obtain ⟨q, -, rfl⟩ := List.mem_map.1 hs
          simp only [Sym.consts, (closureWeight_plain K k q.2).1, Finset.empty_union] at hc
          exact ih h.1 _ c hc
        · rcases hl with ⟨q, hl⟩ | ⟨q, hl⟩ <;> rw [hl] at hc
          · simp [Sym.consts] at hc
          · simp only [Sym.consts, Finset.union_empty, Finset.mem_singleton] at hc
            subst hc
            exact List.mem_map.2 ⟨_, (h.2.2.2 hcl).2.1, rfl⟩
  | add a b iha ihb =>
    intro c hc
    simp only [Ex.sym, Sym.consts, Finset.mem_union] at hc
    exact hc.elim (iha h.1 off c) (ihb h.2 off c)
  | mul a b iha ihb =>
    intro c hc
    simp only [Ex.sym, Sym.consts, Finset.mem_union] at hc
    exact hc.elim (iha h.1 off c) (ihb h.2.1 off c)
  | pow a b iha ihb =>
    intro c hc
    simp only [Ex.sym, Sym.consts, Finset.mem_union] at hc
    exact hc.elim (iha h.1 off c) (ihb h.2.1 off c)
  | fn f e ih => exact ih h off

theorem sym_closed (e : Ex D) (h : e.closed = true) (off : P D) : (e.sym T off).Closed := by
  induction e with
  | num z => trivial
  | const c => trivial
  | indexed t => cases h
  | arr a => cases h
  | cd d k e ih => cases h
  | add a b iha ihb => simp only [Ex.closed, Bool.and_eq_true] at h; exact ⟨iha h.1, ihb h.2⟩
  | mul a b iha ihb => simp only [Ex.closed, Bool.and_eq_true] at h; exact ⟨iha h.1, ihb h.2⟩
  | pow a b iha ihb => simp only [Ex.closed, Bool.and_eq_true] at h; exact ⟨iha h.1, ihb h.2⟩
  | fn f e ih => exact ih h

theorem sym_isConst (e : Ex D) (off : P D) (h : CCode.isConst (e.sym T off) = true) : e.isConst = true := by
  cases e <;> first | rfl | cases h

theorem sym_inverses (hr : Registered T.ops) (e : Ex D) (h : e.Printable T) (off : P D) :
    ∀ k ∈ (e.sym T off).inverses, k.Closed ∧ ∀ c ∈ k.consts, c ∈ T.start.names := by
  induction e generalizing off with
  | num z => intro c hc; simp [Ex.sym, Sym.inverses] at hc
  | const c' => intro c hc; simp [Ex.sym, Sym.inverses] at hc
  | indexed t => intro c hc; simp [Ex.sym, Sym.inverses] at hc
  | arr a => intro c hc; simp [Ex.sym, Sym.inverses] at hc
  | cd d k e ih =>
    intro q hq
    simp only [Ex.sym, Sym.inverses, List.nil_append] at hq
    rcases pieces_inverses _ _ _ _ hq with hq | ⟨b, hb, hq⟩
    · obtain ⟨s, hs, hq⟩ := sumSym_inverses _ _ hq
      obtain ⟨p, -, hp⟩ := List.mem_filterMap.1 hs
      split at hp
      · cases hp
      · cases hp
        simp only [Sym.inverses, List.nil_append] at hq
        exact ih h.1 _ q hq
    · obtain ⟨-, ⟨K, r, hr⟩, hl⟩ := mem_closed _ _ _ _ hb
      rcases hq with hq | hq
      · rw [hr] at hq
        obtain ⟨s, hs, hq⟩ := sumSym_inverses _ _ hq
        obtain ⟨p, -, rfl⟩ := List.mem_map.1 hs
        simp only [Sym.inverses, (closureWeight_plain K k p.2).2.1, List.nil_append] at hq
        exact ih h.1 _ q hq
      · rcases hl with ⟨z, hl⟩ | ⟨z, hl⟩ <;> rw [hl] at hq <;> simp [Sym.inverses] at hq
  | add a b iha ihb =>
    intro c hc
    simp only [Ex.sym, Sym.inverses, List.mem_append] at hc
    exact hc.elim (iha h.1 off c) (ihb h.2 off c)
  | mul a b iha ihb =>
    intro c hc
    simp only [Ex.sym, Sym.inverses, List.mem_append] at hc
    exact hc.elim (iha h.1 off c) (ihb h.2.1 off c)
  | pow a b iha ihb =>
    intro q hq
    simp only [Ex.sym, Sym.inverses] at hq
    split at hq
    · rename_i hc
      rw [List.mem_singleton] at hq
      subst hq
      refine ⟨?_, sym_consts hr (.pow a b) h off⟩
      rcases hc with hc | hc
      · rw [hc]; exact ⟨⟨trivial, trivial⟩, trivial⟩
      · have ha := sym_isConst a off hc.1
        refine ⟨?_, sym_closed b (h.2.2 ha) off⟩
        cases a <;> trivial
    · rcases List.mem_append.1 hq with hq | hq
      · exact iha h.1 off q hq
      · exact ihb h.2.1 off q hq
  | fn f e ih => exact ih h off

theorem printable_ders (e : Ex D) (h : e.Printable T) : ∀ q ∈ e.ders, ∃ p, .request p (T.inverse q.1 q.2) ∈ T.ops := by
  induction e with
  | num z => simp [Ex.ders]
  | const c => simp [Ex.ders]
  | indexed t => simp [Ex.ders]
  | arr a => simp [Ex.ders]
  | cd d k e ih =>
    intro q hq
    rcases List.mem_cons.1 hq with rfl | hq
    · exact h.2.2.1
    · exact ih h.1 q hq
  | add a b iha ihb => exact fun q hq => (List.mem_append.1 hq).elim (iha h.1 q) (ihb h.2 q)
  | mul a b iha ihb => exact fun q hq => (List.mem_append.1 hq).elim (iha h.1 q) (ihb h.2.1 q)
  | pow a b iha ihb => exact fun q hq => (List.mem_append.1 hq).elim (iha h.1 q) (ihb h.2.1 q)
  | fn f e ih => exact ih h

theorem printable_points (e : Ex D) (h : e.Printable T) : ∀ q ∈ e.ders, T.hasClosure q.1 → ⟨T.points q.1, none⟩ ∈ T.start.constants ∧ ∃ z : ℤ, T.inputs (T.points q.1) = z := by
  induction e with
  | num z => simp [Ex.ders]
  | const c => simp [Ex.ders]
  | indexed t => simp [Ex.ders]
  | arr a => simp [Ex.ders]
  | cd d k e ih =>
    intro q hq hc
    rcases List.mem_cons.1 hq with rfl | hq
    · exact (h.2.2.2 hc).2
    · exact ih h.1 q hq hc
  | add a b iha ihb => exact fun q hq => (List.mem_append.1 hq).elim (iha h.1 q) (ihb h.2 q)
  | mul a b iha ihb => exact fun q hq => (List.mem_append.1 hq).elim (iha h.1 q) (ihb h.2.1 q)
  | pow a b iha ihb => exact fun q hq => (List.mem_append.1 hq).elim (iha h.1 q) (ihb h.2.1 q)
  | fn f e ih => exact ih h

theorem printable_tables (e : Ex D) (h : e.Printable T) : ∀ t ∈ e.tables, ¬ Generated t ∧ t ∉ T.start.names := by
  induction e with
  | num z => simp [Ex.tables]
  | const c => simp [Ex.tables]
  | indexed t => intro t' ht; rw [List.mem_singleton.1 ht]; exact h
  | arr a => simp [Ex.tables]
  | cd d k e ih => exact ih h.1
  | add a b iha ihb => exact fun q hq => (List.mem_append.1 hq).elim (iha h.1 q) (ihb h.2 q)
  | mul a b iha ihb => exact fun q hq => (List.mem_append.1 hq).elim (iha h.1 q) (ihb h.2.1 q)
  | pow a b iha ihb => exact fun q hq => (List.mem_append.1 hq).elim (iha h.1 q) (ihb h.2.1 q)
  | fn f e ih => exact ih h

/-! ## A kernel at a point -/

theorem printed_exprs {k : Ker D} {e : Sym D} (h : e ∈ exprs (k.printed T)) : ∃ q ∈ k.eqs, e = q.2.sym T 0 := by
  simp only [exprs, Ker.printed, List.flatMap_map, List.mem_flatMap, Eqn.exprs, List.mem_singleton] at h
  exact h

theorem printed_vars (k : Ker D) : declaredVars (k.printed T) = ∅ := by
  refine Finset.eq_empty_of_forall_notMem fun v hv => ?_
  rw [declaredVars, mem_unions] at hv
  obtain ⟨q, hq, hv⟩ := hv
  obtain ⟨q', -, rfl⟩ := List.mem_map.1 hq
  simp only [Eqn.gvars, Assign.gvars, Lhs.gvars, sym_gvars, Finset.empty_union, Finset.notMem_empty] at hv

variable {prg : List (Alg.Node (Call D))} {U : Arr → Prop} {sol : Fin n → String}

theorem comp_proper (hr : Registered T.ops) (k : Ker D) (h : ∀ q ∈ k.eqs, q.2.Printable T) : T.Proper (k.printed T) where
  consts e he c hc := by
    obtain ⟨q, hq, rfl⟩ := printed_exprs he
    exact sym_consts hr q.2 (h q hq) 0 c hc
  vars v hv := by simp [printed_vars] at hv
  faithful e he o st := by
    obtain ⟨q, hq, rfl⟩ := printed_exprs he
    exact sym_faithful q.2 (h q hq) o st 0
  groups bs hb := by simp [Ker.printed] at hb
  inverses e he i hi := by
    obtain ⟨q, hq, rfl⟩ := printed_exprs he
    exact (sym_inverses hr q.2 (h q hq) 0 i hi).1

/-- All texts of the program are proper. -/
def Text.AllProper (T : Text D) (prg : List (Alg.Node (Call D))) : Prop := ∀ c ∈ written prg, ∀ eqs ∈ T.texts c, T.Proper eqs

theorem Text.Fits.allProper (hF : T.Fits prg U sol) : T.AllProper prg := by
  intro c hc eqs he
  cases c with
  | comp k =>
    rw [List.mem_singleton.1 he]
    exact comp_proper hF.registered k fun q hq => (hF.kernels k hc q hq).2.2.1
  | fn k => exact hF.proper k eqs hc (Option.mem_toList.1 he)
  | bc =>
    obtain ⟨c, h1, h2⟩ := List.mem_filterMap.1 he
    cases c with
    | kernel r e => cases h2; exact hF.bcs r eqs h1
    | exchange t l => cases h2

theorem printed_inverses (hw : T.AllProper prg) (eqs : List (Eqn D)) (h : eqs ∈ (written prg).flatMap T.texts) :
    ∀ e ∈ exprs eqs, ∀ k ∈ e.inverses, k.Closed ∧ ∀ c ∈ k.consts, c ∈ T.start.names := by
  obtain ⟨c, hc, hp⟩ := List.mem_flatMap.1 h
  have := hw c hc eqs hp
  exact fun e he k hk => ⟨this.inverses e he k hk, fun c hc => this.consts e he c (Prog.inverses_consts e k hk c hc)⟩

theorem requests_constants (l : List (Prefix × Sym D)) (s : Rc (Sym D)) : s.constants <+: (s.requests l).constants := by
  induction l generalizing s with
  | nil => exact List.prefix_refl _
  | cons r l ih =>
    refine List.IsPrefix.trans ?_ (ih (s.request r.1 r.2).1)
    unfold Rc.request
    split
    · exact List.prefix_refl _
    · simp only [addConstant]
      split
      · exact List.prefix_refl _
      · exact List.prefix_append _ _

theorem constants_hold (hr : Registered T.ops) (hw : T.AllProper prg) (c : Const (Sym D)) (hc : c ∈ T.start.constants) (o : Outer D ℝ) (ho : o.const = T.const prg)
    (hv : ∀ k, c.value = some k → k.Closed) (st : CCode.Mem D ℝ) :
    T.const prg c.name = match c.value with | none => T.inputs c.name | some k => k.val T.lib o st := by
  have hs : Sound (T.registry prg) := hr.sound.printKernels _ (printed_inverses hw)
  have hm : c ∈ (T.registry prg).constants := by
    obtain ⟨l, hl, -⟩ := printKernels_extends ((written prg).flatMap T.texts) T.start
    rw [Text.registry, hl]
    exact (requests_constants l _).subset hc
  have hval := C38_values_in_program
    (fun env k => k.val T.lib (⟨env, fun _ => 0, fun _ => 0⟩ : Outer D ℝ) ⟨fun _ _ => 0, fun _ => 0⟩) deps
    (fun k env env' h => val_congr T.lib k ⟨env, _, _⟩ ⟨env', _, _⟩ _ rfl rfl fun c hc => h c (by simpa [deps] using hc)) T.inputs _ hs.nodup hs.order (fun _ => 0) c hm
  cases h : c.value with
  | none => rw [h] at hval; exact hval
  | some k =>
    rw [h] at hval
    refine hval.trans (closed_val T.lib _ (hv k h) _ _ _ _ fun c _ => ?_)
    rw [ho]; rfl

/-- The generated inverse spacings have their values in the program. -/
theorem inverses_hold (hF : T.Fits prg U sol) (stage : ℤ) (x : P D) (d : Fin D) (k : ℕ) (h : ∃ p, .request p (T.inverse d k) ∈ T.ops) :
    Inverses T (T.outer prg stage x) d k := by
  have hm := (invName_mem hF.registered d k h).1
  have hm' : (T.inverse d k, T.invName d k) ∈ (T.registry prg).existing := (printKernels_prefix _ _).subset hm
  have hs : Sound (T.registry prg) := hF.registered.sound.printKernels _ (printed_inverses hF.allProper)
  have hv := (hs.values T.lib T.inputs (T.outer prg stage x) rfl _ _ hm' ⟨fun _ _ => 0, fun _ => 0⟩).1
  rw [Inverses, hv]
  change T.lib.pow _ ((-(k : ℚ) : ℚ) : ℝ) = _
  rw [hF.lib.neg, one_div]
  congr 1
  rw [Rat.cast_natCast]
  exact hF.powers (T.const prg (T.delta d)) k

open Classical in
theorem split_at (k : Call D) (hk : k ∈ written prg) : ∃ after, written prg = ((written prg).takeWhile fun k' => decide (k' ≠ k)) ++ k :: after := by
  have gen : ∀ l : List (Call D), k ∈ l → ∃ after, l = (l.takeWhile fun k' => decide (k' ≠ k)) ++ k :: after := by
    intro l
    induction l with
    | nil => intro h; cases h
    | cons b l ih =>
      intro h
      by_cases hb : b = k
      · subst hb
        exact ⟨l, by simp⟩
      · obtain ⟨after, ha⟩ := ih ((List.mem_cons.1 h).resolve_left fun e => hb e.symm)
        refine ⟨after, ?_⟩
        rw [List.takeWhile_cons_of_pos (by simpa using hb), List.cons_append, ← ha]
  exact gen _ hk

/-- A printed function carries out the equations of the kernel, wherever it is in the program. -/
theorem kernel_eq (hl : T.lib.Conforms) (hr : Registered T.ops) (hw : T.AllProper prg) {c : Call D} (hc : c ∈ written prg) {eqs : List (Eqn D)} (he : eqs ∈ T.texts c)
    {before after : List (List (Eqn D))} (hall : (written prg).flatMap T.texts = before ++ eqs :: after) (globs : Finset String)
    (hg : ∀ t ∈ globs, ¬ Generated t ∧ t ∉ T.start.names) (stage : ℤ) (x : P D) (data : String → P D → ℝ) :
    callKernel T.lib globs (T.outer prg stage x) eqs (printKernels before T.start).2 data = some (effect T.lib (T.outer prg stage x) eqs ⟨data, fun _ => 0⟩).data := by
  have hp := hw c hc eqs he
  rw [Text.start, C75_program_partial T.lib hl T.ops hr _ after eqs ?_ T.inputs]
  · change programConstants T.lib T.inputs (T.registry prg) = _
    congr 1
    rw [Text.registry, hall]
    rfl
  · intro e he c' hc'
    exact ⟨fun hv => (hp.vars c' hv).2 (hp.consts e he c' hc'), fun hv => (hg c' hv).2 (hp.consts e he c' hc')⟩
  · intro v hv
    exact hv.elim (fun h => (hp.vars v h).1) fun h => (hg v h).1
  · exact fun e he st => hp.faithful e he _ st
  · exact hp.groups
  · rw [← hall]
    exact printed_inverses hw

theorem texts_of_printed {c : Call D} {eqs : List (Eqn D)} (he : T.printed c = some eqs) : T.texts c = [eqs] := by
  cases c with
  | bc => cases he
  | comp k => simp only [Text.texts, he, Option.toList_some]
  | fn k => simp only [Text.texts, he, Option.toList_some]

open Classical in
/-- The printed function carries out the equations of the kernel. -/
theorem callAt_eq (hl : T.lib.Conforms) (hr : Registered T.ops) (hw : T.AllProper prg) (c : Call D) (hc : c ∈ written prg) (eqs : List (Eqn D)) (he : T.printed c = some eqs)
    (hg : ∀ t ∈ c.globs, ¬ Generated t ∧ t ∉ T.start.names) (stage : ℤ) (a : Arrays D) (x : P D) :
    T.callAt prg c stage a x = some fun b y => (effect T.lib (T.outer prg stage x) eqs ⟨fun b off => a b (x + off), fun _ => 0⟩).data b (y - x) := by
  obtain ⟨after, ha⟩ := split_at c hc
  have ht := texts_of_printed he
  have hall : (written prg).flatMap T.texts = ((written prg).takeWhile fun c' => decide (c' ≠ c)).flatMap T.texts ++ eqs :: after.flatMap T.texts := by
    conv_lhs => rw [ha]
    rw [List.flatMap_append, List.flatMap_cons, ht, List.singleton_append]
  unfold Text.callAt
  rw [he, Option.bind_some, Text.before, kernel_eq hl hr hw hc (by rw [ht]; simp) hall _ hg]
  rfl

theorem comp_globs (k : Ker D) (h : ∀ q ∈ k.eqs, q.2.Printable T) : ∀ t ∈ (Call.comp k).globs, ¬ Generated t ∧ t ∉ T.start.names := by
  intro t ht
  simp only [Call.globs, Ker.globs, List.mem_toFinset, List.mem_flatMap] at ht
  obtain ⟨q, hq, ht⟩ := ht
  exact printable_tables q.2 (h q hq) t ht

/-- The arrays hold the contents of the memory. -/
def TextAgree (T : Text D) (U : Arr → Prop) (m : Mem D) (a : Arrays D) : Prop := ∀ A, U A → a (T.names A) = m A

theorem effect_point (hF : T.Fits prg U sol) (stage : ℤ) (x : P D) (eqs : List (Arr × Ex D))
    (he : ∀ q ∈ eqs, U q.1 ∧ (∀ a ∈ q.2.arrs, U a) ∧ q.2.Printable T ∧ q.2.Unnested T) (m : Mem D) (st : CCode.Mem D ℝ)
    (h : ∀ A, U A → ∀ off, st.data (T.names A) off = m A (x + off)) :
    ∀ A, U A → ∀ off, (effect T.lib (T.outer prg stage x) (eqs.map fun q => .assign ⟨.data (T.names q.1) 0, q.2.sym T 0⟩) st).data (T.names A) off =
      atPoint (T.meaning (T.const prg) stage) eqs m x A (x + off) := by
  induction eqs generalizing m st with
  | nil => exact h
  | cons q eqs ih =>
    obtain ⟨hu, ha, hp, hun⟩ := he q (by simp)
    have hv : (q.2.sym T 0).val T.lib (T.outer prg stage x) st = q.2.eval (T.meaning (T.const prg) stage) m x := by
      have := sym_val q.2 hun (T.outer prg stage x) st m stage x 0 rfl (fun _ => rfl)
        (fun r hr => inverses_hold hF stage x r.1 r.2 (printable_ders q.2 hp r hr)) (fun r hr hc => ⟨rfl, by
          obtain ⟨h1, z, h2⟩ := printable_points q.2 hp r hr hc
          exact ⟨z, (constants_hold hF.registered hF.allProper _ h1 (T.outer prg stage x) rfl (fun k hk => by cases hk) st).trans h2⟩⟩) fun a hm => h a (ha a hm)
      rwa [add_zero] at this
    refine ih (fun q hq => he q (List.mem_cons_of_mem _ hq)) (m.set q.1 x (q.2.eval (T.meaning (T.const prg) stage) m x)) _ fun A hA off => ?_
    simp only [CCode.Mem.set, Mem.set, hv]
    by_cases hc : A = q.1 ∧ off = 0
    · obtain ⟨rfl, rfl⟩ := hc
      simp
    · have h1 : ¬ (T.names A = T.names q.1 ∧ off = 0) := fun hh => hc ⟨hF.injective A q.1 hA hu hh.1, hh.2⟩
      have h2 : ¬ (A = q.1 ∧ x + off = x) := fun hh => hc ⟨hh.1, by simpa using hh.2⟩
      rw [if_neg h2, ← h A hA off]
      by_cases hn : T.names A = T.names q.1
      · rw [hn, Function.update_self, Function.update_of_ne fun e => h1 ⟨hn, e⟩]
      · rw [Function.update_of_ne hn]

theorem callAt_agree (hF : T.Fits prg U sol) (k : Ker D) (hk : .comp k ∈ written prg) (stage : ℤ) (m : Mem D) (a : Arrays D) (h : TextAgree T U m a) (x : P D) :
    ∃ a', T.callAt prg (.comp k) stage a x = some a' ∧ TextAgree T U (atPoint (T.meaning (T.const prg) stage) k.eqs m x) a' := by
  refine ⟨_, callAt_eq hF.lib hF.registered hF.allProper _ hk _ rfl (comp_globs k fun q hq => (hF.kernels k hk q hq).2.2.1) stage a x, fun A hA => ?_⟩
  funext y
  have := effect_point hF stage x k.eqs (hF.kernels k hk) m ⟨fun b off => a b (x + off), fun _ => 0⟩ (fun A hA off => congrFun (h A hA) (x + off)) A hA (y - x)
  rw [add_sub_cancel] at this
  exact this

theorem loop_agree (hF : T.Fits prg U sol) (k : Ker D) (hk : .comp k ∈ written prg) (stage : ℤ) (l : List (P D)) (m : Mem D) (a : Arrays D) (h : TextAgree T U m a) :
    ∃ a', l.foldlM (T.callAt prg (.comp k) stage) a = some a' ∧ TextAgree T U (l.foldl (atPoint (T.meaning (T.const prg) stage) k.eqs) m) a' := by
  induction l generalizing m a with
  | nil => exact ⟨a, rfl, h⟩
  | cons x l ih =>
    obtain ⟨a', h1, h2⟩ := callAt_agree hF k hk stage m a h x
    obtain ⟨a'', h3, h4⟩ := ih _ a' h2
    refine ⟨a'', ?_, h4⟩
    rw [List.foldlM_cons, h1]
    exact h3

theorem fn_agree (hF : T.Fits prg U sol) (k : FnKer D) (hk : ∀ q ∈ k.eqs, U q.1 ∧ ∀ I I' (m m' : Mem D) x, (∀ a, U a → m a = m' a) → q.2 I m x = q.2 I' m' x)
    (I I' : Interp D) (l : List (P D)) (m : Mem D) (a : Arrays D) (h : TextAgree T U m a) :
    TextAgree T U (l.foldl (fun m x => k.eqs.foldl (fun m q => m.set q.1 x (q.2 I m x)) m) m)
      (l.foldl (fun a x => k.eqs.foldl (fun a q b y => if b = T.names q.1 ∧ y = x then q.2 I' (fun A => a (T.names A)) x else a b y) a) a) := by
  induction l generalizing m a with
  | nil => exact h
  | cons x l ih =>
    refine ih _ _ ?_
    have inner : ∀ (eqs : List (Arr × (Interp D → Mem D → P D → ℝ))) (m : Mem D) (a : Arrays D), TextAgree T U m a →
        (∀ q ∈ eqs, U q.1 ∧ ∀ I I' (m m' : Mem D) x, (∀ a, U a → m a = m' a) → q.2 I m x = q.2 I' m' x) →
        TextAgree T U (eqs.foldl (fun m q => m.set q.1 x (q.2 I m x)) m)
          (eqs.foldl (fun a q b y => if b = T.names q.1 ∧ y = x then q.2 I' (fun A => a (T.names A)) x else a b y) a) := by
      intro eqs
      induction eqs with
      | nil => exact fun m a h _ => h
      | cons q eqs ih' =>
        intro m a h hq
        refine ih' _ _ (fun A hA => ?_) fun q hq' => hq q (List.mem_cons_of_mem _ hq')
        obtain ⟨hu, hd⟩ := hq q (by simp)
        funext y
        simp only [Mem.set]
        rw [hd I' I (fun A => a (T.names A)) m x fun A hA => h A hA, h A hA]
        by_cases hc : A = q.1 ∧ y = x
        · rw [if_pos hc, if_pos ⟨by rw [hc.1], hc.2⟩]
        · rw [if_neg hc, if_neg fun hh => hc ⟨hF.injective A q.1 hA hu hh.1, hh.2⟩]
    exact inner k.eqs m a h hk

theorem bc_agree (hF : T.Fits prg U sol) (B : (Fin n → P D → ℝ) → Fin n → P D → ℝ) (m : Mem D) (a : Arrays D) (h : TextAgree T U m a) :
    TextAgree T U (runBc sol B m) (fun b => match (List.finRange n).find? fun i : Fin n => T.names (.data (sol i)) = b with
      | some i => B (fun j => a (T.names (.data (sol j)))) i
      | none => a b) := by
  intro A hA
  have hj : (fun j => a (T.names (.data (sol j)))) = fun j => m (.data (sol j)) := funext fun j => h _ (hF.solution j)
  have hfind : ((List.finRange n).find? fun i : Fin n => T.names (.data (sol i)) = T.names A) = (List.finRange n).find? fun i : Fin n => Arr.data (sol i) = A := by
    congr 1
    funext i
    rw [decide_eq_decide]
    exact ⟨hF.injective _ _ (hF.solution i) hA, fun e => by rw [e]⟩
  simp only [hfind, hj]
  cases A with
  | data s =>
    have : ((List.finRange n).find? fun i : Fin n => Arr.data (sol i) = Arr.data s) = (List.finRange n).find? fun i : Fin n => sol i = s := by
      congr 1
      funext i
      rw [decide_eq_decide]
      exact ⟨fun e => Arr.data.inj e, fun e => by rw [e]⟩
    rw [this]
    simp only [runBc]
    split <;> rename_i hs <;> simp only [hs]
    exact h _ hA
  | _ =>
    have : ∀ B : Arr, (∀ s, B ≠ .data s) → ((List.finRange n).find? fun i : Fin n => Arr.data (sol i) = B) = none := by
      intro B hB
      rw [List.find?_eq_none]
      intro i _
      simpa using fun e => hB _ e.symm
    rw [this _ (by intro s; simp)]
    exact h _ hA

theorem written_of_call (c : Call D) (e : Alg.Env) (h : .call c e ∈ Alg.runProgram prg) : c ∈ written prg := by
  classical
  exact Alg.C44_called_kernels_are_defined prg _ e h

/-- The loop over the points of a kernel of another scheme, with its printed function, has the effect of the kernel. -/
def BodyAgrees (T : Text D) (prg : List (Alg.Node (Call D))) (U : Arr → Prop) (pts : Ranges.Kernel D → List (P D)) (k : FnKer D) (m : Mem D) : Prop :=
  ∀ stage a, TextAgree T U m a → ∃ a', (pts k.range).foldlM (T.callAt prg (.fn k) stage) a = some a' ∧ TextAgree T U (runFn (T.meaning (T.const prg) 0) pts k m) a'

theorem fn_globs (k : FnKer D) : ∀ t ∈ (Call.fn k).globs, ¬ Generated t ∧ t ∉ T.start.names := by
  intro t ht
  simp [Call.globs] at ht

/-- The printed function of a kernel whose text says what it does has its effect. -/
theorem says_body (hF : T.Fits prg U sol) (pts : Ranges.Kernel D → List (P D)) (k : FnKer D) (hk : .fn k ∈ written prg) (eqs : List (Eqn D)) (he : T.fns k = some eqs) (hs : T.Says U k eqs) (m : Mem D) :
    BodyAgrees T prg U pts k m := by
  intro stage a h
  unfold runFn
  generalize pts k.range = l
  induction l generalizing m a with
  | nil => exact ⟨a, rfl, h⟩
  | cons x l ih =>
    obtain ⟨a'', h3, h4⟩ := ih (k.eqs.foldl (fun m q => m.set q.1 x (q.2 (T.meaning (T.const prg) 0) m x)) m)
      (fun b y => (effect T.lib (T.outer prg stage x) eqs ⟨fun b off => a b (x + off), fun _ => 0⟩).data b (y - x)) fun A hA => by
        funext y
        have := hs (T.const prg) stage x m ⟨fun b off => a b (x + off), fun _ => 0⟩ (fun A hA off => congrFun (h A hA) (x + off)) A hA (y - x)
        rw [add_sub_cancel] at this
        exact this
    refine ⟨a'', ?_, h4⟩
    rw [List.foldlM_cons, callAt_eq hF.lib hF.registered hF.allProper _ hk _ he (fn_globs k)]
    exact h3

theorem exec_agree (hF : T.Fits prg U sol) (pts : Ranges.Kernel D → List (P D)) (B : (Fin n → P D → ℝ) → Fin n → P D → ℝ) (v : Alg.Event (Call D))
    (hv : v ∈ Alg.runProgram prg) (m : Mem D) (hb : ∀ k e, v = .call (.fn k) e → (T.fns k).isSome → BodyAgrees T prg U pts k m) (a : Arrays D) (h : TextAgree T U m a) :
    ∃ a', T.exec prg pts sol B v a = some a' ∧ TextAgree T U (exec (T.meaning (T.const prg) 0) pts sol B v m) a' := by
  classical
  cases v with
  | call c e =>
    cases c with
    | comp k => exact loop_agree hF k (written_of_call _ e hv) (e.stage.getD 0) (pts k.range) m a h
    | bc => exact ⟨_, rfl, bc_agree hF B m a h⟩
    | fn k =>
      by_cases hs : (T.fns k).isSome
      · simp only [Text.exec, if_pos hs]
        exact hb k e rfl hs _ a h
      · simp only [Text.exec, if_neg hs]
        exact ⟨_, rfl, fn_agree hF k (hF.others k (written_of_call _ e hv) (by simpa using hs)) _ _ (pts k.range) m a h⟩
  | _ => exact ⟨a, rfl, h⟩

theorem run_agree (hF : T.Fits prg U sol) (pts : Ranges.Kernel D → List (P D)) (B : (Fin n → P D → ℝ) → Fin n → P D → ℝ) (events : List (Alg.Event (Call D)))
    (hv : ∀ v ∈ events, v ∈ Alg.runProgram prg) (m : Mem D) (hb : ∀ pre k e suf, events = pre ++ .call (.fn k) e :: suf → (T.fns k).isSome →
      BodyAgrees T prg U pts k (Alg.effect (exec (T.meaning (T.const prg) 0) pts sol B) pre m)) (a : Arrays D) (h : TextAgree T U m a) :
    ∃ a', T.run prg pts sol B events a = some a' ∧ TextAgree T U (Alg.effect (exec (T.meaning (T.const prg) 0) pts sol B) events m) a' := by
  induction events generalizing m a with
  | nil => exact ⟨a, rfl, h⟩
  | cons v events ih =>
    obtain ⟨a', h1, h2⟩ := exec_agree hF pts B v (hv v (by simp)) m (fun k e he hs => hb [] k e events (by rw [he]; rfl) hs) a h
    obtain ⟨a'', h3, h4⟩ := ih (fun v' h' => hv v' (List.mem_cons_of_mem _ h')) _ (fun pre k e suf he hs => hb (v :: pre) k e suf (by rw [he]; rfl) hs) a' h2
    refine ⟨a'', ?_, h4⟩
    rw [Text.run, List.foldlM_cons, h1]
    exact h3

end OpenSBLI.Sim
