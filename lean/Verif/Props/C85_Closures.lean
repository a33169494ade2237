import Verif.Props.C85_SimulationText
import Verif.Props.C21_C23_Closures

/-!
# C85: derivatives in the text of a program with boundary closures

The derivatives the printed program computes (`Text.meaning`) near a boundary: they read points of the grid only, so that the theorems on programs apply; they are
those of the closures (C21 to C23), up to the rounding of the printed coefficients of Carpenter.
-/
namespace OpenSBLI.Sim
open OpenSBLI.Reg OpenSBLI.CCode

variable {D n : ℕ} {T : Text D} {S : Setup D n}

theorem formulas_offsets (K : Option Closure.Kind) (side : Bool) (k j : ℕ) (r : Closure.Row) (h : (T.formulas K side k)[j]? = some r) (q : ℤ × ℝ) (hq : q ∈ r) :
    if side then -5 ≤ q.1 - j ∧ q.1 - j ≤ 0 else 0 ≤ q.1 + j ∧ q.1 + j ≤ 5 := by
  cases K with
  | none => simp [Text.formulas] at h
  | some K =>
    simp only [Text.formulas] at h
    split at h
    · rw [List.getElem?_map, Option.map_eq_some_iff] at h
      obtain ⟨i, hi, rfl⟩ := h
      obtain ⟨hlt, hi⟩ := List.getElem?_eq_some_iff.1 hi
      rw [List.getElem_finRange] at hi
      have hij : (i : ℕ) = j := by rw [← hi]; rfl
      obtain ⟨l, -, rfl⟩ := List.mem_map.1 hq
      cases side <;> simp [Closure.offset] <;> omega
    · cases hr : Closure.rows K side k with
      | none => rw [hr] at h; simp at h
      | some ds =>
        rw [hr, Option.getD_some] at h
        obtain ⟨hlt, rfl⟩ := List.getElem?_eq_some_iff.1 h
        exact Closure.rows_offsets k K side ds hr j hlt q hq

/-- The formulas of closures read points of the grid only. -/
theorem formulaAt_inside {np : ℤ} (h6 : 6 ≤ np) {d : Fin D} {k : ℕ} {i : ℤ} {r : Closure.Row} (h : T.formulaAt np d k i = some r) (q : ℤ × ℝ) (hq : q ∈ r) :
    0 ≤ i + q.1 ∧ i + q.1 < np := by
  rw [Text.formulaAt, Option.or_eq_some_iff] at h
  rcases h with h | ⟨-, h⟩
  · split at h
    · have := formulas_offsets _ _ _ _ _ h q hq
      simp only [Bool.false_eq_true, if_false] at this
      omega
    · cases h
  · split at h
    · have := formulas_offsets _ _ _ _ _ h q hq
      simp only [if_true] at this
      omega
    · cases h

/-- C85: with closures the derivatives still read, besides the halo, only points of the grid. So the hypothesis `reach` of C77 and C85 holds for every choice of
closures, when the closed directions have at least six points. -/
theorem C85_closures_local (ho : T.order = S.order) (const : String → ℝ) (stage : ℤ) (hn : ∀ d, T.hasClosure d → const (T.points d) = S.np d ∧ 6 ≤ S.np d) :
    Local (T.meaning const stage) S.np S.h := by
  intro d k f g x hfg
  simp only [Text.meaning]
  congr 1
  cases h : T.formulaAt ⌊const (T.points d)⌋ d k (x d) with
  | none =>
    refine Finset.sum_congr rfl fun p hp => ?_
    rw [hfg p (.inl ?_)]
    have := (Central.mem_points T.order p).1 hp
    rw [abs_le, Setup.h, ← ho]
    omega
  | some r =>
    have hc : T.hasClosure d := by
      by_contra hc
      rw [formulaAt_none hc] at h
      cases h
    obtain ⟨h1, h2⟩ := hn d hc
    rw [h1, Int.floor_intCast] at h
    refine congrArg List.sum (List.map_congr_left fun q hq => ?_)
    rw [hfg q.1 (.inr (formulaAt_inside h2 h q hq))]

/-- C85: so a generated program is a program for the derivatives of its text, when the input file has the numbers of points of the grid. -/
theorem C85_closures_program {t : Temporal} {I : Interp D} {pts : Ranges.Kernel D → List (P D)} {inp : Alg.Input (Call D)} {prg : List (Alg.Node (Call D))} {U : Arr → Prop}
    (hS : T.Suits S t inp U) (hP : Program S t I pts inp prg)
    (hn : ∀ d, T.hasClosure d → ⟨T.points d, none⟩ ∈ T.start.constants ∧ T.inputs (T.points d) = S.np d ∧ 6 ≤ S.np d) :
    Program S t (T.meaning (T.const prg) 0) pts inp prg :=
  ⟨hP.valid, hP.loops, C85_closures_local hS.order _ _ fun d hd =>
    ⟨(C85_constants (fits hS hP).1 _ (hn d hd).1 (T.outer prg 0 0) rfl (fun k hk => by cases hk) ⟨fun _ _ => 0, fun _ => 0⟩).trans (hn d hd).2.1, (hn d hd).2.2⟩,
    hP.items, hP.others, hP.generated⟩

/-! ## The closures of C21 to C23 -/

theorem piecewise_condPairs {R : Type} (start fac : ℤ) (hf : fac = 1 ∨ fac = -1) (ds : List R) (t : List (R × ℤ)) (c : R) (x : ℤ) :
    Closure.piecewise (Closure.condPairs start fac ds 0 ++ t) c x =
      ((if 0 ≤ fac * (x - start) then ds[(fac * (x - start)).toNat]? else none).getD (Closure.piecewise t c x)) := by
  by_cases h : 0 ≤ fac * (x - start) ∧ (fac * (x - start)).toNat < ds.length
  · rw [if_pos h.1, List.getElem?_eq_getElem h.2, Option.getD_some]
    refine Closure.piecewise_hit start fac hf t c x ds 0 _ h.2 ?_
    rw [Nat.zero_add, Int.toNat_of_nonneg h.1]
    rcases hf with rfl | rfl <;> ring
  · rw [Closure.piecewise_miss start fac t c x ds 0]
    · split
      · rename_i h0
        rw [List.getElem?_eq_none (by omega)]; rfl
      · rfl
    · rintro j hj rfl
      refine h ?_
      rw [Nat.zero_add]
      rcases hf with rfl | rfl <;> constructor <;> simp <;> omega

theorem rowAt_eq (m : Closure.Mods) (order k : ℕ) (hk : k = 1 ∨ k = 2) (np i : ℤ) :
    Closure.rowAt m order k 0 np i = some (((if 0 ≤ i then ((m.left.bind fun K => Closure.rows K false k).getD [])[i.toNat]? else none).or
      (if 0 ≤ np - 1 - i then ((m.right.bind fun K => Closure.rows K true k).getD [])[(np - 1 - i).toNat]? else none)).getD (Closure.centralRow order k)) := by
  obtain ⟨l, r, hb, ll, lr, hl, hr⟩ := Closure.branches_eq m k 0 np hk
  have el : (m.left.bind fun K => Closure.rows K false k).getD [] = l := by
    cases h : m.left with
    | none =>
      simp only [Closure.leftPoints, h, Option.map_none, Option.getD_none] at ll
      simp [List.length_eq_zero_iff.1 ll]
    | some K => simp [hl K h]
  have er : (m.right.bind fun K => Closure.rows K true k).getD [] = r := by
    cases h : m.right with
    | none =>
      simp only [Closure.rightPoints, h, Option.map_none, Option.getD_none] at lr
      simp [List.length_eq_zero_iff.1 lr]
    | some K => simp [hr K h]
  have h2 := piecewise_condPairs (np - 1) (-1) (.inr rfl) r [] (Closure.centralRow order k) i
  rw [List.append_nil, show (-1) * (i - (np - 1)) = np - 1 - i by ring] at h2
  rw [Closure.rowAt, hb, Option.map_some, piecewise_condPairs 0 1 (.inl rfl), h2, el, er, one_mul, sub_zero, Option.getD_or]
  rfl

/-- The value of a formula. -/
theorem eval_row (r : Closure.Row) (d : Fin D) (f : P D → ℝ) (x : P D) :
    (r.map fun q => q.2 * f (shift x d q.1)).sum = r.eval (fun i => f (Function.update x d i)) (x d) := rfl

theorem cd_eq (const : String → ℝ) (stage : ℤ) (d : Fin D) (k : ℕ) (np : ℤ) (hn : const (T.points d) = np) (f : P D → ℝ) (x : P D) :
    (T.meaning const stage).cd d k f x =
      ((T.formulaAt np d k (x d)).getD (Closure.centralRow T.order k)).eval (fun i => f (Function.update x d i)) (x d) * (1 / const (T.delta d) ^ k) := by
  simp only [Text.meaning, hn, Int.floor_intCast]
  cases T.formulaAt np d k (x d) with
  | some r => rfl
  | none =>
    rw [Option.getD_none, Closure.centralRow_eval]
    rfl

/-- C85: the derivatives computed by the text are those of the closures (C21 to C23), wherever the point is, unless the coefficients of Carpenter are involved,
which are printed as decimal numbers. -/
theorem C85_closure_formulas (const : String → ℝ) (stage : ℤ) (d : Fin D) (k : ℕ) (hk : k = 1 ∨ k = 2) (np : ℤ) (hn : const (T.points d) = np)
    (hB : k = 1 → (T.mods d).left ≠ some .carpenter ∧ (T.mods d).right ≠ some .carpenter) (f : P D → ℝ) (x : P D) :
    Closure.discretised (T.mods d) T.order k 0 np (const (T.delta d)) (fun i => f (Function.update x d i)) (x d) = some ((T.meaning const stage).cd d k f x) := by
  have hF : ∀ K side, (k = 1 → K ≠ some .carpenter) → T.formulas K side k = (K.bind fun K => Closure.rows K side k).getD [] := by
    intro K side h
    cases K with
    | none => rfl
    | some K =>
      simp only [Text.formulas, Option.bind_some]
      rw [if_neg fun hc => h hc.2 (congrArg some hc.1)]
  rw [cd_eq const stage d k np hn, Closure.discretised, rowAt_eq _ _ _ hk, Text.formulaAt, hF _ _ fun h => (hB h).1, hF _ _ fun h => (hB h).2]
  rfl

/-- C85: near a boundary the text differentiates polynomials of the design degree of the closure exactly, on both sides. Partial: not the first derivative of
Carpenter, whose coefficients are rounded (`C85_closure_rounding`), and not the second derivative of the reduced order closure on the right, which has the wrong
sign (`C85_reduced_order_wrong`). -/
theorem C85_closure_exact_partial (const : String → ℝ) (stage : ℤ) (d : Fin D) (k : ℕ) (hk : k = 1 ∨ k = 2) (np : ℤ) (hn : const (T.points d) = np)
    (hB : k = 1 → (T.mods d).left ≠ some .carpenter ∧ (T.mods d).right ≠ some .carpenter) (side : Bool) (K : Closure.Kind)
    (hbug : ¬ (K = .reducedOrder ∧ k = 2 ∧ side = true)) (hK : (if side then (T.mods d).right else (T.mods d).left) = some K) (j : ℕ) (hj : j < Closure.closurePoints K k)
    (f : P D → ℝ) (x : P D) (hx : x d = if side then np - 1 - j else j) (hleft : side = true → Closure.leftPoints (T.mods d) k ≤ x d) (p : Polynomial ℝ)
    (hp : p.natDegree ≤ Closure.designDegree K k j) (x₀ : ℝ) (hδ : const (T.delta d) ≠ 0) (hf : ∀ i : ℤ, f (Function.update x d i) = p.eval (x₀ + i * const (T.delta d))) :
    (T.meaning const stage).cd d k f x = ((Polynomial.derivative)^[k] p).eval (x₀ + x d * const (T.delta d)) := by
  have h1 := C85_closure_formulas (T := T) const stage d k hk np hn hB f x
  have h2 := Closure.C22_exact_partial (T.mods d) T.order k 0 np (x d) hk side K hbug hK j hj (by rw [hx, zero_add]) (fun h => by rw [zero_add]; exact hleft h) p hp x₀ _ hδ
  simp only [hf] at h1
  exact Option.some.inj (h1.symm.trans h2)

/-- C85: the printed second derivative of `x²` at the last point, with the reduced order closure on the right and spacing one, is `-2`. -/
theorem C85_reduced_order_wrong (const : String → ℝ) (stage : ℤ) (d : Fin D) (N : ℕ) (hn : const (T.points d) = N) (hδ : const (T.delta d) = 1)
    (hr : (T.mods d).right = some .reducedOrder) (hN : Closure.leftPoints (T.mods d) 2 + 2 ≤ N) (x : P D) (hx : x d = N - 1) :
    (T.meaning const stage).cd d 2 (fun y => (y d : ℝ) ^ 2) x = -2 := by
  have h1 := C85_closure_formulas (T := T) const stage d 2 (.inr rfl) N (by exact_mod_cast hn) (fun h => by cases h) (fun y => (y d : ℝ) ^ 2) x
  have hm : T.mods d = ⟨(T.mods d).left, some .reducedOrder⟩ := by rw [← hr]
  have h2 := Closure.C22_reduced_order_right_second_wrong (T.mods d).left T.order N (by rw [← hm]; exact hN)
  rw [hm, hδ, hx] at h1
  simp only [Function.update_self] at h1
  exact Option.some.inj (h1.symm.trans h2)

/-- C85: in general, when the printed coefficients of Carpenter differ from the exact ones by at most `ε`, the derivative differs from that of the closure by at
most `6 ε M / |δ|^k`, where `M` bounds the values within five points. -/
theorem C85_closure_rounding (const : String → ℝ) (stage : ℤ) (d : Fin D) (k : ℕ) (hk : k = 1 ∨ k = 2) (np : ℤ) (hn : const (T.points d) = np) (ε : ℝ)
    (hε : ∀ i j, |(T.carpenter i j : ℝ) - Closure.bc4 i j| ≤ ε) (f : P D → ℝ) (x : P D) (M : ℝ) (hM : ∀ j : ℤ, |j| ≤ 5 → |f (shift x d j)| ≤ M) :
    ∃ v, Closure.discretised (T.mods d) T.order k 0 np (const (T.delta d)) (fun i => f (Function.update x d i)) (x d) = some v ∧
      |(T.meaning const stage).cd d k f x - v| ≤ 6 * ε * M / |const (T.delta d)| ^ k := by
  have hε0 : 0 ≤ ε := (abs_nonneg _).trans (hε 0 0)
  have hM0 : 0 ≤ M := (abs_nonneg _).trans (hM 0 (by simp))
  set g : ℤ → ℝ := fun i => f (Function.update x d i) with hg
  have close : ∀ K side (j : ℕ), (T.formulas K side k)[j]? = ((K.bind fun K => Closure.rows K side k).getD [])[j]? ∨
      ∃ r r', (T.formulas K side k)[j]? = some r ∧ ((K.bind fun K => Closure.rows K side k).getD [])[j]? = some r' ∧ |r.eval g (x d) - r'.eval g (x d)| ≤ 6 * ε * M := by
    intro K side j
    cases K with
    | none => exact .inl rfl
    | some K =>
      by_cases hc : K = .carpenter ∧ k = 1
      · obtain ⟨rfl, rfl⟩ := hc
        simp only [Text.formulas, Option.bind_some, and_self, if_true, Closure.rows, Closure.carpenter, Option.getD_some, List.getElem?_map]
        cases hj : (List.finRange 4)[j]? with
        | none => exact .inl rfl
        | some i =>
          refine .inr ⟨_, _, rfl, rfl, ?_⟩
          simp only [Closure.Row.eval, List.map_map, Function.comp_def, Closure.sum_map_finRange]
          rw [← Finset.sum_sub_distrib]
          refine (Finset.abs_sum_le_sum_abs _ _).trans ?_
          have each : ∀ l : Fin 6, |(if side then -1 else 1) * (T.carpenter i l : ℝ) * g (x d + Closure.offset side l i) -
              (if side then -1 else 1) * Closure.bc4 i l * g (x d + Closure.offset side l i)| ≤ ε * M := by
            intro l
            rw [← sub_mul, ← mul_sub, abs_mul, abs_mul]
            have h1 : |(if side then (-1 : ℝ) else 1)| = 1 := by cases side <;> simp
            rw [h1, one_mul]
            refine mul_le_mul (hε i l) (hM _ ?_) (abs_nonneg _) hε0
            rw [abs_le]
            cases side <;> simp [Closure.offset] <;> omega
          refine (Finset.sum_le_sum fun l _ => each l).trans ?_
          simp
          linarith
      · exact .inl (by simp only [Text.formulas, Option.bind_some, if_neg hc])
  have hrow := rowAt_eq (T.mods d) T.order k hk np (x d)
  refine ⟨_, by rw [Closure.discretised, hrow]; rfl, ?_⟩
  rw [cd_eq const stage d k np hn, ← sub_mul, abs_mul, abs_div, abs_one, abs_pow, mul_one_div]
  refine div_le_div_of_nonneg_right ?_ (by positivity)
  have zero : ∀ r : Closure.Row, |r.eval g (x d) - r.eval g (x d)| ≤ 6 * ε * M := by
    intro r; rw [sub_self, abs_zero]; positivity
  have pick : ∀ K K' (c c' : Prop) [Decidable c] [Decidable c'] (i i' : ℕ) (s s' : Bool) (e : Closure.Row),
      |((((if c then (T.formulas K s k)[i]? else none).or (if c' then (T.formulas K' s' k)[i']? else none)).getD e).eval g (x d)) -
        ((((if c then ((K.bind fun K => Closure.rows K s k).getD [])[i]? else none).or
          (if c' then ((K'.bind fun K => Closure.rows K s' k).getD [])[i']? else none)).getD e).eval g (x d))| ≤ 6 * ε * M := by
    intro K K' c c' _ _ i i' s s' e
    have second : |(((if c' then (T.formulas K' s' k)[i']? else none).getD e).eval g (x d)) -
        (((if c' then ((K'.bind fun K => Closure.rows K s' k).getD [])[i']? else none).getD e).eval g (x d))| ≤ 6 * ε * M := by
      by_cases hc' : c'
      · rw [if_pos hc', if_pos hc']
        rcases close K' s' i' with h | ⟨r, r', h1, h2, h3⟩
        · rw [h]; exact zero _
        · rw [h1, h2]; exact h3
      · rw [if_neg hc', if_neg hc']; exact zero _
    rw [Option.getD_or, Option.getD_or]
    by_cases hc : c
    · rw [if_pos hc, if_pos hc]
      rcases close K s i with h | ⟨r, r', h1, h2, h3⟩
      · rw [h]
        cases ((K.bind fun K => Closure.rows K s k).getD [])[i]? with
        | none => exact second
        | some r => exact zero r
      · rw [h1, h2]; exact h3
    · rw [if_neg hc, if_neg hc]; exact second
  exact pick _ _ _ _ _ _ _ _ _

/-- C85: with closures at both ends that are at least as wide as half the interior stencil, derivatives at grid points use points of the grid only: no halo is
needed in this direction. -/
theorem C85_no_halo (const : String → ℝ) (stage : ℤ) (d : Fin D) (k : ℕ) (hk : k = 1 ∨ k = 2) (kl kr : Closure.Kind) (hm : T.mods d = ⟨some kl, some kr⟩) (np : ℤ)
    (hn : const (T.points d) = np) (h6 : 6 ≤ np) (hl : T.order / 2 ≤ Closure.closurePoints kl k) (hr : T.order / 2 ≤ Closure.closurePoints kr k) (f g : P D → ℝ) (x : P D)
    (hx : 0 ≤ x d ∧ x d < np) (hfg : ∀ i, 0 ≤ i → i < np → f (Function.update x d i) = g (Function.update x d i)) :
    (T.meaning const stage).cd d k f x = (T.meaning const stage).cd d k g x := by
  rw [cd_eq const stage d k np hn, cd_eq const stage d k np hn]
  congr 1
  refine congrArg List.sum (List.map_congr_left fun q hq => ?_)
  suffices h : 0 ≤ x d + q.1 ∧ x d + q.1 < np from congrArg (q.2 * ·) (hfg _ h.1 h.2)
  cases h : T.formulaAt np d k (x d) with
  | some r =>
    rw [h, Option.getD_some] at hq
    exact formulaAt_inside h6 h q hq
  | none =>
    rw [h, Option.getD_none] at hq
    obtain ⟨r, h1, h2⟩ := Closure.C23_in_domain_partial T.order k 0 np (x d) hk kl kr (by omega) hl hr hx.1 hx.2
    have hlen : ∀ K side, (T.formulas (some K) side k).length = Closure.closurePoints K k := by
      intro K side
      simp only [Text.formulas]
      split
      · rename_i hc
        obtain ⟨rfl, rfl⟩ := hc
        simp [Closure.closurePoints]
      · obtain ⟨ds, hds⟩ := Option.isSome_iff_exists.1 ((Closure.rows_isSome K side k).2 hk)
        rw [hds, Option.getD_some]
        exact Closure.rows_length K side k ds hds
    have hint : r = Closure.centralRow T.order k := by
      rw [Text.formulaAt, Option.or_eq_none_iff, hm, if_pos hx.1, if_pos (by omega), List.getElem?_eq_none_iff, List.getElem?_eq_none_iff, hlen, hlen] at h
      have := Closure.C23_interior_points ⟨some kl, some kr⟩ T.order k 0 np (x d) hk (by simp [Closure.leftPoints]; omega) (by simp [Closure.rightPoints]; omega)
      rw [this] at h1
      exact (Option.some.inj h1).symm
    exact h2 q (hint ▸ hq)

end OpenSBLI.Sim
