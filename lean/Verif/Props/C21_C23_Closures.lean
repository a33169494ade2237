import Verif.Lemmas.Closures
import Verif.Props.C18_C20_Central

/-!
# C21, C22, C23: one-sided boundary closures
-/
namespace OpenSBLI.Closure
open Polynomial

/-! ## C23: which formula is used where -/

/-- Number of boundary points treated by a closure. -/
def closurePoints : Kind → ℕ → ℕ
  | .carpenter, 1 => 4
  | _, _ => 2

theorem rows_isSome (k : Kind) (side : Bool) (d : ℕ) :
    (rows k side d).isSome ↔ d = 1 ∨ d = 2 := by
  rcases d with _ | _ | _ | d <;> cases k <;> simp [rows, carpenter, reducedAccess, reducedOrder]

theorem rows_length (k : Kind) (side : Bool) (d : ℕ) (ds : List Row) (h : rows k side d = some ds) :
    ds.length = closurePoints k d := by
  rcases d with _ | _ | _ | d <;> cases k <;>
    simp [rows, carpenter, reducedAccess, reducedOrder] at h <;> subst h <;>
    simp [closurePoints]

theorem piecewise_hit {R : Type} (start fac : ℤ) (hf : fac = 1 ∨ fac = -1) (t : List (R × ℤ)) (d : R)
    (x : ℤ) : ∀ (ds : List R) (n j : ℕ) (hj : j < ds.length), x = start + fac*((n + j : ℕ):ℤ) →
    piecewise (condPairs start fac ds n ++ t) d x = ds[j]
  | [], _, _, hj, _ => absurd hj (by simp)
  | r :: ds, n, 0, _, hx => by simp [condPairs, piecewise, hx]
  | r :: ds, n, j+1, hj, hx => by
    simp only [condPairs, List.cons_append, piecewise, List.getElem_cons_succ]
    rw [if_neg]
    · exact piecewise_hit start fac hf t d x ds (n+1) j (by simpa using hj) (by
        rw [hx]; push_cast; ring)
    · rcases hf with rfl | rfl <;> push_cast at hx <;> omega

theorem piecewise_miss {R : Type} (start fac : ℤ) (t : List (R × ℤ)) (d : R)
    (x : ℤ) : ∀ (ds : List R) (n : ℕ), (∀ j : ℕ, j < ds.length → x ≠ start + fac*((n + j : ℕ):ℤ)) →
    piecewise (condPairs start fac ds n ++ t) d x = piecewise t d x
  | [], _, _ => rfl
  | r :: ds, n, h => by
    simp only [condPairs, List.cons_append, piecewise]
    rw [if_neg (by simpa using h 0 (by simp))]
    refine piecewise_miss start fac t d x ds (n+1) fun j hj => ?_
    have := h (j+1) (by simpa using hj)
    push_cast at this ⊢
    convert this using 2
    ring

variable (m : Mods) (order d : ℕ) (lo hi x : ℤ)

/-- Points treated at the left and right end. -/
def leftPoints (m : Mods) (d : ℕ) : ℕ := (m.left.map fun k => closurePoints k d).getD 0
def rightPoints (m : Mods) (d : ℕ) : ℕ := (m.right.map fun k => closurePoints k d).getD 0

theorem branches_eq (hd : d = 1 ∨ d = 2) : ∃ l r : List Row,
    branches m d lo hi = some (condPairs lo 1 l 0 ++ condPairs (hi - 1) (-1) r 0) ∧
    l.length = leftPoints m d ∧ r.length = rightPoints m d ∧
    (∀ k, m.left = some k → rows k false d = some l) ∧
    (∀ k, m.right = some k → rows k true d = some r) := by
  have some_of : ∀ k side, ∃ ds, rows k side d = some ds := fun k side =>
    Option.isSome_iff_exists.1 ((rows_isSome k side d).2 hd)
  rcases m with ⟨_ | kl, _ | kr⟩
  · exact ⟨[], [], by simp [branches, condPairs], by simp [leftPoints], by simp [rightPoints],
      by simp, by simp⟩
  · obtain ⟨r, hr⟩ := some_of kr true
    refine ⟨[], r, ?_, by simp [leftPoints], ?_, by simp, ?_⟩
    · simp [branches, hr, exprCondPairs, condPairs]
    · simp [rightPoints, rows_length kr true d r hr]
    · rintro k ⟨⟩; exact hr
  · obtain ⟨l, hl⟩ := some_of kl false
    refine ⟨l, [], ?_, ?_, by simp [rightPoints], ?_, by simp⟩
    · simp [branches, hl, exprCondPairs, condPairs]
    · simp [leftPoints, rows_length kl false d l hl]
    · rintro k ⟨⟩; exact hl
  · obtain ⟨l, hl⟩ := some_of kl false
    obtain ⟨r, hr⟩ := some_of kr true
    refine ⟨l, r, ?_, ?_, ?_, ?_, ?_⟩
    · simp [branches, hl, hr, exprCondPairs]
    · simp [leftPoints, rows_length kl false d l hl]
    · simp [rightPoints, rows_length kr true d r hr]
    · rintro k ⟨⟩; exact hl
    · rintro k ⟨⟩; exact hr

/-- **C23.** At the `j`-th point from the left the `j`-th left row is used. -/
theorem C23_left_points (hd : d = 1 ∨ d = 2) (k : Kind) (hk : m.left = some k) (j : ℕ)
    (hj : j < closurePoints k d) (hx : x = lo + j) :
    ∃ l, rows k false d = some l ∧ ∃ h : j < l.length, rowAt m order d lo hi x = some l[j] := by
  obtain ⟨l, r, hb, hl, -, hkl, -⟩ := branches_eq m d lo hi hd
  have hlen : l.length = closurePoints k d := rows_length k false d l (hkl k hk)
  refine ⟨l, hkl k hk, by omega, ?_⟩
  rw [rowAt, hb, Option.map_some, piecewise_hit lo 1 (Or.inl rfl) _ _ x l 0 j (by omega) (by
    rw [hx]; push_cast; ring)]

/-- **C23.** At the `j`-th point from the right, unless it is already treated by the left closure,
the `j`-th right row is used. -/
theorem C23_right_points (hd : d = 1 ∨ d = 2) (k : Kind) (hk : m.right = some k) (j : ℕ)
    (hj : j < closurePoints k d) (hx : x = hi - 1 - j) (hleft : lo + leftPoints m d ≤ x) :
    ∃ r, rows k true d = some r ∧ ∃ h : j < r.length, rowAt m order d lo hi x = some r[j] := by
  obtain ⟨l, r, hb, hl, -, -, hkr⟩ := branches_eq m d lo hi hd
  have hlen : r.length = closurePoints k d := rows_length k true d r (hkr k hk)
  refine ⟨r, hkr k hk, by omega, ?_⟩
  rw [rowAt, hb, Option.map_some, piecewise_miss _ _ _ _ _ _ _ (fun i hi' => by push_cast; omega)]
  have := piecewise_hit (hi - 1) (-1) (Or.inr rfl) [] (centralRow order d) x r 0 j (by omega) (by
    rw [hx]; push_cast; ring)
  rw [List.append_nil] at this
  rw [this]

/-- **C23.** At all other points the interior formula is used. -/
theorem C23_interior_points (hd : d = 1 ∨ d = 2) (hleft : lo + leftPoints m d ≤ x)
    (hright : x < hi - rightPoints m d) : rowAt m order d lo hi x = some (centralRow order d) := by
  obtain ⟨l, r, hb, hl, hr, -, -⟩ := branches_eq m d lo hi hd
  rw [rowAt, hb, Option.map_some, piecewise_miss _ _ _ _ _ _ _ (fun i hi' => by push_cast; omega)]
  have := piecewise_miss (hi - 1) (-1) [] (centralRow order d) x r 0 (fun i hi' => by
    push_cast; omega)
  rw [List.append_nil] at this
  rw [this]; rfl

/-- Derivatives of order above two at a closed boundary raise an error; without closures the
interior formula is used everywhere. -/
theorem C23_unsupported_order (hd : ¬ (d = 1 ∨ d = 2)) (k : Kind)
    (hk : m.left = some k ∨ m.right = some k) : rowAt m order d lo hi x = none := by
  have hnone : ∀ k side, rows k side d = none := fun k side =>
    Option.not_isSome_iff_eq_none.1 fun h => hd ((rows_isSome k side d).1 h)
  have : branches m d lo hi = none := by
    rcases m with ⟨_ | kl, _ | kr⟩ <;> simp [branches, hnone] at hk ⊢
  rw [rowAt, this]; rfl

theorem C23_no_closure : rowAt ⟨none, none⟩ order d lo hi x = some (centralRow order d) := by
  simp [rowAt, branches, piecewise]

theorem mem_centralRow (p : ℤ × ℝ) (hp : p ∈ centralRow order d) :
    -((order/2:ℕ):ℤ) ≤ p.1 ∧ p.1 ≤ (order/2:ℕ) := by
  simp only [centralRow, List.mem_map, List.mem_range] at hp
  obtain ⟨k, hk, rfl⟩ := hp
  constructor <;> simp only <;> omega

/-- Offsets of the closure rows: row `j` on side 0 reads from the wall at most five points inward. -/
theorem rows_offsets (k : Kind) (side : Bool) (ds : List Row) (h : rows k side d = some ds)
    (j : ℕ) (hj : j < ds.length) (p : ℤ × ℝ) (hp : p ∈ ds[j]) :
    if side then -5 ≤ p.1 - j ∧ p.1 - j ≤ 0 else 0 ≤ p.1 + j ∧ p.1 + j ≤ 5 := by
  have hd := (rows_isSome k side d).1 (by rw [h]; rfl)
  have hlen := rows_length k side d ds h
  cases k with
  | carpenter =>
    rcases hd with rfl | rfl
    · simp only [rows, carpenter, Option.some.injEq] at h
      subst h
      simp only [List.getElem_map, List.getElem_finRange, List.mem_map, List.mem_finRange,
        true_and, Fin.cast_mk] at hp
      obtain ⟨i, rfl⟩ := hp
      cases side <;> simp [offset] <;> omega
    · simp only [rows, carpenter, Option.some.injEq] at h
      subst h
      simp only [List.getElem_map, List.getElem_finRange, List.mem_map, List.mem_finRange,
        true_and, Fin.cast_mk] at hp
      obtain ⟨i, rfl⟩ := hp
      cases side <;> simp [offset]
  | reducedAccess =>
    rcases hd with rfl | rfl
    · simp only [rows, reducedAccess, Option.some.injEq] at h
      subst h
      simp only [List.getElem_map, List.getElem_finRange, List.mem_map, List.mem_finRange,
        true_and, Fin.cast_mk] at hp
      obtain ⟨i, rfl⟩ := hp
      cases side <;> simp [offset]
    · simp only [rows, reducedAccess, Option.some.injEq] at h
      subst h
      simp only [List.getElem_map, List.getElem_finRange, List.mem_map, List.mem_finRange,
        true_and, Fin.cast_mk] at hp
      obtain ⟨i, rfl⟩ := hp
      cases side <;> simp [offset]
  | reducedOrder =>
    have hj2 : j < 2 := by rw [hlen] at hj; simpa [closurePoints] using hj
    rcases hd with rfl | rfl
    · simp only [rows, reducedOrder, Option.some.injEq] at h
      subst h
      interval_cases j <;> cases side <;> simp [roRow, fact] at hp
      · rcases hp with h | h | h <;> subst h <;> simp
      · rcases hp with h | h | h <;> subst h <;> simp
      · rcases hp with h | h | h | h <;> subst h <;> simp
      · rcases hp with h | h | h | h <;> subst h <;> simp
    · simp only [rows, reducedOrder, Option.some.injEq] at h
      subst h
      interval_cases j <;> cases side <;> simp [roRow, fact] at hp
      · rcases hp with h | h | h | h <;> subst h <;> simp
      · rcases hp with h | h | h | h <;> subst h <;> simp
      · rcases hp with h | h | h | h | h <;> subst h <;> simp
      · rcases hp with h | h | h | h | h <;> subst h <;> simp

/-- **C23.** With closures on both sides, and interior stencils not wider than the number of closed
points, every formula only reads points of the domain (on any grid of at least six points). -/
theorem C23_in_domain_partial (hd : d = 1 ∨ d = 2) (kl kr : Kind) (hsize : lo + 6 ≤ hi)
    (hl : order/2 ≤ closurePoints kl d) (hr : order/2 ≤ closurePoints kr d)
    (hlo : lo ≤ x) (hhi : x < hi) :
    ∃ r, rowAt ⟨some kl, some kr⟩ order d lo hi x = some r ∧ ∀ p ∈ r, lo ≤ x + p.1 ∧ x + p.1 < hi := by
  by_cases h1 : x < lo + closurePoints kl d
  · obtain ⟨l, hrow, hj, hat⟩ := C23_left_points ⟨some kl, some kr⟩ order d lo hi x hd kl rfl
      (x - lo).toNat (by omega) (by omega)
    refine ⟨_, hat, fun p hp => ?_⟩
    have := rows_offsets d kl false l hrow _ hj p hp
    simp only [Bool.false_eq_true, if_false] at this
    omega
  by_cases h2 : hi - closurePoints kr d ≤ x
  · obtain ⟨l, hrow, hj, hat⟩ := C23_right_points ⟨some kl, some kr⟩ order d lo hi x hd kr rfl
      (hi - 1 - x).toNat (by omega) (by omega) (by simp [leftPoints]; omega)
    refine ⟨_, hat, fun p hp => ?_⟩
    have := rows_offsets d kr true l hrow _ hj p hp
    simp only [if_true] at this
    omega
  · refine ⟨_, C23_interior_points ⟨some kl, some kr⟩ order d lo hi x hd
      (by simp [leftPoints]; omega) (by simp [rightPoints]; omega), fun p hp => ?_⟩
    have := mem_centralRow order d p hp
    omega

/-- **C23, negation for wide interior stencils.** If the interior stencil is wider than the closure,
e.g. a sixth order scheme with any second derivative closure, the first interior point reads a point
outside the domain. -/
theorem C23_wide_interior_leaks (hd : d = 1 ∨ d = 2) (kl kr : Kind)
    (hw : closurePoints kl d < order/2)
    (hsize : lo + closurePoints kl d < hi - closurePoints kr d) :
    ∃ r, rowAt ⟨some kl, some kr⟩ order d lo hi (lo + closurePoints kl d) = some r ∧
      ∃ p ∈ r, lo + closurePoints kl d + p.1 < lo := by
  refine ⟨_, C23_interior_points ⟨some kl, some kr⟩ order d lo hi _ hd
      (by simp [leftPoints]) (by simpa [rightPoints] using hsize), ?_⟩
  refine ⟨(((0:ℕ):ℤ) - (order/2:ℕ), Central.weight ℝ order d (((0:ℕ):ℤ) - (order/2:ℕ))), ?_, ?_⟩
  · exact List.mem_map.2 ⟨0, List.mem_range.2 (by omega), rfl⟩
  · simp; omega

/-- Fourth order interior with Carpenter walls on 20 points: hypotheses of `C23_in_domain_partial` hold; the
wall point uses row 0, the fifth point the interior formula. -/
example : ∃ r, rowAt ⟨some .carpenter, some .carpenter⟩ 4 1 0 20 3 = some r ∧
    ∀ p ∈ r, 0 ≤ 3 + p.1 ∧ 3 + p.1 < 20 :=
  C23_in_domain_partial 4 1 0 20 3 (Or.inl rfl) .carpenter .carpenter (by norm_num) (by decide) (by decide)
    (by norm_num) (by norm_num)
example : ∃ r, rowAt ⟨some .carpenter, some .carpenter⟩ 6 2 0 20 (0 + 2) = some r ∧
    ∃ p ∈ r, 0 + 2 + p.1 < 0 :=
  C23_wide_interior_leaks 6 2 0 20 (Or.inr rfl) .carpenter .carpenter (by decide) (by decide)

/-! ## C21, C22: exactness of the boundary rows -/

/-- Polynomial degree up to which boundary row `j` is exact. -/
def designDegree : Kind → ℕ → ℕ → ℕ
  | .carpenter, 1, _ => 3
  | .carpenter, _, _ => 4
  | .reducedAccess, _, _ => 4
  | .reducedOrder, 1, 0 => 2
  | .reducedOrder, 1, _ => 3
  | .reducedOrder, _, 0 => 3
  | .reducedOrder, _, _ => 4

theorem sum_map_finRange {n : ℕ} (g : Fin n → ℝ) : ((List.finRange n).map g).sum = ∑ i, g i := by
  rw [← List.ofFn_eq_map, List.sum_ofFn]

theorem rows_moments (k : Kind) (side : Bool) (ds : List Row) (h : rows k side d = some ds)
    (hbug : ¬ (k = .reducedOrder ∧ d = 2 ∧ side = true)) (j : ℕ) (hj : j < ds.length)
    (n : ℕ) (hn : n ≤ designDegree k d j) :
    (ds[j].map fun p => p.2 * (p.1:ℝ)^n).sum = if n = d then (d.factorial : ℝ) else 0 := by
  have hd := (rows_isSome k side d).1 (by rw [h]; rfl)
  have hlen := rows_length k side d ds h
  have second : ∀ (i : Fin 2) (n : ℕ), n ≤ 4 →
      ∑ k : Fin 5, bc4_2 i k * (((offset side k i : ℤ)):ℝ)^n = if n = 2 then 2 else 0 := by
    intro i n hn
    rw [Fin.sum_univ_five]
    cases side <;> fin_cases i <;> interval_cases n <;> simp [bc4_2, offset] <;> norm_num
  cases k with
  | carpenter =>
    rcases hd with rfl | rfl
    · simp only [rows, carpenter, Option.some.injEq] at h
      subst h
      simp only [List.getElem_map, List.getElem_finRange, List.map_map, Function.comp_def,
        sum_map_finRange, Fin.cast_mk]
      simp only [designDegree] at hn
      have hj4 : j < 4 := by simpa using hj
      have hm := bc4_moments ⟨j, hj4⟩ n hn
      cases side
      · simp only [offset, Bool.false_eq_true, if_false, one_mul]
        push_cast
        rw [hm]; simp
      · simp only [offset, if_true]
        have e : ∀ k : Fin 6, -1 * bc4 ⟨j, hj4⟩ k * (((j:ℤ) - ((k:ℕ):ℤ) : ℤ):ℝ)^n =
            (-1)^(n+1) * (bc4 ⟨j, hj4⟩ k * (((k:ℕ):ℝ) - (j:ℝ))^n) := by
          intro k
          have : (((j:ℤ) - ((k:ℕ):ℤ) : ℤ):ℝ) = (-1) * (((k:ℕ):ℝ) - (j:ℝ)) := by push_cast; ring
          rw [this, mul_pow]; ring
        simp only [e, ← Finset.mul_sum]
        rw [hm]
        by_cases h1 : n = 1 <;> simp [h1]
    · simp only [rows, carpenter, Option.some.injEq] at h
      subst h
      simp only [List.getElem_map, List.getElem_finRange, List.map_map, Function.comp_def,
        sum_map_finRange, Fin.cast_mk]
      exact second ⟨j, by simpa using hj⟩ n (by simpa [designDegree] using hn)
  | reducedAccess =>
    have hj2 : j < 2 := by rw [hlen] at hj; simpa [closurePoints] using hj
    rcases hd with rfl | rfl
    · simp only [rows, reducedAccess, Option.some.injEq] at h
      subst h
      simp only [List.getElem_map, List.getElem_finRange, List.map_map, Function.comp_def,
        sum_map_finRange, Fin.cast_mk]
      simp only [designDegree] at hn
      rw [Fin.sum_univ_five]
      cases side <;> interval_cases j <;> interval_cases n <;>
        simp [raFirst, offset] <;> norm_num
    · simp only [rows, reducedAccess, Option.some.injEq] at h
      subst h
      simp only [List.getElem_map, List.getElem_finRange, List.map_map, Function.comp_def,
        sum_map_finRange, Fin.cast_mk]
      exact second ⟨j, by simpa using hj⟩ n (by simpa [designDegree] using hn)
  | reducedOrder =>
    have hj2 : j < 2 := by rw [hlen] at hj; simpa [closurePoints] using hj
    rcases hd with rfl | rfl
    · simp only [rows, reducedOrder, Option.some.injEq] at h
      subst h
      interval_cases j <;> cases side <;> simp only [designDegree] at hn <;>
        interval_cases n <;> norm_num [roRow, fact]
    · simp only [rows, reducedOrder, Option.some.injEq] at h
      subst h
      have hs : side = false := by simpa using hbug
      subst hs
      interval_cases j <;> simp only [designDegree] at hn <;>
        interval_cases n <;> norm_num [roRow, fact]

/-- **C22 (and the exactness part of C21).** At each boundary point of either side, the discretised
derivative of a polynomial of the design degree is the exact derivative, for every grid spacing, grid
origin and interior order.  Missing for the full claim: the second derivative of the reduced order
closure at the right end, for which it is false (`C22_reduced_order_right_second_wrong`). -/
theorem C22_exact_partial (hd : d = 1 ∨ d = 2) (side : Bool) (k : Kind)
    (hbug : ¬ (k = .reducedOrder ∧ d = 2 ∧ side = true))
    (hk : (if side then m.right else m.left) = some k) (j : ℕ) (hj : j < closurePoints k d)
    (hx : x = if side then hi - 1 - j else lo + j)
    (hleft : side = true → lo + leftPoints m d ≤ x)
    (p : ℝ[X]) (hp : p.natDegree ≤ designDegree k d j) (x₀ h : ℝ) (hh : h ≠ 0) :
    discretised m order d lo hi h (fun i => p.eval (x₀ + i*h)) x =
      some (((Polynomial.derivative)^[d] p).eval (x₀ + x*h)) := by
  obtain ⟨ds, hrow, hlt, hat⟩ : ∃ ds, rows k side d = some ds ∧ ∃ h : j < ds.length,
      rowAt m order d lo hi x = some ds[j] := by
    cases side
    · exact C23_left_points m order d lo hi x hd k (by simpa using hk) j hj (by simpa using hx)
    · exact C23_right_points m order d lo hi x hd k (by simpa using hk) j hj (by simpa using hx)
        (hleft rfl)
  rw [discretised, hat, Option.map_some]
  congr 1
  have hdd : d ≤ designDegree k d j := by
    rcases hd with rfl | rfl <;> cases k <;> rcases j with _ | j <;> simp [designDegree]
  exact row_exact ds[j] (designDegree k d j) d hdd
    (fun n hn => rows_moments d k side ds hrow hbug j hlt n hn) p hp x₀ h hh x

/-- **C22, negation for the remaining case.** The reduced order closure returns the negative of the
second derivative at the right end: for `f = x^2` on a unit grid it returns `-2`. -/
theorem C22_reduced_order_right_second_wrong (l : Option Kind) (order : ℕ) (N : ℕ)
    (hN : leftPoints ⟨l, some .reducedOrder⟩ 2 + 2 ≤ N) :
    discretised ⟨l, some .reducedOrder⟩ order 2 0 N 1 (fun i => (i:ℝ)^2) (N-1) = some (-2) := by
  obtain ⟨r, hrow, hlt, hat⟩ := C23_right_points ⟨l, some .reducedOrder⟩ order 2 0 N (N-1)
    (Or.inr rfl) .reducedOrder rfl 0 (by decide) (by simp) (by omega)
  simp only [rows, reducedOrder, Option.some.injEq] at hrow
  subst hrow
  rw [discretised, hat, Option.map_some]
  congr 1
  simp [Row.eval, roRow, fact]
  ring

/-- **C21/C22.** The right rows are the mirror image of the left rows: offsets negated, weights
multiplied by `(-1)^d` (the same exception). -/
theorem C22_mirror (k : Kind) (hbug : ¬ (k = .reducedOrder ∧ d = 2)) :
    rows k true d = (rows k false d).map fun ds => ds.map fun r =>
      r.map fun p => (-p.1, (-1)^d * p.2) := by
  rcases d with _ | _ | _ | d
  · cases k <;> rfl
  · cases k
    · simp [rows, carpenter, offset, Function.comp_def]
    · simp only [rows, reducedAccess, Option.map_some, List.map_map, Function.comp_def, offset]
      simp [List.finRange_succ, raFirst]; norm_num
    · simp [rows, reducedOrder, roRow, fact]
  · cases k
    · simp [rows, carpenter, offset, Function.comp_def]
    · simp [rows, reducedAccess, offset, Function.comp_def]
    · exact absurd ⟨rfl, rfl⟩ hbug
  · cases k <;> rfl

/-- Evaluating the interior row is the central difference of C18. -/
theorem centralRow_eval (f : ℤ → ℝ) (h : ℝ) :
    (centralRow order d).eval f x * (1/h^d) = Central.discretise order d h f x := by
  unfold Row.eval centralRow Central.discretise
  congr 1
  rw [List.map_map]
  have : ∀ (n : ℕ) (g : ℕ → ℝ), ((List.range n).map g).sum = ∑ i ∈ Finset.range n, g i := by
    intro n g
    induction n with
    | zero => rfl
    | succ n ih => rw [List.range_succ, List.map_append, List.sum_append, ih, Finset.sum_range_succ]; simp
  rw [this]
  refine Finset.sum_nbij' (fun k : ℕ => (k:ℤ) - (order/2:ℕ)) (fun p => (p + (order/2:ℕ)).toNat)
    ?_ ?_ ?_ ?_ ?_
  · intro k hk; rw [Central.mem_points]; have := Finset.mem_range.1 hk; omega
  · intro p hp; rw [Central.mem_points] at hp; exact Finset.mem_range.2 (by omega)
  · intro k _; simp
  · intro p hp; rw [Central.mem_points] at hp; omega
  · intro k _; rfl

/-- **C21.** With Carpenter closures and an interior scheme of order at least four, the first
derivative is exact on cubic polynomials at *every* grid point of the domain. -/
theorem C21_exact_everywhere (q : ℕ) (hq : 2 ≤ q) (lo hi x : ℤ) (hlo : lo ≤ x) (hhi : x < hi)
    (p : ℝ[X]) (hp : p.natDegree ≤ 3) (x₀ h : ℝ) (hh : h ≠ 0) :
    discretised ⟨some .carpenter, some .carpenter⟩ (2*q) 1 lo hi h (fun i => p.eval (x₀ + i*h)) x =
      some ((Polynomial.derivative p).eval (x₀ + x*h)) := by
  by_cases h1 : x < lo + 4
  · exact C22_exact_partial ⟨some .carpenter, some .carpenter⟩ (2*q) 1 lo hi x (Or.inl rfl) false
      .carpenter (by simp) rfl (x - lo).toNat (by simp [closurePoints]; omega) (by simp; omega)
      (by simp) p hp x₀ h hh
  by_cases h2 : hi - 4 ≤ x
  · exact C22_exact_partial ⟨some .carpenter, some .carpenter⟩ (2*q) 1 lo hi x (Or.inl rfl) true
      .carpenter (by simp) rfl (hi - 1 - x).toNat (by simp [closurePoints]; omega) (by simp; omega)
      (by simp [leftPoints, closurePoints]; omega) p hp x₀ h hh
  · rw [discretised, C23_interior_points _ _ _ _ _ _ (Or.inl rfl)
      (by simp [leftPoints, closurePoints]; omega) (by simp [rightPoints, closurePoints]; omega),
      Option.map_some, centralRow_eval]
    congr 1
    exact Central.C18_exact q 1 p (by omega) x₀ h hh x

/-- A cubic at the wall of a 20 point grid. -/
example : discretised ⟨some .carpenter, some .carpenter⟩ 4 1 0 20 (1/10)
    (fun i => ((X:ℝ[X])^3).eval (0 + i*(1/10))) 0 = some 0 := by
  have := C21_exact_everywhere 2 le_rfl 0 20 0 le_rfl (by norm_num) (X^3) (by simp) 0 (1/10)
    (by norm_num)
  simpa using this

/-! ## C21: summation by parts -/

/-- Derivative with Carpenter closures at both ends of `N` points and the fourth order interior. -/
noncomputable def carpD (N : ℕ) (h : ℝ) (f : ℤ → ℝ) (x : ℤ) : ℝ :=
  (discretised ⟨some .carpenter, some .carpenter⟩ 4 1 0 N h f x).getD 0

/-- The norm: `h` times the block `al4` at the two ends and the identity in between. -/
noncomputable def sbpNorm (N : ℕ) (h : ℝ) (f g : ℤ → ℝ) : ℝ :=
  h * ((∑ i : Fin 4, ∑ j : Fin 4, al4 i j * (f (i:ℕ) * g (j:ℕ)))
    + (∑ x ∈ Finset.Ico (4:ℤ) (N - 4), f x * g x)
    + ∑ i : Fin 4, ∑ j : Fin 4, al4 i j * (f (N - 1 - (i:ℕ)) * g (N - 1 - (j:ℕ))))

theorem sbpNorm_symm (N : ℕ) (h : ℝ) (f g : ℤ → ℝ) : sbpNorm N h f g = sbpNorm N h g f := by
  unfold sbpNorm
  have e : ∀ u v : Fin 4 → ℝ, ∑ i, ∑ j, al4 i j * (u i * v j) = ∑ i, ∑ j, al4 i j * (v i * u j) := by
    intro u v
    rw [Finset.sum_comm]
    exact Finset.sum_congr rfl fun i _ => Finset.sum_congr rfl fun j _ => by rw [al4_symm j i]; ring
  rw [e (fun i => f (i:ℕ)) (fun i => g (i:ℕ)), e (fun i => f (N - 1 - (i:ℕ)))]
  congr 2
  congr 1
  exact Finset.sum_congr rfl fun x _ => mul_comm _ _

theorem al4_pos (u : Fin 4 → ℝ) : 0 ≤ ∑ i, ∑ j, al4 i j * (u i * u j) ∧
    (∑ i, ∑ j, al4 i j * (u i * u j) = 0 → u = 0) := by
  obtain ⟨⟨a0, a1, a2, a3⟩, ⟨b1, b2, b3⟩, b4, b5, b6⟩ := al4_bounds
  have key : 1/100 * (u 0^2 + u 1^2 + u 2^2 + u 3^2) ≤ ∑ i, ∑ j, al4 i j * (u i * u j) := by
    simp only [Fin.sum_univ_four]
    rw [al4_symm 1 0, al4_symm 2 0, al4_symm 3 0, al4_symm 2 1, al4_symm 3 1, al4_symm 3 2]
    have pair : ∀ (a b x y : ℝ), |a| < b → -(b * (x^2 + y^2)) ≤ 2 * (a * (x * y)) := by
      intro a b x y hab
      obtain ⟨h1, h2⟩ := abs_lt.1 hab
      nlinarith [mul_nonneg (by linarith : 0 ≤ b - a) (sq_nonneg (x - y)),
        mul_nonneg (by linarith : 0 ≤ b + a) (sq_nonneg (x + y))]
    have p1 := pair _ _ (u 0) (u 1) b1
    have p2 := pair _ _ (u 0) (u 2) b2
    have p3 := pair _ _ (u 0) (u 3) b3
    have p4 := pair _ _ (u 1) (u 2) b4
    have p5 := pair _ _ (u 1) (u 3) b5
    have p6 := pair _ _ (u 2) (u 3) b6
    have q0 := mul_nonneg (sub_pos.2 a0).le (sq_nonneg (u 0))
    have q1 := mul_nonneg (sub_pos.2 a1).le (sq_nonneg (u 1))
    have q2 := mul_nonneg (sub_pos.2 a2).le (sq_nonneg (u 2))
    have q3 := mul_nonneg (sub_pos.2 a3).le (sq_nonneg (u 3))
    nlinarith [sq_nonneg (u 0), sq_nonneg (u 1), sq_nonneg (u 2), sq_nonneg (u 3)]
  have h0 := sq_nonneg (u 0)
  have h1 := sq_nonneg (u 1)
  have h2 := sq_nonneg (u 2)
  have h3 := sq_nonneg (u 3)
  refine ⟨by linarith, fun hz => ?_⟩
  rw [hz] at key
  funext i
  fin_cases i
  · have : u 0 ^ 2 = 0 := le_antisymm (by linarith) h0
    exact (pow_eq_zero_iff two_ne_zero).1 this
  · have : u 1 ^ 2 = 0 := le_antisymm (by linarith) h1
    exact (pow_eq_zero_iff two_ne_zero).1 this
  · have : u 2 ^ 2 = 0 := le_antisymm (by linarith) h2
    exact (pow_eq_zero_iff two_ne_zero).1 this
  · have : u 3 ^ 2 = 0 := le_antisymm (by linarith) h3
    exact (pow_eq_zero_iff two_ne_zero).1 this

/-- **C21.** The norm is positive definite on grid functions. -/
theorem C21_norm_positive (N : ℕ) (h : ℝ) (hh : 0 < h) (f : ℤ → ℝ) :
    0 ≤ sbpNorm N h f f ∧ (sbpNorm N h f f = 0 → ∀ x : ℤ, 0 ≤ x → x < N → f x = 0) := by
  obtain ⟨l0, l1⟩ := al4_pos fun i => f (i:ℕ)
  obtain ⟨r0, r1⟩ := al4_pos fun i => f (N - 1 - (i:ℕ))
  have m0 : 0 ≤ ∑ x ∈ Finset.Ico (4:ℤ) (N - 4), f x * f x :=
    Finset.sum_nonneg fun x _ => mul_self_nonneg _
  refine ⟨mul_nonneg hh.le (by linarith), fun hz x hx0 hxN => ?_⟩
  have hsum := (mul_eq_zero.1 hz).resolve_left hh.ne'
  by_cases c1 : x < 4
  · have := congrFun (l1 (by linarith)) ⟨x.toNat, by omega⟩
    simpa [Int.toNat_of_nonneg hx0] using this
  by_cases c2 : (N:ℤ) - 4 ≤ x
  · have := congrFun (r1 (by linarith)) ⟨(N - 1 - x).toNat, by omega⟩
    simp only [Pi.zero_apply] at this
    rwa [Int.toNat_of_nonneg (by omega), sub_sub_cancel] at this
  · have hm : ∑ x ∈ Finset.Ico (4:ℤ) (N - 4), f x * f x = 0 := by linarith
    have := (Finset.sum_eq_zero_iff_of_nonneg fun x _ => mul_self_nonneg _).1 hm x
      (Finset.mem_Ico.2 ⟨by omega, by omega⟩)
    exact mul_self_eq_zero.1 this

theorem carpD_left (N : ℕ) (h : ℝ) (f : ℤ → ℝ) (i : Fin 4) :
    carpD N h f (i:ℕ) = (∑ k : Fin 6, bc4 i k * f (k:ℕ)) * (1/h) := by
  obtain ⟨l, hrow, hlt, hat⟩ := C23_left_points ⟨some .carpenter, some .carpenter⟩ 4 1 0 N (i:ℕ)
    (Or.inl rfl) .carpenter rfl i (by simp [closurePoints]) (by simp)
  simp only [rows, carpenter, Option.some.injEq] at hrow
  subst hrow
  rw [carpD, discretised, hat]
  simp only [Option.map_some, Option.getD_some, Row.eval, List.getElem_map, List.getElem_finRange,
    List.map_map, Function.comp_def, sum_map_finRange, offset, Bool.false_eq_true, if_false, one_mul,
    pow_one, Fin.cast_mk, add_sub_cancel]

theorem carpD_right (N : ℕ) (hN : 8 ≤ N) (h : ℝ) (f : ℤ → ℝ) (i : Fin 4) :
    carpD N h f (N - 1 - (i:ℕ)) = -(∑ k : Fin 6, bc4 i k * f (N - 1 - (k:ℕ))) * (1/h) := by
  obtain ⟨l, hrow, hlt, hat⟩ := C23_right_points ⟨some .carpenter, some .carpenter⟩ 4 1 0 N
    (N - 1 - (i:ℕ)) (Or.inl rfl) .carpenter rfl i (by simp [closurePoints]) rfl
    (by simp [leftPoints, closurePoints]; omega)
  simp only [rows, carpenter, Option.some.injEq] at hrow
  subst hrow
  rw [carpD, discretised, hat]
  simp only [Option.map_some, Option.getD_some, Row.eval, List.getElem_map, List.getElem_finRange,
    List.map_map, Function.comp_def, sum_map_finRange, offset, if_true,
    pow_one, Fin.cast_mk, sub_add_sub_cancel, neg_mul, one_mul, Finset.sum_neg_distrib]

theorem carpD_interior (N : ℕ) (h : ℝ) (f : ℤ → ℝ) (x : ℤ) (h4 : 4 ≤ x) (hN : x < N - 4) :
    carpD N h f x = (f (x-2) - 8*f (x-1) + 8*f (x+1) - f (x+2))/12 * (1/h) := by
  rw [carpD, discretised, C23_interior_points _ _ _ _ _ _ (Or.inl rfl)
    (by simp [leftPoints, closurePoints]; omega) (by simp [rightPoints, closurePoints]; omega)]
  simp only [Option.map_some, Option.getD_some]
  rw [centralRow_eval, Central.discretise]
  obtain ⟨w1, w2, w0, wm1, wm2⟩ := Central.C18_fourth_order_weights (K := ℝ)
  have hpts : Central.points 4 = {-2, -1, 0, 1, 2} := by decide
  rw [hpts]
  simp [w1, w2, w0, wm1, wm2]
  left
  rw [← sub_eq_add_neg, ← sub_eq_add_neg]
  ring

/-- Telescoping of the interior terms of the summation by parts identity. -/
noncomputable def interiorFlux (f g : ℤ → ℝ) (x : ℤ) : ℝ :=
  (8*(f (x-1) * g x + f x * g (x-1)) - (f (x-2) * g x + f x * g (x-2))
    - (f (x-1) * g (x+1) + f (x+1) * g (x-1)))/12

theorem interior_telescopes (f g : ℤ → ℝ) (a : ℤ) (n : ℕ) :
    ∑ x ∈ Finset.Ico a (a + n),
      (f x * ((g (x-2) - 8*g (x-1) + 8*g (x+1) - g (x+2))/12)
        + (f (x-2) - 8*f (x-1) + 8*f (x+1) - f (x+2))/12 * g x) =
      interiorFlux f g (a + n) - interiorFlux f g a := by
  induction n with
  | zero => simp
  | succ n ih =>
    have : Finset.Ico a (a + (n+1:ℕ)) = insert (a + n) (Finset.Ico a (a + n)) := by
      ext y; simp only [Finset.mem_Ico, Finset.mem_insert]; omega
    rw [this, Finset.sum_insert (by simp), ih]
    unfold interiorFlux
    push_cast
    have e1 : a + ((n:ℤ) + 1) - 1 = a + n := by ring
    have e2 : a + ((n:ℤ) + 1) - 2 = a + n - 1 := by ring
    have e3 : a + ((n:ℤ) + 1) + 1 = a + n + 2 := by ring
    have e4 : a + ((n:ℤ) + 1) = a + n + 1 := by ring
    rw [e1, e2, e3, e4]
    ring

/-- The boundary block: `al4` against the boundary rows gives `ar4`. -/
theorem block_sum (u v : Fin 4 → ℝ) (w : Fin 6 → ℝ) (hv : ∀ j, v j = ∑ k, bc4 j k * w k) :
    ∑ i, ∑ j, al4 i j * (u i * v j) = ∑ i, u i * ∑ k, ar4 i k * w k := by
  refine Finset.sum_congr rfl fun i _ => ?_
  rw [← al4_mul_bc4]
  simp only [hv, Matrix.mul_apply, Finset.sum_mul, Finset.mul_sum]
  rw [Finset.sum_comm]
  exact Finset.sum_congr rfl fun j _ => Finset.sum_congr rfl fun k _ => by ring

/-- Symmetric part of `ar4`: only the corner entry and the coupling to the interior survive. -/
theorem ar4_symmetric_part (u w : Fin 6 → ℝ) :
    (∑ i : Fin 4, u (i.castLE (by norm_num)) * ∑ k, ar4 i k * w k)
      + ∑ i : Fin 4, w (i.castLE (by norm_num)) * ∑ k, ar4 i k * u k =
    -(u 0 * w 0) + (8*(u 3 * w 4 + u 4 * w 3) - (u 2 * w 4 + u 4 * w 2)
      - (u 3 * w 5 + u 5 * w 3))/12 := by
  simp only [Fin.sum_univ_four, Fin.sum_univ_six]
  simp [ar4, Fin.castLE]
  ring

/-- **C21.** Summation by parts: on every grid of at least eight points, for all grid functions,
`<f, Dg> + <Df, g> = f_{N-1} g_{N-1} - f_0 g_0` in the positive definite norm. -/
theorem C21_summation_by_parts (N : ℕ) (hN : 8 ≤ N) (h : ℝ) (hh : h ≠ 0) (f g : ℤ → ℝ) :
    sbpNorm N h f (carpD N h g) + sbpNorm N h (carpD N h f) g =
      f (N-1) * g (N-1) - f 0 * g 0 := by
  rw [sbpNorm_symm N h (carpD N h f) g]
  -- left blocks
  have left : ∀ f g : ℤ → ℝ, ∑ i : Fin 4, ∑ j : Fin 4, al4 i j * (f (i:ℕ) * carpD N h g (j:ℕ)) =
      (∑ i : Fin 4, f (i:ℕ) * ∑ k : Fin 6, ar4 i k * g (k:ℕ)) * (1/h) := by
    intro f g
    rw [block_sum (fun i => f (i:ℕ)) (fun j => carpD N h g (j:ℕ)) (fun k => g (k:ℕ) * (1/h))
      (fun j => by rw [carpD_left, Finset.sum_mul]; simp only [mul_assoc])]
    simp only [Finset.sum_mul, Finset.mul_sum, mul_assoc]
  have right : ∀ f g : ℤ → ℝ, ∑ i : Fin 4, ∑ j : Fin 4,
      al4 i j * (f (N - 1 - (i:ℕ)) * carpD N h g (N - 1 - (j:ℕ))) =
      -(∑ i : Fin 4, f (N - 1 - (i:ℕ)) * ∑ k : Fin 6, ar4 i k * g (N - 1 - (k:ℕ))) * (1/h) := by
    intro f g
    rw [block_sum (fun i => f (N - 1 - (i:ℕ))) (fun j => carpD N h g (N - 1 - (j:ℕ)))
      (fun k => -(g (N - 1 - (k:ℕ)) * (1/h)))
      (fun j => by
        rw [carpD_right N hN, ← Finset.sum_neg_distrib, Finset.sum_mul]
        exact Finset.sum_congr rfl fun k _ => by ring)]
    simp only [Finset.sum_mul, Finset.mul_sum, mul_assoc, mul_neg, Finset.sum_neg_distrib, neg_mul]
  have mid : ∀ f g : ℤ → ℝ, ∑ x ∈ Finset.Ico (4:ℤ) (N - 4), f x * carpD N h g x =
      (∑ x ∈ Finset.Ico (4:ℤ) (N - 4),
        f x * ((g (x-2) - 8*g (x-1) + 8*g (x+1) - g (x+2))/12)) * (1/h) := by
    intro f g
    rw [Finset.sum_mul]
    refine Finset.sum_congr rfl fun x hx => ?_
    rw [Finset.mem_Ico] at hx
    rw [carpD_interior N h g x hx.1 hx.2]; ring
  obtain ⟨n, rfl⟩ : ∃ n, N = n + 8 := ⟨N - 8, by omega⟩
  have tel := interior_telescopes f g 4 n
  have hI : (((n + 8 : ℕ):ℤ) - 4) = 4 + (n:ℤ) := by push_cast; ring
  have symL := ar4_symmetric_part (fun k => f (k:ℕ)) (fun k => g (k:ℕ))
  have symR := ar4_symmetric_part (fun k => f (((n + 8 : ℕ):ℤ) - 1 - (k:ℕ)))
    (fun k => g (((n + 8 : ℕ):ℤ) - 1 - (k:ℕ)))
  unfold sbpNorm
  rw [left, left, right, right, mid, mid]
  rw [hI]
  rw [Finset.sum_add_distrib] at tel
  simp only [Fin.val_castLE] at symL symR
  have tel2 : ∑ x ∈ Finset.Ico (4:ℤ) (4 + n), (f (x-2) - 8*f (x-1) + 8*f (x+1) - f (x+2))/12 * g x =
      ∑ x ∈ Finset.Ico (4:ℤ) (4 + n), g x * ((f (x-2) - 8*f (x-1) + 8*f (x+1) - f (x+2))/12) :=
    Finset.sum_congr rfl fun x _ => mul_comm _ _
  rw [tel2] at tel
  simp only [interiorFlux] at tel
  simp at symL symR
  have z1 : (n:ℤ) + 8 - 1 - 5 = 4 + n - 2 := by ring
  have z2 : (n:ℤ) + 8 - 1 - 4 = 4 + n - 1 := by ring
  have z3 : (n:ℤ) + 8 - 1 - 3 = 4 + n := by ring
  have z4 : (n:ℤ) + 8 - 1 - 2 = 4 + n + 1 := by ring
  rw [z1, z2, z3, z4] at symR
  norm_num at tel
  push_cast
  have cancel : ∀ a b c a' b' c' : ℝ, h*(a*(1/h) + b*(1/h) + -c*(1/h)) +
      h*(a'*(1/h) + b'*(1/h) + -c'*(1/h)) = a + b - c + (a' + b' - c') := by
    intros; field_simp; ring
  rw [cancel]
  linarith

/-- **C21.** Consequence: the discrete energy rate of `u_t = -a u_x` only has the two boundary
terms, with the wall value fixed there is no growth. -/
theorem C21_energy_rate (N : ℕ) (hN : 8 ≤ N) (h a : ℝ) (hh : h ≠ 0) (u : ℤ → ℝ) :
    2 * (-a * sbpNorm N h u (carpD N h u)) = a * (u 0 ^ 2 - u (N-1) ^ 2) := by
  have := C21_summation_by_parts N hN h hh u u
  rw [sbpNorm_symm N h (carpD N h u) u] at this
  linear_combination (-a) * this

/-- **C21.** Consequence: the discrete fundamental theorem of calculus, so fluxes differentiated with
the closure are conserved up to the boundary fluxes. -/
theorem C21_conservation (N : ℕ) (hN : 8 ≤ N) (h : ℝ) (hh : h ≠ 0) (g : ℤ → ℝ) :
    sbpNorm N h (fun _ => 1) (carpD N h g) = g (N-1) - g 0 := by
  have hz : ∀ x : ℤ, 0 ≤ x → x < N → carpD N h (fun _ => 1) x = 0 := by
    intro x h0 h1
    have := C21_exact_everywhere 2 le_rfl 0 N x h0 h1 (C 1) (by simp) 0 h hh
    simp only [eval_C, derivative_C, eval_zero] at this
    rw [carpD, this]; rfl
  have := C21_summation_by_parts N hN h hh (fun _ => 1) g
  have z : sbpNorm N h (carpD N h fun _ => 1) g = 0 := by
    unfold sbpNorm
    rw [Finset.sum_eq_zero, Finset.sum_eq_zero, Finset.sum_eq_zero]
    · simp
    · intro i _
      refine Finset.sum_eq_zero fun j _ => ?_
      rw [hz _ (by omega) (by omega)]; ring
    · intro x hx
      rw [Finset.mem_Ico] at hx
      rw [hz x (by omega) (by omega)]; ring
    · intro i _
      refine Finset.sum_eq_zero fun j _ => ?_
      rw [hz _ (by omega) (by omega)]; ring
  rw [z] at this
  linarith

/-- Eight points, spacing `1/7`: `f = x`, `g = 1`: both sides are `1`. -/
example : sbpNorm 8 (1/7) (fun _ => 1) (carpD 8 (1/7) fun i => (i:ℝ)/7) = 1 := by
  rw [C21_conservation 8 le_rfl (1/7) (by norm_num)]
  norm_num

end OpenSBLI.Closure
