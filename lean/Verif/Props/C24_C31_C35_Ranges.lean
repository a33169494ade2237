import Verif.Model.Ranges
import Mathlib.Data.List.Perm.Basic
import Mathlib.Order.Bounds.Basic
import Mathlib.Tactic.Ring
import Mathlib.Tactic.FinCases
import Mathlib.Tactic.NormNum
import Mathlib.Data.Fintype.Basic
import Mathlib.Data.Fin.VecNotation
import Mathlib.Data.Real.Basic

/-!
# C24, C31, C35: periodic exchange, boundary planes, iteration ranges
-/
namespace OpenSBLI.Ranges

variable {n : ℕ}

/-! ## C35 -/

theorem minHalo_isLeast (s : Finset HaloType) (h0 : ∀ t ∈ s, t.1 ≤ 0) :
    IsLeast ({0} ∪ {z | ∃ t ∈ s, z = t.1}) (if s.Nonempty then minHalo s else 0) ∧
    minHalo s = (if s.Nonempty then minHalo s else 0) := by
  constructor
  · constructor
    · by_cases h : s.Nonempty
      · rw [if_pos h]
        right
        obtain ⟨t, ht, e⟩ := Finset.exists_mem_eq_inf' h (Prod.fst : HaloType → ℤ)
        exact ⟨t, ht, by rw [minHalo, dif_pos h, e]⟩
      · rw [if_neg h]; left; rfl
    · rintro z (rfl | ⟨t, ht, rfl⟩)
      · by_cases h : s.Nonempty
        · rw [if_pos h, minHalo, dif_pos h]
          obtain ⟨t, ht, e⟩ := Finset.exists_mem_eq_inf' h (Prod.fst : HaloType → ℤ)
          rw [e]; exact h0 t ht
        · rw [if_neg h]
      · rw [if_pos ⟨t, ht⟩, minHalo, dif_pos ⟨t, ht⟩]
        exact Finset.inf'_le _ ht
  · by_cases h : s.Nonempty
    · rw [if_pos h]
    · rw [if_neg h, minHalo, dif_neg h]

theorem maxHalo_isGreatest (s : Finset HaloType) (h0 : ∀ t ∈ s, 0 ≤ t.2) :
    IsGreatest ({0} ∪ {z | ∃ t ∈ s, z = t.2}) (maxHalo s) := by
  by_cases h : s.Nonempty
  · constructor
    · right
      obtain ⟨t, ht, e⟩ := Finset.exists_mem_eq_sup' h (Prod.snd : HaloType → ℤ)
      exact ⟨t, ht, by rw [maxHalo, dif_pos h, e]⟩
    · rintro z (rfl | ⟨t, ht, rfl⟩)
      · rw [maxHalo, dif_pos h]
        obtain ⟨t, ht, e⟩ := Finset.exists_mem_eq_sup' h (Prod.snd : HaloType → ℤ)
        rw [e]; exact h0 t ht
      · rw [maxHalo, dif_pos h]
        exact Finset.le_sup' (Prod.snd : HaloType → ℤ) ht
  · rw [maxHalo, dif_neg h]
    refine ⟨Or.inl rfl, ?_⟩
    rintro z (rfl | ⟨t, ht, rfl⟩)
    · exact le_rfl
    · exact absurd ⟨t, ht⟩ h

theorem minHalo_isLeast' (s : Finset HaloType) (h0 : ∀ t ∈ s, t.1 ≤ 0) :
    IsLeast ({0} ∪ {z | ∃ t ∈ s, z = t.1}) (minHalo s) := by
  obtain ⟨h, e⟩ := minHalo_isLeast s h0
  rw [e]; exact h

/-- A halo request made on a kernel during discretisation. -/
inductive Request (n : ℕ)
  /-- `set_halo_range(direction, side, types)` -/
  | set (direction : Fin n) (side : Bool) (types : Finset HaloType)
  /-- `merge_halo_range(halo_range)` -/
  | merge (halos : Fin n → HaloSets)

def Request.run (k : Kernel n) : Request n → Kernel n
  | .set d s t => k.setHaloRange d s t
  | .merge h => k.mergeHaloRange h

/-- Type `t` is requested by `r` for direction `d` and side `side`. -/
def Request.asks (r : Request n) (d : Fin n) (side : Bool) (t : HaloType) : Prop :=
  match r with
  | .set d' s' ts => d' = d ∧ s' = side ∧ t ∈ ts
  | .merge h => t ∈ if side then (h d).2 else (h d).1

theorem run_halos (rs : List (Request n)) (k : Kernel n) (d : Fin n) (t : HaloType) :
    ((rs.foldl Request.run k).ranges = k.ranges) ∧
    (t ∈ ((rs.foldl Request.run k).halos d).1 ↔ t ∈ (k.halos d).1 ∨ ∃ r ∈ rs, r.asks d false t) ∧
    (t ∈ ((rs.foldl Request.run k).halos d).2 ↔ t ∈ (k.halos d).2 ∨ ∃ r ∈ rs, r.asks d true t) := by
  induction rs generalizing k with
  | nil => simp
  | cons r rs ih =>
    rw [List.foldl_cons]
    obtain ⟨h0, h1, h2⟩ := ih (Request.run k r)
    have step : (Request.run k r).ranges = k.ranges ∧
        (t ∈ ((Request.run k r).halos d).1 ↔ t ∈ (k.halos d).1 ∨ r.asks d false t) ∧
        (t ∈ ((Request.run k r).halos d).2 ↔ t ∈ (k.halos d).2 ∨ r.asks d true t) := by
      cases r with
      | set d' s' ts =>
        refine ⟨rfl, ?_⟩
        simp only [Request.run, Kernel.setHaloRange, Request.asks]
        by_cases hd : d = d'
        · subst hd
          cases s' <;> simp
        · have hd' : ¬ d' = d := fun h => hd h.symm
          simp [Function.update_of_ne hd, hd']
      | merge h =>
        refine ⟨rfl, ?_⟩
        simp [Request.run, Kernel.mergeHaloRange, Request.asks]
    obtain ⟨s0, s1, s2⟩ := step
    refine ⟨by rw [h0, s0], ?_, ?_⟩
    · rw [h1, s1]; simp only [List.mem_cons, exists_eq_or_imp, or_assoc]
    · rw [h2, s2]; simp only [List.mem_cons, exists_eq_or_imp, or_assoc]

/-- **C35.** After any sequence of halo requests on a kernel over the grid, the iteration range in
every direction is the smallest one that contains the grid and each requested halo. -/
theorem C35_smallest_range (ranges : Fin n → ℤ × ℤ) (rs : List (Request n))
    (hlo : ∀ r ∈ rs, ∀ d t, r.asks d false t → t.1 ≤ 0)
    (hhi : ∀ r ∈ rs, ∀ d t, r.asks d true t → 0 ≤ t.2) (d : Fin n) :
    IsLeast ({(ranges d).1} ∪ {z | ∃ r ∈ rs, ∃ t, r.asks d false t ∧ z = (ranges d).1 + t.1})
      ((rs.foldl Request.run (Kernel.onGrid ranges)).totalRange d).1 ∧
    IsGreatest ({(ranges d).2} ∪ {z | ∃ r ∈ rs, ∃ t, r.asks d true t ∧ z = (ranges d).2 + t.2})
      ((rs.foldl Request.run (Kernel.onGrid ranges)).totalRange d).2 := by
  have hr := fun t => run_halos rs (Kernel.onGrid ranges) d t
  have hm : ∀ t, t ∈ ((rs.foldl Request.run (Kernel.onGrid ranges)).halos d).1 ↔
      ∃ r ∈ rs, r.asks d false t := fun t => by
    rw [(hr t).2.1]; simp [Kernel.onGrid]
  have hp : ∀ t, t ∈ ((rs.foldl Request.run (Kernel.onGrid ranges)).halos d).2 ↔
      ∃ r ∈ rs, r.asks d true t := fun t => by
    rw [(hr t).2.2]; simp [Kernel.onGrid]
  have hranges : (rs.foldl Request.run (Kernel.onGrid ranges)).ranges = ranges := (hr (0,0)).1
  obtain ⟨m1, m2⟩ := minHalo_isLeast' ((rs.foldl Request.run (Kernel.onGrid ranges)).halos d).1
    (fun t ht => by obtain ⟨r, hr, ha⟩ := (hm t).1 ht; exact hlo r hr d t ha)
  obtain ⟨p1, p2⟩ := maxHalo_isGreatest ((rs.foldl Request.run (Kernel.onGrid ranges)).halos d).2
    (fun t ht => by obtain ⟨r, hr, ha⟩ := (hp t).1 ht; exact hhi r hr d t ha)
  unfold Kernel.totalRange
  rw [hranges]
  refine ⟨⟨?_, ?_⟩, ?_, ?_⟩
  · rcases m1 with h | ⟨t, ht, e⟩
    · left; rw [Set.mem_singleton_iff] at h; simp [h]
    · right; obtain ⟨r, hr, ha⟩ := (hm t).1 ht; exact ⟨r, hr, t, ha, by rw [e]⟩
  · rintro z (rfl | ⟨r, hr, t, ha, rfl⟩)
    · have := m2 (Or.inl rfl); simp only; omega
    · have := m2 (Or.inr ⟨t, (hm t).2 ⟨r, hr, ha⟩, rfl⟩); simp only; omega
  · rcases p1 with h | ⟨t, ht, e⟩
    · left; rw [Set.mem_singleton_iff] at h; simp [h]
    · right; obtain ⟨r, hr, ha⟩ := (hp t).1 ht; exact ⟨r, hr, t, ha, by rw [e]⟩
  · rintro z (rfl | ⟨r, hr, t, ha, rfl⟩)
    · have := p2 (Or.inl rfl); simp only; omega
    · have := p2 (Or.inr ⟨t, (hp t).2 ⟨r, hr, ha⟩, rfl⟩); simp only; omega

/-- **C35.** The range does not depend on the order or multiplicity of the requests (no assumption on
the halo types). -/
theorem C35_order_independent (k : Kernel n) (rs rs' : List (Request n))
    (h : ∀ r, r ∈ rs ↔ r ∈ rs') (d : Fin n) :
    (rs.foldl Request.run k).totalRange d = (rs'.foldl Request.run k).totalRange d := by
  have e1 : ((rs.foldl Request.run k).halos d).1 = ((rs'.foldl Request.run k).halos d).1 := by
    ext t
    rw [(run_halos rs k d t).2.1, (run_halos rs' k d t).2.1]
    simp only [h]
  have e2 : ((rs.foldl Request.run k).halos d).2 = ((rs'.foldl Request.run k).halos d).2 := by
    ext t
    rw [(run_halos rs k d t).2.2, (run_halos rs' k d t).2.2]
    simp only [h]
  have e0 : (rs.foldl Request.run k).ranges = (rs'.foldl Request.run k).ranges :=
    (run_halos rs k d (0,0)).1.trans (run_halos rs' k d (0,0)).1.symm
  unfold Kernel.totalRange
  rw [e1, e2, e0]

/-- A fourth order central scheme `[-2,2]` merged with a WENO halo `[-3,4]` on 64 points. -/
example : (([.set 0 false {(-2,2)}, .set 0 true {(-2,2)}, .merge fun _ => ({(-3,4)}, {(-3,4)})] :
    List (Request 1)).foldl Request.run (Kernel.onGrid fun _ => (0,64))).totalRange 0 = (-3, 68) := by
  decide

/-! ## C31 -/

/-- **C31.** A boundary kernel visits exactly the points of its plane, extended by the halos of the
schemes in all other directions. -/
theorem C31_boundary_plane (b : Block n) (direction : Fin n) (side : Bool) (x : Fin n → ℤ) :
    (bcPlaneKernel b direction side).visits x ↔
      x direction = (if side then b.np direction - 1 else 0) ∧
      ∀ d, d ≠ direction → minHalo (b.boundaryHalos d).1 ≤ x d ∧
        x d < b.np d + maxHalo (b.boundaryHalos d).2 := by
  unfold Kernel.visits Kernel.totalRange bcPlaneKernel
  constructor
  · intro h
    constructor
    · have := h direction
      cases side <;> simp [minHalo, maxHalo, Block.ranges] at this ⊢ <;> omega
    · intro d hd
      have := h d
      simpa [hd, Function.update_of_ne hd, Block.ranges] using this
  · rintro ⟨h1, h2⟩ d
    by_cases hd : d = direction
    · subst hd
      cases side <;> simp [minHalo, maxHalo, Block.ranges] at h1 ⊢ <;> omega
    · have := h2 d hd
      simpa [hd, Function.update_of_ne hd, Block.ranges] using this

/-- **C31.** The planes of the two sides are disjoint on grids with at least two points. -/
theorem C31_sides_disjoint (b : Block n) (direction : Fin n) (hnp : 2 ≤ b.np direction)
    (x : Fin n → ℤ) : ¬ ((bcPlaneKernel b direction false).visits x ∧
      (bcPlaneKernel b direction true).visits x) := by
  rintro ⟨h1, h2⟩
  have e1 := ((C31_boundary_plane b direction false x).1 h1).1
  have e2 := ((C31_boundary_plane b direction true x).1 h2).1
  simp at e1 e2
  omega

/-- A 2D block of 10 by 20 points with second order halos: the corner halo point `(0, -1)` is visited
by the left plane of direction 0, the interior point `(1, 5)` is not. -/
example : (bcPlaneKernel (n := 2) ⟨![10, 20], fun _ => ({(-1,1)}, {(-1,1)})⟩ 0 false).visits ![0, -1] ∧
    ¬ (bcPlaneKernel (n := 2) ⟨![10, 20], fun _ => ({(-1,1)}, {(-1,1)})⟩ 0 false).visits ![1, 5] := by
  simp only [C31_boundary_plane]
  decide

/-! ## C24 -/

/-- Wrap the coordinates of the periodic directions into the grid. -/
def wrap (np : Fin n → ℤ) (dirs : List (Fin n)) (x : Fin n → ℤ) (d : Fin n) : ℤ :=
  if d ∈ dirs then x d % np d else x d

theorem exchangeDirection_eq {α : Type} (np : Fin n → ℤ) (a b : ℤ) (ha : 0 ≤ a) (hab : a ≤ b)
    (hba : b ≤ 2*a) (j : Fin n) (hnp : a ≤ np j) (A : (Fin n → ℤ) → α) (x : Fin n → ℤ)
    (hx : ∀ d, -a ≤ x d ∧ x d < np d + a) :
    exchangeDirection np (fun _ => (-a, b)) A j x = A (Function.update x j (x j % np j)) := by
  have hj := hx j
  have absa : |-a| = a := by rw [abs_neg, abs_of_nonneg ha]
  have absb : |b| = b := abs_of_nonneg (by omega)
  -- membership in the destination boxes only depends on the coordinate `j`
  have mem : ∀ (side : Bool) (y : Fin n → ℤ), (∀ d, d ≠ j → y d = x d) →
      ((∀ d, (periodicTransfer np (fun _ => (-a, b)) j side).dst d ≤ y d ∧
        y d < (periodicTransfer np (fun _ => (-a, b)) j side).dst d +
          (periodicTransfer np (fun _ => (-a, b)) j side).size d) ↔
        if side then -a ≤ y j ∧ y j < b - a else np j ≤ y j ∧ y j < np j + a) := by
    intro side y hy
    constructor
    · intro h
      have := h j
      cases side <;> simp [periodicTransfer, absa, absb] at this ⊢ <;> omega
    · intro h d
      by_cases hd : d = j
      · subst hd
        cases side <;> simp [periodicTransfer, absa, absb] at h ⊢ <;> omega
      · have := hx d
        simp only [periodicTransfer, Function.update_of_ne hd, absa, absb, hy d hd]
        omega
  have src : ∀ (side : Bool) (y : Fin n → ℤ), (∀ d, d ≠ j → y d = x d) →
      (fun d => y d - (periodicTransfer np (fun _ => (-a, b)) j side).dst d +
        (periodicTransfer np (fun _ => (-a, b)) j side).src d) =
      Function.update x j (if side then y j + np j else y j - np j) := by
    intro side y hy
    funext d
    by_cases hd : d = j
    · subst hd
      cases side <;> (simp [periodicTransfer]; try omega)
    · simp [periodicTransfer, Function.update_of_ne hd, hy d hd]
  have first : ∀ y : Fin n → ℤ, (∀ d, d ≠ j → y d = x d) →
      (periodicTransfer np (fun _ => (-a, b)) j false).apply A y =
      if np j ≤ y j ∧ y j < np j + a then A (Function.update x j (y j - np j)) else A y := by
    intro y hy
    unfold Transfer.apply
    rw [src false y hy]
    by_cases h : np j ≤ y j ∧ y j < np j + a
    · rw [if_pos ((mem false y hy).2 (by simpa using h)), if_pos h]; simp
    · rw [if_neg (fun h' => h (by simpa using (mem false y hy).1 h')), if_neg h]
  unfold exchangeDirection
  rw [Transfer.apply, src true x (fun _ _ => rfl)]
  by_cases h1 : -a ≤ x j ∧ x j < b - a
  · rw [if_pos ((mem true x (fun _ _ => rfl)).2 (by simpa using h1)),
      first _ (fun d hd => Function.update_of_ne hd _ _)]
    simp only [Function.update_self, if_true]
    by_cases h2 : 0 ≤ x j
    · rw [if_pos ⟨by omega, by omega⟩, add_sub_cancel_right,
        Int.emod_eq_of_lt h2 (by omega)]
    · rw [if_neg (by omega)]
      congr 2
      rw [← Int.add_emod_right, Int.emod_eq_of_lt (by omega) (by omega)]
  · rw [if_neg (fun h' => h1 (by simpa using (mem true x (fun _ _ => rfl)).1 h')),
      first _ (fun _ _ => rfl)]
    by_cases h2 : np j ≤ x j
    · rw [if_pos ⟨h2, by omega⟩]
      congr 2
      rw [← Int.sub_emod_right, Int.emod_eq_of_lt (by omega) (by omega)]
    · rw [if_neg (fun h => h2 h.1), Int.emod_eq_of_lt (by omega) (by omega), Function.update_eq_self]

/-- **C24.** After the exchanges of the periodic directions, every point whose coordinates lie in the
grid or in the first `a` halo points of each direction, including edges and corners, holds the value
that was stored at its periodic image.  `-a` and `b` are the lower and upper halo depth of the
schemes; symmetric halos are `a = b`, WENO schemes have `b = a + 1`. -/
theorem C24_periodic_image {α : Type} (np : Fin n → ℤ) (a b : ℤ) (ha : 0 ≤ a) (hab : a ≤ b)
    (hba : b ≤ 2*a) (hnp : ∀ d, a ≤ np d) (dirs : List (Fin n)) (A : (Fin n → ℤ) → α)
    (x : Fin n → ℤ) (hx : ∀ d, -a ≤ x d ∧ x d < np d + a) (hnd : dirs.Nodup) :
    exchangeAll np (fun _ => (-a, b)) dirs A x = A (wrap np dirs x) := by
  unfold exchangeAll
  induction dirs generalizing A with
  | nil => congr 1
  | cons j t ih =>
    rw [List.foldl_cons, ih (exchangeDirection np (fun _ => (-a, b)) A j) (List.nodup_cons.1 hnd).2]
    have hj : j ∉ t := (List.nodup_cons.1 hnd).1
    have hbox : ∀ d, -a ≤ wrap np t x d ∧ wrap np t x d < np d + a := by
      intro d
      unfold wrap
      have := hx d
      have h1 := hnp d
      split_ifs
      · by_cases h0 : np d = 0
        · rw [h0, Int.emod_zero]; omega
        · have := Int.emod_nonneg (x d) h0
          have := Int.emod_lt_of_pos (x d) (show 0 < np d by omega)
          omega
      · exact this
    rw [exchangeDirection_eq np a b ha hab hba j (hnp j) A _ hbox]
    congr 1
    funext d
    by_cases hd : d = j
    · subst hd; simp [wrap, hj]
    · simp [wrap, hd]

/-- **C24** in terms of the halos requested by the schemes on the block: if all directions request
the same depth, all halo points of all directions are periodic images. -/
theorem C24_block_periodic_partial {α : Type} [NeZero n] (b : Block n) (h : ℤ) (hh : 0 ≤ h)
    (hreq : ∀ d, minHalo (b.boundaryHalos d).1 = -h ∧ maxHalo (b.boundaryHalos d).2 = h)
    (hnp : ∀ d, h ≤ b.np d) (A : (Fin n → ℤ) → α) (x : Fin n → ℤ)
    (hx : ∀ d, minHalo (b.boundaryHalos d).1 ≤ x d ∧ x d < b.np d + maxHalo (b.boundaryHalos d).2) :
    exchangeAll b.np (haloValues b) (List.finRange n) A x = A fun d => x d % b.np d := by
  have hv : haloValues b = fun _ => (-h, h) := by
    funext d; rw [haloValues, (hreq 0).1, (hreq 0).2]
  rw [hv, C24_periodic_image b.np h h hh le_rfl (by omega) hnp _ A x
    (fun d => by have := hx d; rw [(hreq d).1, (hreq d).2] at this; exact this)
    (List.nodup_finRange n)]
  congr 1
  funext d
  simp [wrap]

/-- **C24.** Interior values are unchanged. -/
theorem C24_interior_unchanged {α : Type} (np : Fin n → ℤ) (a b : ℤ) (ha : 0 ≤ a) (hab : a ≤ b)
    (hba : b ≤ 2*a) (hnp : ∀ d, a ≤ np d) (dirs : List (Fin n)) (A : (Fin n → ℤ) → α)
    (x : Fin n → ℤ) (hx : ∀ d, 0 ≤ x d ∧ x d < np d) (hnd : dirs.Nodup) :
    exchangeAll np (fun _ => (-a, b)) dirs A x = A x := by
  rw [C24_periodic_image np a b ha hab hba hnp dirs A x
    (fun d => by have := hx d; omega) hnd]
  congr 1
  funext d
  unfold wrap
  split_ifs
  · exact Int.emod_eq_of_lt (hx d).1 (hx d).2
  · rfl

/-- **C24, limits of the exchange.** With asymmetric halos (WENO: `b = a + 1`) the outermost upper
halo layers are never filled: the lower depth is used for the upper halo. -/
theorem C24_asymmetric_halo_not_filled {α : Type} (np : Fin n → ℤ) (a b : ℤ) (ha : 0 ≤ a)
    (hab : a < b) (j : Fin n) (hnp : b < np j) (A : (Fin n → ℤ) → α) (x : Fin n → ℤ)
    (hx : x j = np j + a) : exchangeDirection np (fun _ => (-a, b)) A j x = A x := by
  have absa : |-a| = a := by rw [abs_neg, abs_of_nonneg ha]
  have absb : |b| = b := abs_of_nonneg (by omega)
  unfold exchangeDirection Transfer.apply
  rw [if_neg, if_neg]
  · intro h
    have := h j
    simp [periodicTransfer, absa] at this
    omega
  · intro h
    have := h j
    simp [periodicTransfer, absb] at this
    omega

/-- **C24, negation for direction dependent halos.** The depth of direction 0 is used for all
directions: a 2D block whose only derivatives are in direction 1 (halo `[-2,2]` there) exchanges
nothing, so halo point `(0,-1)` is not the periodic image `(0,7)`. -/
theorem C24_direction_dependent_halos_wrong :
    ∃ (b : Block 2) (A : (Fin 2 → ℤ) → ℤ) (x : Fin 2 → ℤ),
      (∀ d, minHalo (b.boundaryHalos d).1 ≤ x d ∧ x d < b.np d + maxHalo (b.boundaryHalos d).2) ∧
      exchangeAll b.np (haloValues b) (List.finRange 2) A x ≠ A fun d => x d % b.np d := by
  refine ⟨⟨![8, 8], ![(∅, ∅), ({(-2,2)}, {(-2,2)})]⟩, fun x => x 1, ![0, -1], ?_, ?_⟩
  · decide
  · decide

/-- 2D, 8 by 6 points, halo depth 2: the corner halo `(-1, 7)` receives the value of `(7, 1)`. -/
example (A : (Fin 2 → ℤ) → ℝ) : exchangeAll ![8, 6] (fun _ => (-2, 2)) [0, 1] A ![-1, 7] =
    A ![7, 1] := by
  rw [C24_periodic_image ![8, 6] 2 2 (by norm_num) le_rfl (by norm_num) (by decide) [0, 1] A _
    (by decide) (by decide)]
  congr 1
  funext d
  fin_cases d <;> rfl

end OpenSBLI.Ranges
