import Verif.Model.SplitBc
import Verif.Props.C37_RaceFree
import Verif.Props.C34_C38_C39_Registries
import Mathlib.Tactic.FinCases
import Mathlib.Tactic.IntervalCases
import Mathlib.Tactic.NormNum

import Mathlib.Data.Fin.VecNotation

/-!
# C65 Dirichlet and split boundary conditions
-/
namespace OpenSBLI.Ranges

variable {n : ℕ}

/-- Interval of a direction without and with halos. -/
def extended (b : Block n) (d : Fin n) (z : ℤ) : Prop :=
  minHalo (b.boundaryHalos d).1 ≤ z ∧ z < b.np d + maxHalo (b.boundaryHalos d).2

/-- **C65, points.** A Dirichlet condition is applied at the points of the boundary plane and of all halo layers behind it, in the other
directions including the halos, and nowhere else. -/
theorem C65_dirichlet_points (b : Block n) (dir : Fin n) (side : Bool) (x : Fin n → ℤ) :
    (dirichletKernel b dir side).visits x ↔
      (if side then b.np dir - 1 ≤ x dir ∧ x dir < b.np dir + maxHalo (b.boundaryHalos dir).2
        else minHalo (b.boundaryHalos dir).1 ≤ x dir ∧ x dir ≤ 0) ∧
      ∀ d, d ≠ dir → extended b d (x d) := by
  unfold Kernel.visits
  have hdir : ((dirichletKernel b dir side).totalRange dir) = if side then
      (b.np dir - 1, b.np dir + maxHalo (b.boundaryHalos dir).2) else (minHalo (b.boundaryHalos dir).1, 1) := by
    cases side <;> simp [Kernel.totalRange, dirichletKernel, bcPlaneKernel, minHalo, maxHalo, Block.ranges]
  have hne : ∀ d, d ≠ dir → ((dirichletKernel b dir side).totalRange d) =
      (minHalo (b.boundaryHalos d).1, b.np d + maxHalo (b.boundaryHalos d).2) := by
    intro d hd
    simp [Kernel.totalRange, dirichletKernel, bcPlaneKernel, hd, Block.ranges]
  constructor
  · intro h
    refine ⟨?_, fun d hd => ?_⟩
    · have := h dir
      rw [hdir] at this
      cases side
      · simp only [Bool.false_eq_true, if_false] at this ⊢; omega
      · simpa using this
    · have := h d
      rw [hne d hd] at this
      exact this
  · rintro ⟨h1, h2⟩ d
    by_cases hd : d = dir
    · subst hd
      rw [hdir]
      cases side
      · simp only [Bool.false_eq_true, if_false] at h1 ⊢; omega
      · simpa using h1
    · rw [hne d hd]; exact h2 d hd

/-- **C65, every halo layer of the side is set**: for any halo type requested by any scheme, the layers it needs behind the boundary are
visited. -/
theorem C65_dirichlet_fills_halos (b : Block n) (dir : Fin n) (x : Fin n → ℤ)
    (hother : ∀ d, d ≠ dir → extended b d (x d)) :
    (∀ t ∈ (b.boundaryHalos dir).1, t.1 ≤ x dir → x dir ≤ 0 → (dirichletKernel b dir false).visits x) ∧
    (∀ t ∈ (b.boundaryHalos dir).2, b.np dir - 1 ≤ x dir → x dir < b.np dir + t.2 → (dirichletKernel b dir true).visits x) := by
  constructor
  · intro t ht h1 h2
    rw [C65_dirichlet_points]
    refine ⟨?_, hother⟩
    have : minHalo (b.boundaryHalos dir).1 ≤ t.1 := by
      rw [minHalo, dif_pos ⟨t, ht⟩]; exact Finset.inf'_le _ ht
    simp only [Bool.false_eq_true, if_false]; omega
  · intro t ht h1 h2
    rw [C65_dirichlet_points]
    refine ⟨?_, hother⟩
    have : t.2 ≤ maxHalo (b.boundaryHalos dir).2 := by
      rw [maxHalo, dif_pos ⟨t, ht⟩]; exact Finset.le_sup' (Prod.snd : HaloType → ℤ) ht
    simp only [if_true]; omega

open Ker in
/-- An expression that reads none of the arrays in `W` has the same value after writes to arrays in `W`. -/
theorem eval_of_unread {V : Type} (I : Interp V) (p : Fin n → ℤ) (W : List String) (e : Expr n)
    (he : ∀ b ∈ W, b ∉ e.bases) (s s' : Point n V) (hl : s.loc = s'.loc) (hc : s.store.const = s'.store.const)
    (hi : s.store.iconst = s'.store.iconst) (hg : s.store.glob = s'.store.glob)
    (hd : ∀ b, b ∉ W → s.store.data b = s'.store.data b) : e.eval I p s = e.eval I p s' := by
  induction e with
  | num q => rfl
  | data b o =>
    have : b ∉ W := fun h => he b h (by simp [Expr.bases, Expr.accesses])
    simp only [Expr.eval, hd b this]
  | const c => simp only [Expr.eval, hc]
  | iconst b i => simp only [Expr.eval, hi]
  | glob g => simp only [Expr.eval, hg]
  | gvar v => simp only [Expr.eval, hl]
  | idx k => rfl
  | un f x ih =>
    simp only [Expr.eval]; rw [ih]
    intro b hb h; apply he b hb; simpa [Expr.bases, Expr.accesses] using h
  | bin f x y ihx ihy =>
    simp only [Expr.eval]; rw [ihx, ihy]
    · intro b hb h; apply he b hb
      simp only [Expr.bases, Expr.accesses, List.map_append, List.toFinset_append, Finset.mem_union] at h ⊢
      exact Or.inr h
    · intro b hb h; apply he b hb
      simp only [Expr.bases, Expr.accesses, List.map_append, List.toFinset_append, Finset.mem_union] at h ⊢
      exact Or.inl h

open Ker in
/-- Effect at one point. -/
theorem dirichlet_point {V : Type} (I : Interp V) (W : List String) (eqs : List (String × Expr n)) (hnd : (eqs.map Prod.fst).Nodup)
    (hW : ∀ q ∈ eqs, q.1 ∈ W) (hread : ∀ q ∈ eqs, ∀ b ∈ W, b ∉ q.2.bases) (p : Fin n → ℤ) (s : Point n V) :
    ∀ s', s' = ((dirichletEquations eqs).foldl (fun (s : Point n V) (e : Eqn n) => e.exec I p s) s) →
    s'.loc = s.loc ∧ s'.store.const = s.store.const ∧ s'.store.iconst = s.store.iconst ∧ s'.store.glob = s.store.glob ∧
    (∀ b, b ∉ eqs.map Prod.fst → s'.store.data b = s.store.data b) ∧
    (∀ q ∈ eqs, ∀ x, s'.store.data q.1 x = if x = p then q.2.eval I p s else s.store.data q.1 x) := by
  induction eqs generalizing s with
  | nil => rintro s' rfl; simp
  | cons q eqs ih =>
    rintro s' rfl
    simp only [List.map_cons, List.nodup_cons] at hnd
    obtain ⟨hq, hnd⟩ := hnd
    have hsub : ∀ r ∈ eqs, r ∈ q :: eqs := fun r hr => List.mem_cons_of_mem _ hr
    set s1 : Point n V := (Eqn.assign ⟨.data q.1 0, q.2⟩ : Eqn n).exec I p s with hs1
    obtain ⟨a1, a2, a3, a4, a5, a6⟩ := ih hnd (fun r hr => hW r (hsub r hr)) (fun r hr => hread r (hsub r hr)) s1 _ rfl
    have d1 : ∀ b x, s1.store.data b x = if b = q.1 ∧ x = p then q.2.eval I p s else s.store.data b x := by
      intro b x; simp [hs1, Eqn.exec, Assign.exec, Store.setData]
    have e1 : s1.loc = s.loc := rfl
    have e2 : s1.store.const = s.store.const := rfl
    have e3 : s1.store.iconst = s.store.iconst := rfl
    have e4 : s1.store.glob = s.store.glob := rfl
    refine ⟨a1.trans e1, a2.trans e2, a3.trans e3, a4.trans e4, ?_, ?_⟩
    · intro b hb
      simp only [List.map_cons, List.mem_cons, not_or] at hb
      refine (a5 b hb.2).trans ?_
      funext x; rw [d1, if_neg]; exact fun h => hb.1 h.1
    · intro r hr x
      rcases List.mem_cons.1 hr with rfl | hr
      · have := congrFun (a5 r.1 hq) x
        refine this.trans ?_
        rw [d1]; simp
      · refine (a6 r hr x).trans ?_
        have hne : r.1 ≠ q.1 := fun h => hq (List.mem_map.2 ⟨r, hr, h⟩)
        have hev : r.2.eval I p s1 = r.2.eval I p s := by
          refine eval_of_unread I p W r.2 (hread r (hsub r hr)) s1 s e1 e2 e3 e4 ?_
          intro b hb; funext x
          rw [d1, if_neg]
          rintro ⟨rfl, -⟩; exact hb (hW q (List.mem_cons_self ..))
        rw [hev, d1]; simp [hne]

open Ker in
/-- **C65, values.** After the loop every prescribed array has, at every visited point, the value of its expression (evaluated with that
point's indices and the state before the loop); all other elements are unchanged. The right hand sides read none of the prescribed arrays,
each array is prescribed once, and `pts` lists every visited point once. -/
theorem C65_dirichlet_values {V : Type} (I : Interp V) (eqs : List (String × Expr n)) (hnd : (eqs.map Prod.fst).Nodup)
    (hread : ∀ q ∈ eqs, ∀ r ∈ eqs, r.1 ∉ q.2.bases) (b : Block n) (dir : Fin n) (side : Bool)
    (pts : List (Fin n → ℤ)) (hpts : pts.Nodup) (hvis : ∀ x, x ∈ pts ↔ (dirichletKernel b dir side).visits x) (st : Store n V) :
    (∀ q ∈ eqs, ∀ x, (dirichletKernel b dir side).visits x →
      (execLoop I (dirichletEquations eqs) pts st).data q.1 x = q.2.eval I x ⟨st, fun _ => I.num 0⟩) ∧
    (∀ v x, (¬ (dirichletKernel b dir side).visits x ∨ v ∉ eqs.map Prod.fst) →
      (execLoop I (dirichletEquations eqs) pts st).data v x = st.data v x) := by
  have hmay : ∀ e ∈ dirichletEquations eqs, ∀ v, ∀ o ∈ e.mayWrite v, o = 0 ∧ v ∈ eqs.map Prod.fst := by
    intro e he v o ho
    obtain ⟨q, hq, rfl⟩ := List.mem_map.1 he
    simp only [Eqn.mayWrite, Set.mem_ofPred_eq, Lhs.data.injEq] at ho
    exact ⟨ho.2.symm, List.mem_map.2 ⟨q, hq, ho.1⟩⟩
  have hind : Independent (dirichletEquations eqs) pts := by
    apply C37_pointwise_kernels
    intro e he v o ho o' ho'
    obtain ⟨rfl, hv⟩ := hmay e he v o ho
    obtain ⟨e', he', hacc⟩ := List.mem_flatMap.1 ho'
    obtain ⟨q, hq, rfl⟩ := List.mem_map.1 he'
    simp only [Eqn.accesses, Lhs.accesses, List.singleton_append, List.mem_cons, Prod.mk.injEq] at hacc
    rcases hacc with h | h
    · exact h.2
    · obtain ⟨r, hr, rfl⟩ := List.mem_map.1 hv
      exact absurd (mem_bases.2 ⟨o', h⟩) (hread q hq r hr)
  have hg : ∀ e ∈ dirichletEquations eqs, e.noGlob := by
    intro e he
    obtain ⟨q, hq, rfl⟩ := List.mem_map.1 he
    simp [Eqn.noGlob]
  have hpoint := fun p => dirichlet_point I (eqs.map Prod.fst) eqs hnd (fun q hq => List.mem_map.2 ⟨q, hq, rfl⟩)
    (by
      intro q hq v hv
      obtain ⟨r, hr, rfl⟩ := List.mem_map.1 hv
      exact hread q hq r hr) p ⟨st, fun _ => I.num 0⟩ _ rfl
  constructor
  · intro q hq x hx
    have h := (C37_simultaneous I (dirichletEquations eqs) pts hpts hg hind st q.1).1 x ((hvis x).2 hx) 0
      ⟨_, List.mem_map.2 ⟨q, hq, rfl⟩, by simp [Eqn.mayWrite]⟩
    rw [add_zero] at h
    rw [h]
    have := (hpoint x).2.2.2.2.2 q hq x
    rw [if_pos rfl] at this
    exact this
  · intro v x hvx
    apply (C37_simultaneous I (dirichletEquations eqs) pts hpts hg hind st v).2
    rintro p hp o ⟨e, he, ho⟩ rfl
    obtain ⟨rfl, hv⟩ := hmay e he v o ho
    rcases hvx with h | h
    · apply h; rw [add_zero]; exact (hvis p).1 hp
    · exact h hv

/-! ## Split boundaries -/

/-- **C65, split ranges.** The loop of a split Dirichlet condition covers, in every direction, the interval of the user's range array
widened by the user's halo array, except that the halo entry of the boundary side is the halo depth of the block. -/
theorem C65_split_points [NeZero n] (b : Block n) (dir : Fin n) (side : Bool) (R Hin : ℕ → ℤ) (x : Fin n → ℤ) :
    splitVisits R (entry (splitDirichletHalo b dir side) Hin) x ↔
      ∀ d : Fin n,
        R (2 * d.1) + (if d = dir ∧ side = false then (haloValues b dir).1 else Hin (2 * d.1)) ≤ x d ∧
        x d < R (2 * d.1 + 1) + (if d = dir ∧ side = true then (haloValues b dir).2 else Hin (2 * d.1 + 1)) := by
  have e0 : ∀ d : Fin n, entry (splitDirichletHalo b dir side) Hin (2 * d.1) =
      if d = dir ∧ side = false then (haloValues b dir).1 else Hin (2 * d.1) := by
    intro d
    have hd := d.2
    have hdir := dir.2
    simp only [entry, splitDirichletHalo, newEntries, List.getElem?_set, List.length_replicate, List.getElem?_replicate]
    by_cases h : d = dir
    · subst h
      cases side
      · simp
      · simp [show 2 * d.1 < 2 * n by omega]
    · have h' : d.1 ≠ dir.1 := fun e => h (Fin.ext e)
      cases side
      · simp [h, show dir.1 ≠ d.1 from h'.symm, show 2 * d.1 < 2 * n by omega]
      · simp [h, show 2 * dir.1 + 1 ≠ 2 * d.1 by omega, show 2 * d.1 < 2 * n by omega]
  have e1 : ∀ d : Fin n, entry (splitDirichletHalo b dir side) Hin (2 * d.1 + 1) =
      if d = dir ∧ side = true then (haloValues b dir).2 else Hin (2 * d.1 + 1) := by
    intro d
    have hd := d.2
    have hdir := dir.2
    simp only [entry, splitDirichletHalo, newEntries, List.getElem?_set, List.length_replicate, List.getElem?_replicate]
    by_cases h : d = dir
    · subst h
      cases side
      · simp [show 2 * d.1 + 1 < 2 * n by omega]
      · simp [show 2 * d.1 + 1 < 2 * n by omega]
    · have h' : d.1 ≠ dir.1 := fun e => h (Fin.ext e)
      cases side
      · simp [h, show 2 * dir.1 ≠ 2 * d.1 + 1 by omega, show 2 * d.1 + 1 < 2 * n by omega]
      · simp [h, show dir.1 ≠ d.1 from h'.symm, show 2 * d.1 + 1 < 2 * n by omega]
  simp only [splitVisits, splitTotalRange, e0, e1]

/-- Index of a piece: monotone cut points cover an interval with disjoint pieces. -/
theorem cuts_cover (c : ℕ → ℤ) (m : ℕ) (z : ℤ) (hm : Monotone c) :
    (c 0 ≤ z ∧ z < c m) ↔ ∃ k, k < m ∧ c k ≤ z ∧ z < c (k + 1) := by
  constructor
  · rintro ⟨h0, h1⟩
    induction m with
    | zero => omega
    | succ m ih =>
      by_cases h : z < c m
      · obtain ⟨k, hk, h⟩ := ih h; exact ⟨k, by omega, h⟩
      · exact ⟨m, by omega, by omega, h1⟩
  · rintro ⟨k, hk, h1, h2⟩
    have := hm (Nat.zero_le k)
    have := hm (show k + 1 ≤ m by omega)
    omega

theorem cuts_unique (c : ℕ → ℤ) (hm : Monotone c) (z : ℤ) (k l : ℕ) (h1 : c k ≤ z) (h2 : z < c (k + 1)) (h3 : c l ≤ z)
    (h4 : z < c (l + 1)) : k = l := by
  by_contra h
  rcases Nat.lt_or_ge k l with hlt | hge
  · have := hm (show k + 1 ≤ l by omega); omega
  · have := hm (show l + 1 ≤ k by omega); omega

/-- **C65, split boundaries partition the face.** Cut the direction `t` of a face into `m` pieces at `c 0 ≤ c 1 ≤ … ≤ c m`, give
every condition the range of its piece, halos in direction `t` only at the outer ends, and equal entries in all other directions. Then every
point of the unsplit face (with halos) is visited by exactly one condition, and no condition visits any other point. -/
theorem C65_split_partition (t : Fin n) (m : ℕ) (hm : 0 < m) (c : ℕ → ℤ) (hc : Monotone c) (lo hi : ℤ) (hlo : lo ≤ 0) (hhi : 0 ≤ hi)
    (R H : ℕ → ℕ → ℤ) (R' H' : ℕ → ℤ)
    (hR : ∀ k d, d ≠ t → R k (2 * d.1) = R' (2 * d.1) ∧ R k (2 * d.1 + 1) = R' (2 * d.1 + 1))
    (hH : ∀ k d, d ≠ t → H k (2 * d.1) = H' (2 * d.1) ∧ H k (2 * d.1 + 1) = H' (2 * d.1 + 1))
    (hRt : ∀ k, R k (2 * t.1) = c k ∧ R k (2 * t.1 + 1) = c (k + 1))
    (hHt : ∀ k, H k (2 * t.1) = (if k = 0 then lo else 0) ∧ H k (2 * t.1 + 1) = if k + 1 = m then hi else 0)
    (hR't : R' (2 * t.1) = c 0 ∧ R' (2 * t.1 + 1) = c m) (hH't : H' (2 * t.1) = lo ∧ H' (2 * t.1 + 1) = hi) (x : Fin n → ℤ) :
    (splitVisits R' H' x ↔ ∃ k, k < m ∧ splitVisits (R k) (H k) x) ∧
    (∀ k l, k < m → l < m → splitVisits (R k) (H k) x → splitVisits (R l) (H l) x → k = l) := by
  have piece : ∀ k, splitVisits (R k) (H k) x ↔
      (c k + (if k = 0 then lo else 0) ≤ x t ∧ x t < c (k + 1) + if k + 1 = m then hi else 0) ∧
      ∀ d, d ≠ t → R' (2 * d.1) + H' (2 * d.1) ≤ x d ∧ x d < R' (2 * d.1 + 1) + H' (2 * d.1 + 1) := by
    intro k
    simp only [splitVisits, splitTotalRange]
    constructor
    · intro h
      refine ⟨by have := h t; rw [(hRt k).1, (hRt k).2, (hHt k).1, (hHt k).2] at this; exact this, fun d hd => ?_⟩
      have := h d
      rw [(hR k d hd).1, (hR k d hd).2, (hH k d hd).1, (hH k d hd).2] at this; exact this
    · rintro ⟨h1, h2⟩ d
      by_cases hd : d = t
      · subst hd; rw [(hRt k).1, (hRt k).2, (hHt k).1, (hHt k).2]; exact h1
      · rw [(hR k d hd).1, (hR k d hd).2, (hH k d hd).1, (hH k d hd).2]; exact h2 d hd
  have whole : splitVisits R' H' x ↔ (c 0 + lo ≤ x t ∧ x t < c m + hi) ∧
      ∀ d, d ≠ t → R' (2 * d.1) + H' (2 * d.1) ≤ x d ∧ x d < R' (2 * d.1 + 1) + H' (2 * d.1 + 1) := by
    simp only [splitVisits, splitTotalRange]
    constructor
    · intro h
      refine ⟨by have := h t; rw [hR't.1, hR't.2, hH't.1, hH't.2] at this; exact this, fun d _ => h d⟩
    · rintro ⟨h1, h2⟩ d
      by_cases hd : d = t
      · subst hd; rw [hR't.1, hR't.2, hH't.1, hH't.2]; exact h1
      · exact h2 d hd
  -- cut points moved outwards at the ends
  let c' : ℕ → ℤ := fun k => if k = 0 then c 0 + lo else if m ≤ k then c m + hi else c k
  have hc' : Monotone c' := by
    apply monotone_nat_of_le_succ
    intro k
    simp only [c']
    have h1 := hc (show k ≤ k + 1 by omega)
    by_cases hk : k = 0
    · subst hk
      have := hc (Nat.zero_le m)
      simp only [if_true]
      split_ifs <;> omega
    · have h2 : m ≤ k + 1 → k < m → c (k + 1) = c m := fun a b => by rw [show k + 1 = m by omega]
      rw [if_neg hk, if_neg (show ¬ k + 1 = 0 by omega)]
      by_cases hmk : m ≤ k
      · rw [if_pos hmk, if_pos (show m ≤ k + 1 by omega)]
      · rw [if_neg hmk]
        split_ifs with h3
        · have := h2 h3 (by omega); omega
        · exact h1
  have cut : ∀ k, k < m → ((c k + (if k = 0 then lo else 0) ≤ x t ∧ x t < c (k + 1) + if k + 1 = m then hi else 0) ↔
      (c' k ≤ x t ∧ x t < c' (k + 1))) := by
    intro k hk
    have a : c' k = c k + if k = 0 then lo else 0 := by
      simp only [c']; split_ifs with h1 h2
      · rw [h1]
      · omega
      · omega
    have b : c' (k + 1) = c (k + 1) + if k + 1 = m then hi else 0 := by
      simp only [c']
      rw [if_neg (show ¬ k + 1 = 0 by omega)]
      by_cases h : k + 1 = m
      · rw [if_pos (show m ≤ k + 1 by omega), if_pos h, h]
      · rw [if_neg (show ¬ m ≤ k + 1 by omega), if_neg h, add_zero]
    rw [a, b]
  have ends : c' 0 = c 0 + lo ∧ c' m = c m + hi := by
    simp only [c']; simp [show m ≠ 0 by omega]
  constructor
  · rw [whole, ← ends.1, ← ends.2, cuts_cover c' m (x t) hc']
    constructor
    · rintro ⟨⟨k, hk, h⟩, ho⟩; exact ⟨k, hk, (piece k).2 ⟨(cut k hk).2 h, ho⟩⟩
    · rintro ⟨k, hk, h⟩; obtain ⟨h1, ho⟩ := (piece k).1 h; exact ⟨⟨k, hk, (cut k hk).1 h1⟩, ho⟩
  · intro k l hk hl h1 h2
    have a := (cut k hk).1 ((piece k).1 h1).1
    have b := (cut l hl).1 ((piece l).1 h2).1
    exact cuts_unique c' hc' (x t) k l a.1 a.2 b.1 b.2

theorem toString_inj {i j : ℕ} (h : toString i = toString j) : i = j := by
  have h : (toString i).toList = (toString j).toList := by rw [h]
  simp only [Nat.toString_eq_repr, Nat.toList_repr] at h
  rw [← Nat.ofDigitChars_toDigits (b := 10) (n := i) (by decide) (by decide), h,
    Nat.ofDigitChars_toDigits (by decide) (by decide)]

/-- **C65, names.** Conditions on one block get different arrays. -/
theorem C65_split_names_distinct (pre : String) (dir dir' : ℕ) (side side' : Bool) (no no' : ℕ) (h3 : dir < 10) (h3' : dir' < 10)
    (h : splitName pre dir side no = splitName pre dir' side' no') : dir = dir' ∧ side = side' ∧ no = no' := by
  have h := congrArg String.toList h
  simp only [splitName, String.toList_append, List.append_assoc] at h
  have h := List.append_cancel_left h
  have single : ∀ k : ℕ, k < 10 → ∃ ch : Char, (toString k).toList = [ch] := by
    intro k hk; interval_cases k <;> exact ⟨_, rfl⟩
  obtain ⟨a, ha⟩ := single dir h3
  obtain ⟨a', ha'⟩ := single dir' h3'
  have hs : ∀ s : Bool, (if s = true then "1" else "0").toList = [if s then '1' else '0'] := by intro s; cases s <;> rfl
  rw [ha, ha', hs, hs] at h
  simp only [List.cons_append, List.nil_append, List.cons.injEq] at h
  obtain ⟨rfl, h1, h2⟩ := h
  refine ⟨?_, ?_, ?_⟩
  · have : toString dir = toString dir' := String.toList_injective (ha.trans ha'.symm)
    exact toString_inj this
  · cases side <;> cases side' <;> simp_all
  · exact toString_inj (String.toList_injective h2)

deriving instance DecidableEq for Reg.Const

open Reg in
/-- **C65, finding: two blocks share the arrays.** The names do not contain the block, constants are kept once per name, so the
Dirichlet condition of a second block runs over the range of the first block: its own halo depth is lost. -/
theorem C65_split_blocks_share_range : ∃ (b b' : Block 2) (name : String) (e e' : Entries),
    (⟨name, some e⟩ : Const Entries) ∈ splitConstants b 0 false 1 ∧ ⟨name, some e'⟩ ∈ splitConstants b' 0 false 1 ∧ e ≠ e' ∧
    declared (addConstants [] (splitConstants b 0 false 1 ++ splitConstants b' 0 false 1)) name = some (some e) := by
  refine ⟨⟨![8, 8], fun _ => ({(-2, 2)}, {(-2, 2)})⟩, ⟨![8, 8], fun _ => ({(-5, 5)}, {(-5, 5)})⟩, "split_halo_range_000",
    [some (-2), none, none, none], [some (-5), none, none, none], ?_, ?_, by decide, ?_⟩ <;> decide +kernel

/-- A case for `C65_dirichlet_points`: a 6 by 4 block with two halo layers, lower side of direction 0. -/
example : (dirichletKernel (⟨![6, 4], fun _ => ({(-2, 2)}, {(-2, 2)})⟩ : Block 2) 0 false).visits ![-2, 5] ∧
    ¬ (dirichletKernel (⟨![6, 4], fun _ => ({(-2, 2)}, {(-2, 2)})⟩ : Block 2) 0 false).visits ![1, 0] := by
  rw [C65_dirichlet_points, C65_dirichlet_points]
  constructor
  · refine ⟨by simp [minHalo], ?_⟩
    intro d hd; fin_cases d
    · simp at hd
    · simp [extended, minHalo, maxHalo]
  · simp

open Ker in
/-- A case for the hypotheses of `C65_dirichlet_values`: density from a coordinate array, energy constant. -/
example : (([("rho_B0", .data "x0_B0" 0), ("rhoE_B0", .num 2)] : List (String × Expr 2)).map Prod.fst).Nodup ∧
    ∀ q ∈ ([("rho_B0", .data "x0_B0" 0), ("rhoE_B0", .num 2)] : List (String × Expr 2)),
      ∀ r ∈ ([("rho_B0", .data "x0_B0" 0), ("rhoE_B0", .num 2)] : List (String × Expr 2)), r.1 ∉ q.2.bases := by
  refine ⟨by decide, ?_⟩
  intro q hq r hr
  simp only [List.mem_cons, List.not_mem_nil, or_false] at hq hr
  rcases hq with rfl | rfl <;> rcases hr with rfl | rfl <;> simp [Expr.bases, Expr.accesses]

/-- A case for `C65_split_partition`: the lower face of direction 0 of a block with 8 points in direction 1, cut in two halves, two halo
layers at the outer ends. -/
example (x : Fin 2 → ℤ) :=
  C65_split_partition (n := 2) 1 2 (by norm_num) (fun k => 4 * k) (by intro a b h; dsimp only; omega) (-2) 2 (by norm_num) (by norm_num)
    (fun k i => if i = 2 then 4 * k else if i = 3 then 4 * (k + 1) else i)
    (fun k i => if i = 2 then (if k = 0 then -2 else 0) else if i = 3 then (if k + 1 = 2 then 2 else 0) else 0)
    (fun i => if i = 2 then 0 else if i = 3 then 8 else i) (fun i => if i = 2 then -2 else if i = 3 then 2 else 0)
    (by intro k d hd; fin_cases d <;> simp_all) (by intro k d hd; fin_cases d <;> simp_all)
    (by intro k; simp) (by intro k; simp) (by simp) (by simp) x

end OpenSBLI.Ranges
