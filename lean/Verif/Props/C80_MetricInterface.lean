import Verif.Model.MetricInterface
import Verif.Props.C30_Interface
import Verif.Props.C55_Metric

/-!
# C80: metric terms at block interfaces
-/
namespace OpenSBLI.Metric
open Ranges MultiBlock

variable {n : ℕ}

/-! ## Specification -/

/-- The derivatives of the coordinates along the index directions of the receiving block at a point of the donor: the blocks have the same index directions, except that direction `d` runs the other way when the interface joins two lower or two upper sides. -/
def continued (reversed : Bool) (d : Fin n) (dx : Matrix (Fin n) (Fin n) ℝ) : Matrix (Fin n) (Fin n) ℝ :=
  if reversed then Matrix.of fun i j => if j = d then - dx i j else dx i j else dx

/-- The metric term to be stored where the derivatives of the coordinates are `dx`. -/
noncomputable def termValue (cur str : Fin n → Bool) (dx : Matrix (Fin n) (Fin n) ℝ) : Term n → ℝ
  | .metric i j => fdMetric cur str dx i j
  | .det => detJ cur str dx

/-- Halo point of a side within the grid in all other directions. -/
def Facing (np : Fin n → ℤ) (h : ℤ) (direction : Fin n) (side : Bool) (x : Fin n → ℤ) : Prop :=
  InHalo np h h direction side x ∧ ∀ d, d ≠ direction → 0 ≤ x d ∧ x d < np d

/-- The point of the donor facing a halo point. -/
def donor (shared : Bool) (np1 np2 : Fin n → ℤ) (direction : Fin n) (side1 side2 : Bool) (x : Fin n → ℤ) : Fin n → ℤ :=
  Function.update x direction (inside shared (np1 direction) side1 (layer (np2 direction) side2 (x direction)))

/-! ## Signs -/

theorem nodup_entries (cur str : Fin n → Bool) : (storedEntries cur str).Nodup := by
  refine List.Nodup.filter _ ?_
  refine List.nodup_flatMap.2 ⟨fun i _ => (List.nodup_finRange n).map fun a b h => (Prod.mk.inj h).2, ?_⟩
  refine (List.nodup_finRange n).imp fun {i j} hij => ?_
  simp only [Function.onFun, List.disjoint_left, List.mem_map, List.mem_finRange, true_and]
  rintro p ⟨a, rfl⟩ ⟨b, hb⟩
  exact hij (Prod.mk.inj hb).1.symm

theorem mem_entries (cur str : Fin n → Bool) (i j : Fin n) : (i, j) ∈ storedEntries cur str ↔ fdValue cur str i j = .stored := by
  simp [storedEntries]

theorem mem_arrays (cur str : Fin n → Bool) (t : Term n) : t ∈ interfaceArrays cur str ↔ t = .det ∨ ∃ i j, fdValue cur str i j = .stored ∧ t = .metric i j := by
  simp only [interfaceArrays, List.mem_append, List.mem_map, List.mem_singleton, Prod.exists, mem_entries]
  constructor
  · rintro (⟨i, j, h, rfl⟩ | h)
    · exact .inr ⟨i, j, h, rfl⟩
    · exact .inl h
  · rintro (h | ⟨i, j, h, rfl⟩)
    · exact .inr h
    · exact .inl ⟨i, j, h, rfl⟩

/-- The factor of a term. -/
def sign (d : Fin n) : Term n → ℝ
  | .metric i _ => interfaceFactor d i
  | .det => -1

theorem fold_factors (cur str : Fin n → Bool) (d : Fin n) (t : Term n) (ht : t ∈ interfaceArrays cur str) (v : ℝ) :
    ((interfaceArrays cur str).zip (interfaceFactors cur str d)).foldl (fun v e => if e.1 = t then e.2 * v else v) v = sign d t * v := by
  have hz : (interfaceArrays cur str).zip (interfaceFactors cur str d) = (interfaceArrays cur str).map fun t => (t, sign d t) := by
    unfold interfaceArrays interfaceFactors
    rw [List.zip_append (by simp), List.map_append, List.zip_map']
    simp [sign]
  have hn : (interfaceArrays cur str).Nodup := by
    unfold interfaceArrays
    rw [List.nodup_append]
    refine ⟨(nodup_entries cur str).map fun a b h => ?_, by simp, ?_⟩
    · cases a; cases b; simpa using h
    · simp only [List.mem_map, List.mem_singleton]
      rintro a ⟨p, -, rfl⟩ c rfl
      simp
  rw [hz]
  generalize interfaceArrays cur str = l at ht hn
  have hskip : ∀ (l : List (Term n)), t ∉ l → ∀ v, (l.map fun t => (t, sign d t)).foldl (fun v e => if e.1 = t then e.2 * v else v) v = v := by
    intro l hl
    induction l with
    | nil => intro v; rfl
    | cons a l ih =>
      intro v
      have ha : a ≠ t := fun h => hl (by simp [h])
      simp only [List.map_cons, List.foldl_cons, if_neg ha]
      exact ih (fun h => hl (List.mem_cons_of_mem _ h)) v
  induction l generalizing v with
  | nil => simp at ht
  | cons a l ih =>
    rw [List.nodup_cons] at hn
    simp only [List.map_cons, List.foldl_cons]
    by_cases ha : a = t
    · subst ha
      rw [if_pos rfl, hskip l hn.1]
    · rw [if_neg ha]
      exact ih v (by simpa [Ne.symm ha] using ht) hn.2

/-- Metric terms of the reversed coordinates. -/
theorem reversed_value (cur str : Fin n → Bool) (d : Fin n) (hd : cur d = true ∨ str d = true) (dx : Matrix (Fin n) (Fin n) ℝ) (t : Term n) (ht : t ∈ interfaceArrays cur str) :
    sign d t * termValue cur str dx t = termValue cur str (continued true d dx) t := by
  have hrow : ∀ i, fdValue cur str i d ≠ .one := by
    intro i h
    unfold fdValue m2 at h
    (split_ifs at h; all_goals simp_all)
  have hJ : jacobian cur str (continued true d dx) = jacobian cur str dx * Matrix.diagonal (interfaceFactor d) := by
    funext i j
    rw [Matrix.mul_diagonal]
    simp only [jacobian, continued, Matrix.of_apply, interfaceFactor, if_true]
    by_cases hj : j = d
    · subst hj
      have := hrow i
      rcases h : fdValue cur str i j <;> simp_all
    · simp [hj]
  have hdet : (Matrix.diagonal (interfaceFactor d)).det = -1 := by
    rw [Matrix.det_diagonal, Finset.prod_eq_single d]
    · simp [interfaceFactor]
    · intro b _ hb; simp [interfaceFactor, hb]
    · simp
  have hinv : (Matrix.diagonal (interfaceFactor d))⁻¹ = Matrix.diagonal (interfaceFactor d) := by
    refine Matrix.inv_eq_right_inv ?_
    rw [Matrix.diagonal_mul_diagonal, ← Matrix.diagonal_one]
    congr 1
    funext i
    unfold interfaceFactor
    split_ifs <;> norm_num
  rcases (mem_arrays cur str t).1 ht with rfl | ⟨i, j, hs, rfl⟩
  · simp only [sign, termValue, detJ]
    rw [hJ, Matrix.det_mul, hdet, mul_comm]
  · have hentry : ∀ M : Matrix (Fin n) (Fin n) ℝ, M.adjugate i j / M.det = M⁻¹ i j := by
      intro M
      rw [Matrix.inv_def, Matrix.smul_apply, smul_eq_mul, Ring.inverse_eq_inv', div_eq_inv_mul]
    simp only [sign, termValue, fdMetric, Matrix.of_apply, hs]
    rw [hentry, hentry, hJ, Matrix.mul_inv_rev, hinv, Matrix.diagonal_mul]

/-! ## The phase -/

section Phase
variable [NeZero n] {B : ℕ} {cur str : Fin n → Bool} {shared : Bool} {blocks : Fin B → Block n} {h : ℤ}

/-- Interfaces with the orientation as fourth entry of the match, between sides of one direction. -/
def Link.Plain (l : Link n B) : Prop := l.target = ⟨l.direction, l.target.side, some (decide (l.side = l.target.side))⟩

/-- All halos have depth `h`. -/
def Uniform (blocks : Fin B → Block n) (h : ℤ) : Prop := ∀ b d, minHalo ((blocks b).boundaryHalos d).1 = -h ∧ maxHalo ((blocks b).boundaryHalos d).2 = h

/-- Steps of the phase. -/
inductive MStep (n B : ℕ) where
  | own (b : Fin B)
  | push (l : Link n B)
  | flip (l : Link n B)

variable (cur str shared blocks) in
noncomputable def MStep.run (own : Fin B → (Term n → (Fin n → ℤ) → ℝ) → Term n → (Fin n → ℤ) → ℝ) (st : Arrays n B) : MStep n B → Arrays n B
  | .own b => Function.update st b (own b (st b))
  | .push l => pushTerms cur str shared blocks st l
  | .flip l => flipTerms cur str blocks st l

def msteps (links : Fin B → List (Link n B)) (bs : List (Fin B)) : List (MStep n B) := bs.flatMap fun b => .own b :: ((links b).map .push ++ (links b).map .flip)

theorem phase_msteps (own : Fin B → (Term n → (Fin n → ℤ) → ℝ) → Term n → (Fin n → ℤ) → ℝ) (links : Fin B → List (Link n B)) (st : Arrays n B) :
    metricPhase cur str shared blocks own links st = (msteps links (List.finRange B)).foldl (MStep.run cur str shared blocks own) st := by
  unfold metricPhase msteps
  generalize List.finRange B = bs
  induction bs generalizing st with
  | nil => rfl
  | cons b bs ih =>
    rw [List.foldl_cons, ih, List.flatMap_cons, List.foldl_append, List.foldl_cons, List.foldl_append, List.foldl_map, List.foldl_map]
    rfl

omit [NeZero n] in
theorem visits_iff (hu : Uniform blocks h) (hh : 0 ≤ h) (b : Fin B) (hnp : ∀ d, 0 ≤ (blocks b).np d) (d : Fin n) (side : Bool) (x : Fin n → ℤ) :
    (interfacePlaneKernel (blocks b) d side).visits x ↔ InHalo (blocks b).np h h d side x := by
  unfold Kernel.visits InHalo
  have hb : ∀ e, (interfacePlaneKernel (blocks b) d side).totalRange e =
      if e = d then (if side then ((blocks b).np e, (blocks b).np e + h) else (-h, 0)) else (-h, (blocks b).np e + h) := by
    intro e
    have := hu b e
    by_cases he : e = d
    · subst he
      have h1 : minHalo (∅ : Finset HaloType) = 0 := by simp [minHalo]
      have h2 : maxHalo (∅ : Finset HaloType) = 0 := by simp [maxHalo]
      cases side <;> simp [interfacePlaneKernel, Kernel.totalRange, Block.ranges, this, h1, h2]
    · simp [interfacePlaneKernel, Kernel.totalRange, Block.ranges, this, he]
  simp only [hb]
  constructor
  · intro hx
    refine ⟨fun e => ?_, ?_⟩
    · have := hx e
      have := hnp e
      split_ifs at * <;> simp at * <;> omega
    · have := hx d
      cases side <;> simp at this ⊢ <;> omega
  · rintro ⟨hx, hs⟩ e
    have := hx e
    split_ifs with he h2
    · subst he; simp [h2] at hs; simp; omega
    · subst he; simp [h2] at hs; simp; omega
    · simpa using this

/-- A step leaves a value of a block alone. -/
def Leaves (own : Fin B → (Term n → (Fin n → ℤ) → ℝ) → Term n → (Fin n → ℤ) → ℝ) (cur str : Fin n → Bool) (shared : Bool) (blocks : Fin B → Block n) (b : Fin B) (t : Term n) (y : Fin n → ℤ) (s : MStep n B) : Prop :=
  ∀ st, s.run cur str shared blocks own st b t y = st b t y

theorem fold_leaves {own : Fin B → (Term n → (Fin n → ℤ) → ℝ) → Term n → (Fin n → ℤ) → ℝ} {b : Fin B} {t : Term n} {y : Fin n → ℤ} (steps : List (MStep n B))
    (hs : ∀ s ∈ steps, Leaves own cur str shared blocks b t y s) (st : Arrays n B) : steps.foldl (MStep.run cur str shared blocks own) st b t y = st b t y := by
  induction steps generalizing st with
  | nil => rfl
  | cons s steps ih => rw [List.foldl_cons, ih (fun s' h' => hs s' (List.mem_cons_of_mem _ h')), hs s (List.mem_cons_self ..)]

variable (hu : Uniform blocks h) (hh : 0 ≤ h) (hnp : ∀ b d, 0 ≤ (blocks b).np d)
include hu hh hnp

theorem push_exchanged (l : Link n B) (hl : Link.Plain l) (st : Arrays n B) (t : Term n) (ht : t ∈ interfaceArrays cur str) :
    Exchanged shared (blocks l.src).np (blocks l.dst).np h h l.direction l.side l.target.side (st l.src t) (st l.dst t) (pushTerms cur str shared blocks st l l.dst t) := by
  have hv : haloValues (blocks l.dst) = fun _ => (-h, h) := by
    funext d
    simp [haloValues, hu l.dst 0]
  simp only [pushTerms, Function.update_self, if_pos ht, hv]
  unfold Link.Plain at hl
  have := aligned shared (blocks l.src).np (blocks l.dst).np h h hh hh l.direction (hnp _ _) l.side l.target.side (some (decide (l.side = l.target.side))) rfl (fun _ _ => rfl) (st l.src t) (st l.dst t)
  rw [← hl] at this
  exact this

theorem push_leaves (own : Fin B → (Term n → (Fin n → ℤ) → ℝ) → Term n → (Fin n → ℤ) → ℝ) (l : Link n B) (hl : Link.Plain l) (b : Fin B) (t : Term n) (ht : t ∈ interfaceArrays cur str) (y : Fin n → ℤ)
    (hy : l.dst = b → ¬ InHalo (blocks b).np h h l.direction l.target.side y) : Leaves own cur str shared blocks b t y (.push l) := by
  intro st
  by_cases e : l.dst = b
  · have := (push_exchanged (shared := shared) hu hh hnp l hl st t ht).2 y (by rw [e]; exact hy e)
    rw [e] at this
    exact this
  · simp only [MStep.run, pushTerms]
    rw [Function.update_of_ne (Ne.symm e)]

omit [NeZero n] in
theorem flip_value (l : Link n B) (hl : Link.Plain l) (st : Arrays n B) (t : Term n) (ht : t ∈ interfaceArrays cur str) (y : Fin n → ℤ) :
    (InHalo (blocks l.dst).np h h l.direction l.target.side y → flipTerms cur str blocks st l l.dst t y = sign l.direction t * st l.dst t y) ∧
    (¬ InHalo (blocks l.dst).np h h l.direction l.target.side y → flipTerms cur str blocks st l l.dst t y = st l.dst t y) := by
  have hd : l.target.direction = l.direction := by rw [hl]
  have hv := visits_iff hu hh l.dst (hnp _) l.direction l.target.side y
  simp only [flipTerms, Function.update_self, signKernel, hd]
  refine ⟨fun hi => ?_, fun hi => ?_⟩
  · rw [if_pos (hv.2 hi)]
    exact fold_factors cur str l.direction t ht _
  · rw [if_neg fun h => hi (hv.1 h)]

theorem flip_leaves (own : Fin B → (Term n → (Fin n → ℤ) → ℝ) → Term n → (Fin n → ℤ) → ℝ) (l : Link n B) (hl : Link.Plain l) (b : Fin B) (t : Term n) (ht : t ∈ interfaceArrays cur str) (y : Fin n → ℤ)
    (hy : l.dst = b → ¬ InHalo (blocks b).np h h l.direction l.target.side y) : Leaves own cur str shared blocks b t y (.flip l) := by
  intro st
  by_cases e : l.dst = b
  · have := (flip_value (cur := cur) (str := str) hu hh hnp l hl st t ht y).2 (by rw [e]; exact hy e)
    rw [e] at this
    exact this
  · simp only [MStep.run, flipTerms]
    rw [Function.update_of_ne (Ne.symm e)]

end Phase

/-- Every halo point facing an interface holds the value of the donor with the sign of the term. -/
theorem interface_terms [NeZero n] {B : ℕ} (cur str : Fin n → Bool) (shared : Bool) (blocks : Fin B → Block n) (h : ℤ) (hu : Uniform blocks h) (hh : 0 ≤ h) (hnp : ∀ b d, 0 ≤ (blocks b).np d)
    (own : Fin B → (Term n → (Fin n → ℤ) → ℝ) → Term n → (Fin n → ℤ) → ℝ) (links : Fin B → List (Link n B)) (hl : ∀ b, ∀ l ∈ links b, l.src = b ∧ Link.Plain l)
    (hsize : ∀ b, ∀ l ∈ links b, h + (if shared then 1 else 0) ≤ (blocks b).np l.direction ∧ ∀ d, d ≠ l.direction → (blocks b).np d = (blocks l.dst).np d)
    (hone : (((List.finRange B).flatMap links).map fun l => (l.dst, l.direction, l.target.side)).Nodup)
    (hown : ∀ b, ∀ l ∈ links b, ∀ x, Facing (blocks l.dst).np h l.direction l.target.side x → ∀ f t, own l.dst f t x = f t x)
    (st : Arrays n B) (b : Fin B) (l : Link n B) (hm : l ∈ links b) (x : Fin n → ℤ) (hx : Facing (blocks l.dst).np h l.direction l.target.side x) (t : Term n) (ht : t ∈ interfaceArrays cur str) :
    metricPhase cur str shared blocks own links st l.dst t x =
      sign l.direction t * metricPhase cur str shared blocks own links st b t (donor shared (blocks b).np (blocks l.dst).np l.direction l.side l.target.side x) := by
  obtain ⟨pre, post, hbs⟩ := List.append_of_mem (List.mem_finRange b)
  obtain ⟨pl, ql, hls⟩ := List.append_of_mem hm
  have hpost : b ∉ post := by
    have := List.nodup_finRange B
    rw [hbs, List.nodup_append] at this
    exact (List.nodup_cons.1 this.2.1).1
  obtain ⟨hsrc, hpl⟩ := hl b l hm
  set z := donor shared (blocks b).np (blocks l.dst).np l.direction l.side l.target.side x with hz
  -- the donor point is in the grid
  have hzg : ∀ d, 0 ≤ z d ∧ z d < (blocks b).np d := by
    intro d
    have h3 := hsize b l hm
    by_cases e : d = l.direction
    · subst e
      have h1 := hx.1.2
      have h2 := hx.1.1 l.direction
      rw [hz, donor, Function.update_self]
      unfold inside layer
      cases hs : l.side <;> cases ht : l.target.side <;> cases shared <;> simp [ht] at h1 h3 ⊢ <;> omega
    · rw [hz, donor, Function.update_of_ne e, h3.2 d e]
      exact hx.2 d e
  have hgrid : ∀ c (d : Fin n) (side : Bool), c = b → ¬ InHalo (blocks b).np h h d side z := by
    rintro c d side - ⟨-, hs⟩
    have := hzg d
    cases side <;> simp at hs <;> omega
  -- other links do not fill the face
  have hother : ∀ l' : Link n B, (l'.dst, l'.direction, l'.target.side) ≠ (l.dst, l.direction, l.target.side) → l'.dst = l.dst → ¬ InHalo (blocks l.dst).np h h l'.direction l'.target.side x := by
    rintro l' hne hd ⟨-, hs⟩
    by_cases ed : l'.direction = l.direction
    · have hside : l'.target.side ≠ l.target.side := fun es => hne (by rw [hd, ed, es])
      have h1 := hx.1.2
      have h2 := hnp l.dst l.direction
      rw [ed] at hs
      cases h4 : l'.target.side <;> cases h5 : l.target.side <;> simp [h4, h5] at hs h1 hside <;> omega
    · have := hx.2 _ ed
      cases h4 : l'.target.side <;> simp [h4] at hs <;> omega
  rw [hbs, List.flatMap_append, List.flatMap_cons, hls, List.map_append, List.map_append, List.map_append, List.map_cons] at hone
  have hne : ∀ l', l' ∈ pl ∨ l' ∈ ql ∨ (∃ c ∈ post, l' ∈ links c) → (l'.dst, l'.direction, l'.target.side) ≠ (l.dst, l.direction, l.target.side) := by
    intro l' h' he
    have h1 := (List.nodup_append.1 hone).2.1
    rw [List.append_assoc, List.cons_append] at h1
    have h2 := List.nodup_middle.1 h1
    rw [List.nodup_cons] at h2
    refine h2.1 ?_
    rw [← he]
    rcases h' with h' | h' | ⟨c, hc, h'⟩
    · exact List.mem_append_left _ (List.mem_map.2 ⟨l', h', rfl⟩)
    · exact List.mem_append_right _ (List.mem_append_left _ (List.mem_map.2 ⟨l', h', rfl⟩))
    · exact List.mem_append_right _ (List.mem_append_right _ (List.mem_map.2 ⟨l', List.mem_flatMap.2 ⟨c, hc, h'⟩, rfl⟩))
  have hplain : ∀ l', l' ∈ pl ∨ l' ∈ ql ∨ (∃ c ∈ post, l' ∈ links c) → Link.Plain l' := by
    rintro l' (h' | h' | ⟨c, -, h'⟩)
    · exact (hl b l' (by rw [hls]; simp [h'])).2
    · exact (hl b l' (by rw [hls]; simp [h'])).2
    · exact (hl c l' h').2
  rw [phase_msteps, hbs]
  have hsteps : msteps links (pre ++ b :: post) = (msteps links pre ++ .own b :: pl.map .push) ++ .push l :: ((ql.map .push ++ pl.map .flip) ++ .flip l :: (ql.map .flip ++ msteps links post)) := by
    simp [msteps, hls]
  rw [hsteps, List.foldl_append, List.foldl_cons, List.foldl_append, List.foldl_cons]
  generalize (msteps links pre ++ MStep.own b :: pl.map .push).foldl (MStep.run cur str shared blocks own) st = s0
  -- what the later steps leave alone
  have hmid : ∀ s ∈ ql.map (MStep.push (n := n) (B := B)) ++ pl.map .flip, (∃ l', s = .push l' ∧ (l' ∈ pl ∨ l' ∈ ql ∨ (∃ c ∈ post, l' ∈ links c))) ∨ (∃ l', s = .flip l' ∧ (l' ∈ pl ∨ l' ∈ ql ∨ (∃ c ∈ post, l' ∈ links c))) := by
    intro s hs
    simp only [List.mem_append, List.mem_map] at hs
    rcases hs with ⟨l', h', rfl⟩ | ⟨l', h', rfl⟩
    · exact .inl ⟨l', rfl, .inr (.inl h')⟩
    · exact .inr ⟨l', rfl, .inl h'⟩
  have hend : ∀ s ∈ ql.map (MStep.flip (n := n) (B := B)) ++ msteps links post, (∃ l', s = .push l' ∧ (l' ∈ pl ∨ l' ∈ ql ∨ (∃ c ∈ post, l' ∈ links c))) ∨ (∃ l', s = .flip l' ∧ (l' ∈ pl ∨ l' ∈ ql ∨ (∃ c ∈ post, l' ∈ links c))) ∨
      ∃ c ∈ post, s = .own c := by
    intro s hs
    simp only [List.mem_append, List.mem_map, msteps, List.mem_flatMap, List.mem_cons] at hs
    rcases hs with ⟨l', h', rfl⟩ | ⟨c, hc, rfl | ⟨l', h', rfl⟩ | ⟨l', h', rfl⟩⟩
    · exact .inr (.inl ⟨l', rfl, .inr (.inl h')⟩)
    · exact .inr (.inr ⟨c, hc, rfl⟩)
    · exact .inl ⟨l', rfl, .inr (.inr ⟨c, hc, h'⟩)⟩
    · exact .inr (.inl ⟨l', rfl, .inr (.inr ⟨c, hc, h'⟩)⟩)
  have hgp : ∀ l', Link.Plain l' → Leaves own cur str shared blocks b t z (.push l') := fun l' h' => push_leaves hu hh hnp own l' h' b t ht z fun e => hgrid _ _ _ e
  have hgf : ∀ l', Link.Plain l' → Leaves own cur str shared blocks b t z (.flip l') := fun l' h' => flip_leaves hu hh hnp own l' h' b t ht z fun e => hgrid _ _ _ e
  have hfp : ∀ l', l' ∈ pl ∨ l' ∈ ql ∨ (∃ c ∈ post, l' ∈ links c) → Leaves own cur str shared blocks l.dst t x (.push l') := fun l' h' =>
    push_leaves hu hh hnp own l' (hplain l' h') l.dst t ht x (hother l' (hne l' h'))
  have hff : ∀ l', l' ∈ pl ∨ l' ∈ ql ∨ (∃ c ∈ post, l' ∈ links c) → Leaves own cur str shared blocks l.dst t x (.flip l') := fun l' h' =>
    flip_leaves hu hh hnp own l' (hplain l' h') l.dst t ht x (hother l' (hne l' h'))
  -- the halo point
  rw [fold_leaves (b := l.dst) (y := x) _ (fun s hs => by
    rcases hend s hs with ⟨l', rfl, h'⟩ | ⟨l', rfl, h'⟩ | ⟨c, hc, rfl⟩
    · exact hfp l' h'
    · exact hff l' h'
    · intro st
      by_cases e : c = l.dst
      · subst e; simp [MStep.run, hown b l hm x hx]
      · simp [MStep.run, Function.update_of_ne (Ne.symm e)])]
  have hflip := fun st => (flip_value (cur := cur) (str := str) hu hh hnp l hpl st t ht x).1 hx.1
  rw [show ∀ st, MStep.run cur str shared blocks own st (.flip l) = flipTerms cur str blocks st l from fun _ => rfl, hflip]
  rw [fold_leaves (b := l.dst) (y := x) _ (fun s hs => by
    rcases hmid s hs with ⟨l', rfl, h'⟩ | ⟨l', rfl, h'⟩
    · exact hfp l' h'
    · exact hff l' h')]
  congr 1
  -- the donor point
  rw [fold_leaves (b := b) (y := z) _ (fun s hs => by
    rcases hend s hs with ⟨l', rfl, h'⟩ | ⟨l', rfl, h'⟩ | ⟨c, hc, rfl⟩
    · exact hgp l' (hplain l' h')
    · exact hgf l' (hplain l' h')
    · intro st
      have : b ≠ c := fun e => hpost (e ▸ hc)
      simp [MStep.run, Function.update_of_ne this])]
  rw [← show ∀ st, MStep.run cur str shared blocks own st (.flip l) = flipTerms cur str blocks st l from fun _ => rfl, hgf l hpl, fold_leaves (b := b) (y := z) _ (fun s hs => by
    rcases hmid s hs with ⟨l', rfl, h'⟩ | ⟨l', rfl, h'⟩
    · exact hgp l' (hplain l' h')
    · exact hgf l' (hplain l' h')), hgp l hpl]
  have := (push_exchanged (shared := shared) hu hh hnp l hpl s0 t ht).1 x hx.1
  rw [hsrc] at this
  exact this

/-- Values in the grid are those of the kernels of the block itself. -/
theorem grid_terms [NeZero n] {B : ℕ} (cur str : Fin n → Bool) (shared : Bool) (blocks : Fin B → Block n) (h : ℤ) (hu : Uniform blocks h) (hh : 0 ≤ h) (hnp : ∀ b d, 0 ≤ (blocks b).np d)
    (own : Fin B → (Term n → (Fin n → ℤ) → ℝ) → Term n → (Fin n → ℤ) → ℝ) (links : Fin B → List (Link n B)) (hl : ∀ b, ∀ l ∈ links b, l.src = b ∧ Link.Plain l)
    (st : Arrays n B) (b : Fin B) (z : Fin n → ℤ) (hz : ∀ d, 0 ≤ z d ∧ z d < (blocks b).np d) (t : Term n) (ht : t ∈ interfaceArrays cur str) :
    ∃ f, metricPhase cur str shared blocks own links st b t z = own b f t z := by
  obtain ⟨pre, post, hbs⟩ := List.append_of_mem (List.mem_finRange b)
  have hpost : b ∉ post := by
    have := List.nodup_finRange B
    rw [hbs, List.nodup_append] at this
    exact (List.nodup_cons.1 this.2.1).1
  rw [phase_msteps, hbs, show msteps links (pre ++ b :: post) = msteps links pre ++ .own b :: ((links b).map .push ++ (links b).map .flip ++ msteps links post) by simp [msteps], List.foldl_append, List.foldl_cons]
  generalize (msteps links pre).foldl (MStep.run cur str shared blocks own) st = s0
  have hgrid : ∀ (d : Fin n) (side : Bool), ¬ InHalo (blocks b).np h h d side z := by
    rintro d side ⟨-, hs⟩
    have := hz d
    cases side <;> simp at hs <;> omega
  have hend : ∀ s ∈ (links b).map (MStep.push (n := n) (B := B)) ++ (links b).map .flip ++ msteps links post, (∃ l, (s = .push l ∨ s = .flip l) ∧ Link.Plain l) ∨ ∃ c ∈ post, s = .own c := by
    intro s hs
    simp only [List.mem_append, List.mem_map, msteps, List.mem_flatMap, List.mem_cons] at hs
    rcases hs with (⟨l', h', rfl⟩ | ⟨l', h', rfl⟩) | ⟨c, hc, rfl | ⟨l', h', rfl⟩ | ⟨l', h', rfl⟩⟩
    · exact .inl ⟨l', .inl rfl, (hl _ _ h').2⟩
    · exact .inl ⟨l', .inr rfl, (hl _ _ h').2⟩
    · exact .inr ⟨c, hc, rfl⟩
    · exact .inl ⟨l', .inl rfl, (hl _ _ h').2⟩
    · exact .inl ⟨l', .inr rfl, (hl _ _ h').2⟩
  rw [fold_leaves (b := b) (y := z) _ (fun s hs => by
    rcases hend s hs with ⟨l', rfl | rfl, h'⟩ | ⟨c, hc, rfl⟩
    · exact push_leaves hu hh hnp own l' h' b t ht z fun _ => hgrid _ _
    · exact flip_leaves hu hh hnp own l' h' b t ht z fun _ => hgrid _ _
    · intro st
      have : b ≠ c := fun e => hpost (e ▸ hc)
      simp [MStep.run, Function.update_of_ne this])]
  exact ⟨s0 b, by simp [MStep.run]⟩

/-- Blocks with interfaces on which metric terms are evaluated: halos of depth `h` everywhere, interfaces between sides of one direction whose faces have the same points, with the orientation as fourth entry of the match; every face is
filled by at most one interface. The kernels of the block itself, `own`, store the terms for the derivatives `dx b y` of the coordinates at every grid point `y` and leave the faces of interfaces alone. -/
structure Arrangement [NeZero n] {B : ℕ} (cur str : Fin n → Bool) (shared : Bool) (blocks : Fin B → Block n) (h : ℤ) (own : Fin B → (Term n → (Fin n → ℤ) → ℝ) → Term n → (Fin n → ℤ) → ℝ)
    (links : Fin B → List (Link n B)) (dx : Fin B → (Fin n → ℤ) → Matrix (Fin n) (Fin n) ℝ) : Prop where
  halos : Uniform blocks h
  depth : 0 ≤ h
  points : ∀ b d, 0 ≤ (blocks b).np d
  joined : ∀ b, ∀ l ∈ links b, l.src = b ∧ Link.Plain l
  sizes : ∀ b, ∀ l ∈ links b, h + (if shared then 1 else 0) ≤ (blocks b).np l.direction ∧ ∀ d, d ≠ l.direction → (blocks b).np d = (blocks l.dst).np d
  once : (((List.finRange B).flatMap links).map fun l => (l.dst, l.direction, l.target.side)).Nodup
  faces : ∀ b, ∀ l ∈ links b, ∀ x, Facing (blocks l.dst).np h l.direction l.target.side x → ∀ f t, own l.dst f t x = f t x
  evaluated : ∀ b y, (∀ d, 0 ≤ y d ∧ y d < (blocks b).np d) → ∀ f, ∀ t ∈ interfaceArrays cur str, own b f t y = termValue cur str (dx b y) t

theorem Arrangement.both [NeZero n] {B : ℕ} {cur str : Fin n → Bool} {shared : Bool} {blocks : Fin B → Block n} {h : ℤ} {own : Fin B → (Term n → (Fin n → ℤ) → ℝ) → Term n → (Fin n → ℤ) → ℝ}
    {links : Fin B → List (Link n B)} {dx : Fin B → (Fin n → ℤ) → Matrix (Fin n) (Fin n) ℝ} (hA : Arrangement cur str shared blocks h own links dx) (st : Arrays n B)
    (b : Fin B) (l : Link n B) (hm : l ∈ links b) (x : Fin n → ℤ) (hx : Facing (blocks l.dst).np h l.direction l.target.side x) (t : Term n) (ht : t ∈ interfaceArrays cur str) :
    metricPhase cur str shared blocks own links st l.dst t x = sign l.direction t * termValue cur str (dx b (donor shared (blocks b).np (blocks l.dst).np l.direction l.side l.target.side x)) t := by
  rw [interface_terms cur str shared blocks h hA.halos hA.depth hA.points own links hA.joined hA.sizes hA.once hA.faces st b l hm x hx t ht]
  have hzg : ∀ d, 0 ≤ donor shared (blocks b).np (blocks l.dst).np l.direction l.side l.target.side x d ∧ donor shared (blocks b).np (blocks l.dst).np l.direction l.side l.target.side x d < (blocks b).np d := by
    intro d
    have h3 := hA.sizes b l hm
    by_cases e : d = l.direction
    · subst e
      have h1 := hx.1.2
      have h2 := hx.1.1 l.direction
      rw [donor, Function.update_self]
      unfold inside layer
      cases hs : l.side <;> cases ht : l.target.side <;> cases shared <;> simp [ht] at h1 h3 ⊢ <;> omega
    · rw [donor, Function.update_of_ne e, h3.2 d e]
      exact hx.2 d e
  obtain ⟨f, hf⟩ := grid_terms cur str shared blocks h hA.halos hA.depth hA.points own links hA.joined st b _ hzg t ht
  rw [hf, hA.evaluated b _ hzg f t ht]

/-- **C80.** Any number of blocks of any sizes in any dimension, any flags: at an interface joining two lower or two upper sides of blocks in a direction with metric terms, every halo point facing the interface holds, for every stored term
and the determinant, the metric term in the coordinates of the receiving block at the point of the donor. Missing: interfaces between a lower and an upper side, where the claim is false (`C80_opposite_sides_wrong`), and points
in the halos of two directions (C73). -/
theorem C80_metric_terms_partial [NeZero n] {B : ℕ} {cur str : Fin n → Bool} {shared : Bool} {blocks : Fin B → Block n} {h : ℤ} {own : Fin B → (Term n → (Fin n → ℤ) → ℝ) → Term n → (Fin n → ℤ) → ℝ}
    {links : Fin B → List (Link n B)} {dx : Fin B → (Fin n → ℤ) → Matrix (Fin n) (Fin n) ℝ} (hA : Arrangement cur str shared blocks h own links dx) (st : Arrays n B)
    (b : Fin B) (l : Link n B) (hm : l ∈ links b) (hd : cur l.direction = true ∨ str l.direction = true) (hr : l.side = l.target.side)
    (x : Fin n → ℤ) (hx : Facing (blocks l.dst).np h l.direction l.target.side x) (t : Term n) (ht : t ∈ interfaceArrays cur str) :
    metricPhase cur str shared blocks own links st l.dst t x =
      termValue cur str (continued (decide (l.side = l.target.side)) l.direction (dx b (donor shared (blocks b).np (blocks l.dst).np l.direction l.side l.target.side x))) t := by
  rw [hA.both st b l hm x hx t ht, reversed_value cur str _ hd _ t ht, decide_eq_true hr]

/-- C80 (finding): at an interface between a lower and an upper side, where the direction continues, the signs are changed all the same: wherever the determinant is not zero, the halo of the receiving block holds a
determinant of the wrong sign, and so does every metric term of that direction which is not zero. -/
theorem C80_opposite_sides_wrong [NeZero n] {B : ℕ} {cur str : Fin n → Bool} {shared : Bool} {blocks : Fin B → Block n} {h : ℤ} {own : Fin B → (Term n → (Fin n → ℤ) → ℝ) → Term n → (Fin n → ℤ) → ℝ}
    {links : Fin B → List (Link n B)} {dx : Fin B → (Fin n → ℤ) → Matrix (Fin n) (Fin n) ℝ} (hA : Arrangement cur str shared blocks h own links dx) (st : Arrays n B)
    (b : Fin B) (l : Link n B) (hm : l ∈ links b) (hr : l.side ≠ l.target.side)
    (x : Fin n → ℤ) (hx : Facing (blocks l.dst).np h l.direction l.target.side x) (t : Term n) (ht : t ∈ interfaceArrays cur str) (htd : t = .det ∨ ∃ j, t = .metric l.direction j)
    (h0 : termValue cur str (dx b (donor shared (blocks b).np (blocks l.dst).np l.direction l.side l.target.side x)) t ≠ 0) :
    metricPhase cur str shared blocks own links st l.dst t x ≠
      termValue cur str (continued (decide (l.side = l.target.side)) l.direction (dx b (donor shared (blocks b).np (blocks l.dst).np l.direction l.side l.target.side x))) t := by
  rw [hA.both st b l hm x hx t ht, decide_eq_false hr, continued, if_neg (by simp)]
  have : sign l.direction t = -1 := by
    rcases htd with rfl | ⟨j, rfl⟩ <;> simp [sign, interfaceFactor]
  rw [this]
  intro he
  exact h0 (by linarith)

/-! ## Examples -/

/-- Two blocks of 10 by 6 and 8 by 6 points joined at their sides of direction 0: `side` of block 1. -/
def twoBlocks : Fin 2 → Block 2 := ![⟨![10, 6], fun _ => ({(-2, 2)}, {(-2, 2)})⟩, ⟨![8, 6], fun _ => ({(-2, 2)}, {(-2, 2)})⟩]

def twoLinks (side : Bool) : Fin 2 → List (Link 2 2) := ![[⟨0, 1, 0, false, ⟨0, side, some (!side)⟩⟩], [⟨1, 0, 0, side, ⟨0, false, some (!side)⟩⟩]]

/-- Evaluation at grid points only. -/
noncomputable def evaluate (dx : Fin 2 → (Fin 2 → ℤ) → Matrix (Fin 2) (Fin 2) ℝ) (b : Fin 2) (f : Term 2 → (Fin 2 → ℤ) → ℝ) (t : Term 2) (y : Fin 2 → ℤ) : ℝ :=
  if ∀ d, 0 ≤ y d ∧ y d < (twoBlocks b).np d then termValue (fun _ => true) (fun _ => false) (dx b y) t else f t y

theorem two_arrangement (side : Bool) (dx : Fin 2 → (Fin 2 → ℤ) → Matrix (Fin 2) (Fin 2) ℝ) : Arrangement (fun _ => true) (fun _ => false) false twoBlocks 2 (evaluate dx) (twoLinks side) dx where
  halos := fun b d => by fin_cases b <;> simp [twoBlocks, minHalo, maxHalo]
  depth := by norm_num
  points := fun b d => by fin_cases b <;> fin_cases d <;> simp [twoBlocks]
  joined := fun b l hl => by
    fin_cases b <;> simp [twoLinks] at hl <;> subst hl <;> cases side <;> simp [Link.Plain]
  sizes := fun b l hl => by
    fin_cases b <;> simp [twoLinks] at hl <;> subst hl <;> simp [twoBlocks]
  once := by cases side <;> decide
  faces := fun b l hl x hx f t => by
    unfold evaluate
    rw [if_neg]
    intro hg
    have h1 := hx.1.2
    have h2 := hg l.direction
    split_ifs at h1 <;> omega
  evaluated := fun b y hy f t _ => if_pos hy

/-- Joined at their lower sides, the metric terms in the halo of block 1 are those of the reversed direction. -/
example (dx : Fin 2 → (Fin 2 → ℤ) → Matrix (Fin 2) (Fin 2) ℝ) (st : Arrays 2 2) :
    metricPhase (fun _ => true) (fun _ => false) false twoBlocks (evaluate dx) (twoLinks false) st 1 .det ![-1, 3] = detJ (fun _ => true) (fun _ => false) (continued true 0 (dx 0 ![0, 3])) := by
  have := C80_metric_terms_partial (two_arrangement false dx) st 0 ⟨0, 1, 0, false, ⟨0, false, some true⟩⟩ (by simp [twoLinks]) (.inl rfl) rfl ![-1, 3] (by
    refine ⟨⟨fun d => ?_, by simp⟩, fun d hd => ?_⟩
    · fin_cases d <;> simp [twoBlocks]
    · fin_cases d <;> simp [twoBlocks] at hd ⊢) .det (by simp [mem_arrays])
  rw [this]
  have hd : donor false (twoBlocks 0).np (twoBlocks 1).np (0 : Fin 2) false false ![-1, 3] = ![0, 3] := by
    funext d; fin_cases d <;> simp [donor, inside, layer]
  simp [termValue, hd]

/-- Next to each other (lower side of block 0, upper side of block 1), on a Cartesian grid: the determinant in the halo has the wrong sign. -/
example (st : Arrays 2 2) : metricPhase (fun _ => true) (fun _ => false) false twoBlocks (evaluate fun _ _ => 1) (twoLinks true) st 1 .det ![8, 3] ≠ 1 := by
  have h1 : detJ (fun _ => true) (fun _ => false) (1 : Matrix (Fin 2) (Fin 2) ℝ) = 1 := by
    have : jacobian (fun _ => true) (fun _ => false) (1 : Matrix (Fin 2) (Fin 2) ℝ) = 1 := by
      funext i j; simp [jacobian, fdValue, m2]
    rw [detJ, this, Matrix.det_one]
  have := C80_opposite_sides_wrong (two_arrangement true fun _ _ => 1) st 0 ⟨0, 1, 0, false, ⟨0, true, some false⟩⟩ (by simp [twoLinks]) (by decide) ![8, 3] (by
    refine ⟨⟨fun d => ?_, by simp [twoBlocks]⟩, fun d hd => ?_⟩
    · fin_cases d <;> simp [twoBlocks]
    · fin_cases d <;> simp [twoBlocks] at hd ⊢) .det (by simp [mem_arrays]) (.inl rfl) (by simp [termValue, h1])
  simpa [termValue, continued, h1] using this

end OpenSBLI.Metric
