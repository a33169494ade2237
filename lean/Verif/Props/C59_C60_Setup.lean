import Verif.Model.Setup
import Mathlib.Data.List.Basic
import Mathlib.Data.List.Nodup
import Mathlib.Data.List.Perm.Basic
import Mathlib.Tactic.Common

/-!
# C59 boundary conditions of the faces, C60 order of equation classes
-/
namespace OpenSBLI.Setup

/-! ## C59 -/

section
variable {A : Type}

theorem pairs_get (n : ℕ) (l : List A) (h : l.length = n * 2) (d : ℕ) :
    (pairs l)[d]? = (l[2 * d]?).bind fun a => (l[2 * d + 1]?).map fun b => (a, b) := by
  induction n generalizing l d with
  | zero => match l, h with | [], _ => simp [pairs]
  | succ n ih =>
    match l, h with
    | [x], h => simp only [List.length_cons, List.length_nil] at h; omega
    | x :: y :: l, h =>
      rw [pairs]
      cases d with
      | zero => simp
      | succ d =>
        rw [List.getElem?_cons_succ, ih l (by simp only [List.length_cons] at h; omega) d]
        rfl

theorem applied_pairs (n : ℕ) (l : List A) (h : l.length = n * 2) : applied (pairs l) = l := by
  induction n generalizing l with
  | zero => match l, h with | [], _ => rfl
  | succ n ih =>
    match l, h with
    | [x], h => simp only [List.length_cons, List.length_nil] at h; omega
    | x :: y :: l, h =>
      have := ih l (by simp only [List.length_cons] at h; omega)
      rw [pairs, applied, List.flatMap_cons]
      rw [applied] at this
      rw [this]; rfl

/-- C59: a list is accepted exactly when it has two conditions for each direction. -/
theorem C59_accepted_iff (ndim : ℕ) (types : List A) : (∃ bt, setBoundaryTypes ndim types = some bt) ↔ types.length = 2 * ndim := by
  unfold setBoundaryTypes
  split
  · rename_i h; exact ⟨fun ⟨_, e⟩ => by simp at e, fun e => absurd (by omega) h⟩
  · rename_i h; exact ⟨fun _ => by omega, fun _ => ⟨_, rfl⟩⟩

/-- C59: the condition of direction `d` and side `s` is entry `2 d + s` of the list. -/
theorem C59_assigned_pairwise (ndim : ℕ) (types : List A) (bt : List (A × A)) (h : setBoundaryTypes ndim types = some bt) (d s : ℕ) (hd : d < ndim)
    (hs : s < 2) : (at? bt d s).isSome ∧ at? bt d s = types[2 * d + s]? := by
  unfold setBoundaryTypes at h
  split at h
  · cases h
  · rename_i hl
    rw [ne_eq, not_not] at hl
    cases h
    have := pairs_get ndim types hl d
    have h0 : types[2 * d]? = some (types[2 * d]'(by omega)) := List.getElem?_eq_getElem _
    have h1 : types[2 * d + 1]? = some (types[2 * d + 1]'(by omega)) := List.getElem?_eq_getElem _
    rw [h0, h1] at this
    simp only [Option.bind_some, Option.map_some] at this
    have hs' : s = 0 ∨ s = 1 := by omega
    rcases hs' with rfl | rfl
    · simp [at?, this, h0]
    · simp [at?, this, h1]

/-- C59: applying boundary conditions applies every one of the list once, in the order of the list. -/
theorem C59_applied_in_order (ndim : ℕ) (types : List A) (bt : List (A × A)) (h : setBoundaryTypes ndim types = some bt) : applied bt = types := by
  unfold setBoundaryTypes at h
  split at h
  · cases h
  · rename_i hl
    rw [ne_eq, not_not] at hl
    cases h
    exact applied_pairs ndim types hl
end

variable {B : Type}

/-- The faces of a block. -/
def faces (ndim : ℕ) : List (ℕ × ℕ) := (List.range ndim).flatMap fun d => [(d, 0), (d, 1)]

/-- Every face has exactly one condition acting on it; a condition acts on the face given by its own direction and side. -/
def EveryFaceOnce (ndim : ℕ) (types : List (Bc B)) : Prop := (types.map fun b => (b.direction, b.side)).Perm (faces ndim)

theorem faces_get (ndim d s : ℕ) (hd : d < ndim) (hs : s < 2) : (faces ndim)[2 * d + s]? = some (d, s) := by
  have : ∀ n, (faces n).length = 2 * n := by
    intro n
    induction n with
    | zero => rfl
    | succ n ih => rw [faces, List.range_succ, List.flatMap_append, ← faces, List.length_append, ih]; simp; omega
  induction ndim with
  | zero => omega
  | succ n ih =>
    rw [faces, List.range_succ, List.flatMap_append, ← faces]
    by_cases h : d < n
    · rw [List.getElem?_append_left (by rw [this]; omega)]
      exact ih h
    · have : d = n := by omega
      subst this
      rw [List.getElem?_append_right (by rw [this]; omega), this]
      have hs' : s = 0 ∨ s = 1 := by omega
      rcases hs' with rfl | rfl <;> simp

theorem faces_length (n : ℕ) : (faces n).length = 2 * n := by
  induction n with
  | zero => rfl
  | succ n ih => rw [faces, List.range_succ, List.flatMap_append, ← faces, List.length_append, ih]; simp; omega

/-- C59: when the conditions are listed in the order of the faces they were created for, every face has exactly one condition. What is missing: nothing
checks that order, see `C59_order_not_checked`. -/
theorem C59_every_face_partial (ndim : ℕ) (types : List (Bc B)) (bt : List (Bc B × Bc B)) (h : setBoundaryTypes ndim types = some bt)
    (hown : ∀ d < ndim, ∀ s < 2, ∀ b, types[2 * d + s]? = some b → b.direction = d ∧ b.side = s) :
    EveryFaceOnce ndim (applied bt) ∧ ∀ d < ndim, ∀ s < 2, ∃ b, at? bt d s = some b ∧ b.direction = d ∧ b.side = s := by
  have hl : types.length = 2 * ndim := (C59_accepted_iff ndim types).1 ⟨bt, h⟩
  constructor
  · rw [C59_applied_in_order ndim types bt h, EveryFaceOnce]
    apply List.Perm.of_eq
    apply List.ext_getElem?
    intro i
    by_cases hi : i < 2 * ndim
    · have e : i = 2 * (i / 2) + i % 2 := by omega
      have hd : i / 2 < ndim := by omega
      have hs : i % 2 < 2 := by omega
      rw [List.getElem?_map]
      rw [e, faces_get ndim _ _ hd hs]
      have hi' : types[2 * (i / 2) + i % 2]? = some (types[2 * (i / 2) + i % 2]'(by omega)) := List.getElem?_eq_getElem _
      rw [hi']
      have := hown _ hd _ hs _ hi'
      simp [this.1, this.2]
    · rw [List.getElem?_eq_none (by simp; omega), List.getElem?_eq_none (by rw [faces_length]; omega)]
  · intro d hd s hs
    obtain ⟨h1, h2⟩ := C59_assigned_pairwise ndim types bt h d s hd hs
    obtain ⟨b, hb⟩ := Option.isSome_iff_exists.1 h1
    exact ⟨b, hb, hown d hd s hs b (by rw [← h2, hb])⟩

/-- C59, negative: a list of the right length whose conditions were all created for one face is accepted for every number of dimensions, and leaves all
other faces without a condition. -/
theorem C59_order_not_checked (ndim : ℕ) (hn : 1 ≤ ndim) (k : B) :
    ∃ bt, setBoundaryTypes ndim (List.replicate (ndim * 2) (⟨0, 0, k⟩ : Bc B)) = some bt ∧ ¬ EveryFaceOnce ndim (applied bt) ∧
      ∀ b ∈ applied bt, (b.direction, b.side) = (0, 0) := by
  obtain ⟨bt, h⟩ := (C59_accepted_iff ndim (List.replicate (ndim * 2) (⟨0, 0, k⟩ : Bc B))).2 (by simp; omega)
  refine ⟨bt, h, ?_, ?_⟩
  · rw [C59_applied_in_order _ _ _ h]
    intro hp
    have : (0, 1) ∈ faces ndim := by
      rw [faces, List.mem_flatMap]
      exact ⟨0, by simp; omega, by simp⟩
    rw [← hp.mem_iff] at this
    simp at this
  · rw [C59_applied_in_order _ _ _ h]
    intro b hb
    rw [List.eq_of_mem_replicate hb]

/-- Two dimensions. -/
example : (setBoundaryTypes 2 ["left", "right", "bottom", "top"]).bind (at? · 1 0) = some "bottom" := rfl

/-! ## C60 -/

variable {E : Type} (isCR : E → Bool)

theorem sortLoop_spec (n : ℕ) (done rest : List E) (hn : rest.length = n) :
    sortLoop isCR n done.length (((done.filter isCR).reverse ++ done.filter fun e => !isCR e) ++ rest) =
      ((done ++ rest).filter isCR).reverse ++ (done ++ rest).filter fun e => !isCR e := by
  induction n generalizing done rest with
  | zero =>
    have : rest = [] := List.length_eq_zero_iff.1 hn
    subst this
    simp [sortLoop]
  | succ n ih =>
    match rest, hn with
    | x :: rest, hn =>
      have hlen : ((done.filter isCR).reverse ++ done.filter fun e => !isCR e).length = done.length := by
        rw [List.length_append, List.length_reverse, ← List.countP_eq_length_filter, ← List.countP_eq_length_filter]
        have := List.length_eq_countP_add_countP isCR (l := done)
        simp only [Bool.not_eq_true] at this
        rw [this]
        congr 1
        apply List.countP_congr
        intro x _; simp
      have hget : (((done.filter isCR).reverse ++ done.filter fun e => !isCR e) ++ x :: rest)[done.length]? = some x := by
        rw [List.getElem?_append_right (by omega), hlen]; simp
      rw [sortLoop, hget]
      simp only
      have hih := ih (done ++ [x]) rest (by simpa using hn)
      rw [List.append_assoc done [x] rest, List.singleton_append, List.length_append, List.length_singleton] at hih
      by_cases hx : isCR x = true
      · rw [if_pos hx, List.eraseIdx_append_of_length_le (by omega), hlen, ← hih]
        congr 1
        simp [List.filter_append, hx]
      · rw [if_neg hx, ← hih]
        congr 1
        simp [List.filter_append, hx]

/-- C60, exact result: the constituent relations in reverse order, then the other classes in their order. -/
theorem C60_sorted (l : List E) : sortClasses isCR l = (l.filter isCR).reverse ++ l.filter fun e => !isCR e := by
  have := sortLoop_spec isCR l.length [] l rfl
  simpa [sortClasses] using this

/-- C60: constituent relations come first, nothing is lost or repeated, and the other classes keep their order; after any number of registrations. -/
theorem C60_constituent_relations_first (registrations : List (List E)) :
    let final := registrations.foldl (setEquations isCR) []
    final.Perm registrations.flatten ∧ final.filter (fun e => !isCR e) = registrations.flatten.filter (fun e => !isCR e) ∧
      ∃ k, (∀ e ∈ final.take k, isCR e = true) ∧ ∀ e ∈ final.drop k, isCR e = false := by
  have hperm : ∀ l : List E, (sortClasses isCR l).Perm l := by
    intro l
    rw [C60_sorted]
    exact ((List.reverse_perm _).append_right _).trans (List.filter_append_perm isCR l)
  have hfil : ∀ l : List E, (sortClasses isCR l).filter (fun e => !isCR e) = l.filter fun e => !isCR e := by
    intro l
    rw [C60_sorted, List.filter_append]
    have : (l.filter isCR).reverse.filter (fun e => !isCR e) = [] := by
      rw [List.filter_eq_nil_iff]
      intro x hx
      rw [List.mem_reverse, List.mem_filter] at hx
      simp [hx.2]
    rw [this, List.nil_append, List.filter_filter]
    simp
  have hfirst : ∀ l : List E, ∃ k, (∀ e ∈ (sortClasses isCR l).take k, isCR e = true) ∧ ∀ e ∈ (sortClasses isCR l).drop k, isCR e = false := by
    intro l
    refine ⟨(l.filter isCR).reverse.length, ?_⟩
    rw [C60_sorted, List.take_left, List.drop_left]
    exact ⟨fun e he => (List.mem_filter.1 (List.mem_reverse.1 he)).2, fun e he => by simpa using (List.mem_filter.1 he).2⟩
  have key : ∀ (regs : List (List E)) (acc : List E),
      (∃ k, (∀ e ∈ acc.take k, isCR e = true) ∧ ∀ e ∈ acc.drop k, isCR e = false) →
      (regs.foldl (setEquations isCR) acc).Perm (acc ++ regs.flatten) ∧
      (regs.foldl (setEquations isCR) acc).filter (fun e => !isCR e) = (acc ++ regs.flatten).filter (fun e => !isCR e) ∧
      ∃ k, (∀ e ∈ (regs.foldl (setEquations isCR) acc).take k, isCR e = true) ∧
        ∀ e ∈ (regs.foldl (setEquations isCR) acc).drop k, isCR e = false := by
    intro regs
    induction regs with
    | nil => intro acc hk; simpa using hk
    | cons r regs ih =>
      intro acc _
      rw [List.foldl_cons]
      obtain ⟨h1, h2, h3⟩ := ih (setEquations isCR acc r) (hfirst _)
      refine ⟨?_, ?_, h3⟩
      · rw [List.flatten_cons, ← List.append_assoc]
        exact h1.trans ((hperm _).append_right _)
      · rw [h2, List.flatten_cons, ← List.append_assoc, List.filter_append, List.filter_append]
        congr 1
        exact hfil _
  simpa using key registrations [] ⟨0, by simp, by simp⟩

/-- C60, a consequence users must know: registering two constituent relations evaluates them in reverse order, and a further registration of anything reverses
them again. -/
theorem C60_constituent_order_reversed (l new : List E) (hnew : ∀ e ∈ new, isCR e = false) :
    (setEquations isCR [] l).filter isCR = (l.filter isCR).reverse ∧
      (setEquations isCR (setEquations isCR [] l) new).filter isCR = l.filter isCR := by
  have h : ∀ l : List E, (sortClasses isCR l).filter isCR = (l.filter isCR).reverse := by
    intro l
    rw [C60_sorted, List.filter_append]
    have : (l.filter fun e => !isCR e).filter isCR = [] := by
      rw [List.filter_eq_nil_iff]
      intro x hx
      rw [List.mem_filter] at hx
      simpa using hx.2
    rw [this, List.append_nil, List.filter_reverse, List.filter_filter]
    simp
  have hn : new.filter isCR = [] := by
    rw [List.filter_eq_nil_iff]
    intro x hx; simp [hnew x hx]
  refine ⟨by rw [setEquations, h, List.nil_append], ?_⟩
  rw [setEquations, h, List.filter_append, hn, List.append_nil, setEquations, h, List.reverse_reverse, List.nil_append]

/-- Two constituent relations (even numbers) among other classes. -/
example : sortClasses (fun n : ℕ => n % 2 == 0) [1, 2, 3, 4, 5] = [4, 2, 1, 3, 5] := by decide

end OpenSBLI.Setup
