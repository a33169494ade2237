import Verif.Lemmas.UserEqs
import Verif.Lemmas.Memory

/-!
# C70 user defined equations, C71 post-processing, C72 initialisation on the grid
-/
namespace OpenSBLI.User
set_option linter.unusedSectionVars false

variable {P : Type} [DecidableEq P]

/-! ## What the user asks for -/

/-- Evaluate one equation of the user on all the given points: the array gets the value of the expression there, and keeps its value elsewhere. -/
def assignOn (pts : List P) (v : Env P) (q : UEq) : Env P :=
  { v with data := fun s y => if s = q.lhs ∧ y ∈ pts then q.rhs.eval v y else v.data s y }

/-- Evaluate the equations of the user, one after the other. -/
def meaning (pts : List P) (eqs : List UEq) (v : Env P) : Env P := eqs.foldl (assignOn pts) v

/-- `l` lists the derivatives in the expressions. -/
def Lists (l : List Ex) (eqs : List UEq) : Prop := ∀ c, c ∈ l ↔ ∃ q ∈ eqs, c ∈ q.rhs.cds

/-- The equations contain arrays but no work arrays, and no derivatives of derivatives. -/
def Ordinary (q : UEq) : Prop := q.rhs.plain = true ∧ q.rhs.flat

/-! ## One class of equations discretised -/

/-- Equal arrays and operators. -/
def Same (v v' : Env P) : Prop := v.data = v'.data ∧ v.cd = v'.cd ∧ v.un = v'.un ∧ v.bin = v'.bin

/-- One equation with derivatives taken from `v0`. -/
def assignF (v0 : Env P) (pts : List P) (u : Env P) (q : UEq) : Env P :=
  { u with data := fun s y => if s = q.lhs ∧ y ∈ pts then q.rhs.evalF v0 u y else u.data s y }

theorem mapIdx_congr {A B : Type} (l : List A) (f g : ℕ → A → B) (h : ∀ i a, l[i]? = some a → f i a = g i a) : l.mapIdx f = l.mapIdx g := by
  apply List.ext_getElem?
  intro i
  simp only [List.getElem?_mapIdx]
  cases hl : l[i]? with
  | none => rfl
  | some a => simp [h i a hl]

theorem run_append (grid haloed : List P) (a b : List Ker) (v : Env P) : run grid haloed (a ++ b) v = run grid haloed b (run grid haloed a v) := by
  simp [run]

theorem run_derivatives (grid haloed : List P) (l : List Ex) (hl : ∀ c ∈ l, c.plain = true) (k : ℕ) (u : Env P) :
    Same (run grid haloed (l.mapIdx fun i c => ⟨false, [⟨.work (k + i), c⟩]⟩) u) u ∧
    (∀ i c, l[i]? = some c → ∀ y ∈ grid, (run grid haloed (l.mapIdx fun i c => ⟨false, [⟨.work (k + i), c⟩]⟩) u).work (k + i) y = c.eval u y) ∧
    ∀ j < k, (run grid haloed (l.mapIdx fun i c => ⟨false, [⟨.work (k + i), c⟩]⟩) u).work j = u.work j := by
  induction l generalizing k u with
  | nil => exact ⟨⟨rfl, rfl, rfl, rfl⟩, by simp, fun _ _ => rfl⟩
  | cons c l ih =>
    have hk : ∀ i, k + (i + 1) = k + 1 + i := by omega
    have hmap : ((c :: l).mapIdx fun i c => (⟨false, [⟨.work (k + i), c⟩]⟩ : Ker)) = ⟨false, [⟨.work k, c⟩]⟩ :: l.mapIdx fun i c => ⟨false, [⟨.work (k + 1 + i), c⟩]⟩ := by
      rw [List.mapIdx_cons]
      congr 1
      exact mapIdx_congr _ _ _ fun i a _ => by rw [hk]
    rw [hmap]
    set u1 : Env P := setOn grid (.work k) (c.eval u) u with hu1
    have hs : run grid haloed (⟨false, [⟨.work k, c⟩]⟩ :: l.mapIdx fun i c => ⟨false, [⟨.work (k + 1 + i), c⟩]⟩) u =
        run grid haloed (l.mapIdx fun i c => ⟨false, [⟨.work (k + 1 + i), c⟩]⟩) u1 := by
      rw [run, List.foldl_cons, run]
      congr 1
      simp only [runKer, Bool.false_eq_true, if_false]
      exact derivative_kernel k c (uses_of_plain c (hl c (List.mem_cons_self ..)) k) grid u
    rw [hs]
    obtain ⟨h1, h2, h3⟩ := ih (fun c hc => hl c (List.mem_cons_of_mem _ hc)) (k + 1) u1
    have hsame : Same u1 u := ⟨rfl, rfl, rfl, rfl⟩
    refine ⟨⟨h1.1.trans hsame.1, h1.2.1.trans hsame.2.1, h1.2.2.1.trans hsame.2.2.1, h1.2.2.2.trans hsame.2.2.2⟩, ?_, ?_⟩
    · intro i c' hi y hy
      cases i with
      | zero =>
        simp only [List.getElem?_cons_zero, Option.some.injEq] at hi
        subst hi
        rw [show k + 0 = k from rfl, h3 k (by omega)]
        simp [hu1, setOn, hy]
      | succ i =>
        rw [show k + (i + 1) = k + 1 + i from hk i, h2 i c' (by simpa using hi) y hy]
        exact congrFun (eval_plain (v := u1) (v' := u) rfl ⟨rfl, rfl, rfl⟩ c' (hl c' (List.mem_cons_of_mem _ (List.mem_of_getElem? (by simpa using hi))))) y
    · intro j hj
      rw [h3 j (by omega)]
      funext y
      have : j ≠ k := by omega
      simp [hu1, setOn, this]

theorem plain_cds (e : Ex) (h : e.plain = true) : ∀ c ∈ e.cds, c.plain = true := by
  induction e with
  | cd d e ih =>
    intro c hc
    rcases List.mem_cons.1 hc with rfl | hc
    · exact h
    · exact ih h c hc
  | un f e ih => exact ih h
  | bin f a b iha ihb =>
    simp only [Ex.plain, Bool.and_eq_true] at h
    intro c hc
    rcases List.mem_append.1 hc with hc | hc
    · exact iha h.1 c hc
    · exact ihb h.2 c hc
  | _ => intro c hc; simp [Ex.cds] at hc

/-- A class of ordinary equations, discretised together: derivatives are those of the arrays before, then the equations are evaluated in order. -/
theorem run_discretise (grid haloed : List P) (hn : grid.Nodup) (w : ℕ) (cds : List Ex) (qs : List UEq) (hc : Lists cds qs) (hq : ∀ q ∈ qs, Ordinary q) (hne : cds ≠ [])
    (v : Env P) : Same (run grid haloed (discretise w cds qs) v) (qs.foldl (assignF v grid) v) := by
  have hcd : ∀ c ∈ cds, ∃ d a, c = .cd d a ∧ a.cds = [] ∧ c.plain = true := by
    intro c h
    obtain ⟨q, hqm, hcq⟩ := (hc c).1 h
    obtain ⟨d, a, rfl⟩ := mem_cds _ c hcq
    exact ⟨d, a, rfl, (hq q hqm).2 d a hcq, plain_cds _ (hq q hqm).1 _ hcq⟩
  set pairs : List (Ex × Ex) := cds.mapIdx fun i c => (c, Ex.work (w + i)) with hpairs
  have hp : ∀ p ∈ pairs, ∃ d a i, p = (.cd d a, .work (w + i)) ∧ cds[i]? = some (.cd d a) := by
    intro p hp
    obtain ⟨i, hi⟩ := List.getElem?_of_mem hp
    rw [hpairs, List.getElem?_mapIdx] at hi
    obtain ⟨c, h1, rfl⟩ := Option.map_eq_some_iff.1 hi
    obtain ⟨d, a, rfl, _⟩ := hcd c (List.mem_of_getElem? h1)
    exact ⟨d, a, i, rfl, h1⟩
  have hp' : ∀ p ∈ pairs, ∃ d a i, p = (.cd d a, .work i) := fun p h => by
    obtain ⟨d, a, i, h, _⟩ := hp p h; exact ⟨d, a, _, h⟩
  have hin : ∀ c ∈ cds, inside pairs c = c := by
    intro c h
    obtain ⟨d, a, rfl, ha, _⟩ := hcd c h
    simp only [inside]
    rw [subs_noCds pairs hp' a ha]
  unfold discretise
  rw [if_neg hne, ← hpairs, run_append]
  rw [mapIdx_congr cds (fun i c => (⟨false, [⟨.work (w + i), inside pairs c⟩]⟩ : Ker)) (fun i c => ⟨false, [⟨.work (w + i), c⟩]⟩)
    (fun i c h => by simp only [hin c (List.mem_of_getElem? h)])]
  rw [mapIdx_congr cds (fun i c => (inside pairs c, Ex.work (w + i))) (fun i c => (c, Ex.work (w + i)))
    (fun i c h => by simp only [hin c (List.mem_of_getElem? h)]), ← hpairs]
  obtain ⟨h1, h2, -⟩ := run_derivatives grid haloed cds (fun c h => (hcd c h).choose_spec.choose_spec.2.2) w v
  generalize run grid haloed (cds.mapIdx fun i c => ⟨false, [⟨.work (w + i), c⟩]⟩) v = u at h1 h2
  have hfree : ∀ q ∈ qs.map fun q => (⟨.data q.lhs, Ex.subs pairs q.rhs⟩ : Eqn), q.rhs.cds = [] := by
    intro e he
    obtain ⟨q, hqm, rfl⟩ := List.mem_map.1 he
    rw [List.eq_nil_iff_forall_not_mem]
    intro c hcm
    obtain ⟨h3, h4⟩ := cds_subs pairs hp' q.rhs (hq q hqm).2 c hcm
    have hin : c ∈ cds := (hc c).2 ⟨q, hqm, h3⟩
    obtain ⟨i, hi⟩ := List.getElem?_of_mem hin
    exact h4 (c, .work (w + i)) (List.mem_of_getElem? (i := i) (by rw [hpairs, List.getElem?_mapIdx, hi]; rfl)) rfl
  have e1 : run grid haloed [⟨false, qs.map fun q => ⟨.data q.lhs, Ex.subs pairs q.rhs⟩⟩] u = seq grid (qs.map fun q => ⟨.data q.lhs, Ex.subs pairs q.rhs⟩) u := by
    simp only [run, runKer, List.foldl_cons, List.foldl_nil, Bool.false_eq_true, if_false]
    exact kernel_seq _ hfree grid hn u
  rw [e1]
  have hfree' : ∀ q ∈ qs, (Ex.subs pairs q.rhs).cds = [] := fun q h => hfree _ (List.mem_map.2 ⟨q, h, rfl⟩)
  clear e1 hfree hne
  -- the equations in order
  have key : ∀ (qs : List UEq) (a b : Env P), (∀ q ∈ qs, Ordinary q ∧ (Ex.subs pairs q.rhs).cds = []) → Same a b → a.work = u.work →
      Same (seq grid (qs.map fun q => ⟨.data q.lhs, Ex.subs pairs q.rhs⟩) a) (qs.foldl (assignF v grid) b) := by
    intro qs
    induction qs with
    | nil => intro a b _ h _; exact h
    | cons q qs ih =>
      intro a b ho hs hw
      simp only [seq, List.map_cons, List.foldl_cons]
      refine ih _ _ (fun q h => ho q (List.mem_cons_of_mem _ h)) ⟨?_, hs.2.1, hs.2.2.1, hs.2.2.2⟩ (by simpa [setOn] using hw)
      funext s y
      simp only [setOn, assignF]
      rw [hs.1]
      by_cases hcase : s = q.lhs ∧ y ∈ grid
      · rw [if_pos hcase, if_pos hcase]
        obtain ⟨hoq, h0⟩ := ho q (List.mem_cons_self ..)
        -- evaluate
        have hfree : (Ex.subs pairs q.rhs).evalF v a y = q.rhs.evalF v a y := by
          apply evalF_subs v a y pairs _ _ hoq.2
          intro p hpm
          obtain ⟨d, x, i, rfl, hi⟩ := hp p hpm
          exact ⟨d, x, w + i, rfl, by rw [hw]; exact h2 i _ hi y hcase.2⟩
        rw [← evalF_noCds v a _ h0, hfree]
        have : ∀ e : Ex, e.plain = true → e.evalF v a y = e.evalF v b y := by
          intro e he
          induction e with
          | num n => rfl
          | data s => simp only [Ex.evalF]; rw [hs.1]
          | work i => simp [Ex.plain] at he
          | cd d e _ => rfl
          | un f e ih => simp only [Ex.evalF]; rw [ih he, hs.2.2.1]
          | bin f x z ihx ihz =>
            simp only [Ex.plain, Bool.and_eq_true] at he
            simp only [Ex.evalF]; rw [ihx he.1, ihz he.2, hs.2.2.2]
        exact this _ hoq.1
      · rw [if_neg hcase, if_neg hcase]
  exact key qs u v (fun q h => ⟨hq q h, hfree' q h⟩) h1 rfl

theorem Same.refl (v : Env P) : Same v v := ⟨rfl, rfl, rfl, rfl⟩
theorem Same.trans {a b c : Env P} (h : Same a b) (h' : Same b c) : Same a c :=
  ⟨h.1.trans h'.1, h.2.1.trans h'.2.1, h.2.2.1.trans h'.2.2.1, h.2.2.2.trans h'.2.2.2⟩

theorem assignOn_same (pts : List P) (q : UEq) (h : q.rhs.plain = true) (a b : Env P) (hs : Same a b) : Same (assignOn pts a q) (assignOn pts b q) := by
  refine ⟨?_, hs.2⟩
  simp only [assignOn]
  rw [eval_plain hs.1 hs.2 q.rhs h, hs.1]

theorem meaning_same (pts : List P) (eqs : List UEq) (h : ∀ q ∈ eqs, q.rhs.plain = true) (a b : Env P) (hs : Same a b) : Same (meaning pts eqs a) (meaning pts eqs b) := by
  induction eqs generalizing a b with
  | nil => exact hs
  | cons q eqs ih => exact ih (fun q hq => h q (List.mem_cons_of_mem _ hq)) _ _ (assignOn_same pts q (h q (List.mem_cons_self ..)) a b hs)

/-- The order of the set of derivatives of every equation lists these derivatives. -/
def ListsEach (order : UEq → List Ex) : Prop := ∀ q c, c ∈ order q ↔ c ∈ q.rhs.cds

theorem ListsEach.nil_iff {order : UEq → List Ex} (ho : ListsEach order) (q : UEq) : order q = [] ↔ q.rhs.cds = [] := by
  simp only [List.eq_nil_iff_forall_not_mem, ho q]

theorem ListsEach.lists {order : UEq → List Ex} (ho : ListsEach order) (q : UEq) : Lists (order q) [q] := fun c => by simp [ho q c]

theorem discretise_eq_nil (w : ℕ) (cds : List Ex) (qs : List UEq) : discretise w cds qs = [] ↔ cds = [] := by
  unfold discretise
  split <;> simp_all

/-- Does an equation contain a derivative. -/
def UEq.derived (q : UEq) : Bool := !q.rhs.cds.isEmpty

theorem UEq.derived_iff (q : UEq) : q.derived = true ↔ q.rhs.cds ≠ [] := by simp [UEq.derived]

theorem run_separately (grid haloed : List P) (hn : grid.Nodup) (w : ℕ) (order : UEq → List Ex) (ho : ListsEach order) (eqs : List UEq) (hq : ∀ q ∈ eqs, Ordinary q)
    (a b : Env P) (hs : Same a b) :
    Same (run grid haloed (eqs.flatMap fun q => discretise w (order q) [q]) a) (meaning grid (eqs.filter UEq.derived) b) := by
  induction eqs generalizing a b with
  | nil => exact hs
  | cons q eqs ih =>
    rw [List.flatMap_cons, run_append]
    have hq' := fun q hm => hq q (List.mem_cons_of_mem _ hm)
    by_cases hd : q.derived = true
    · rw [List.filter_cons_of_pos hd]
      have h1 := run_discretise grid haloed hn w (order q) [q] (ho.lists q) (by simpa using hq q (List.mem_cons_self ..))
        (fun h => (q.derived_iff.1 hd) ((ho.nil_iff q).1 h)) a
      have h2 : [q].foldl (assignF a grid) a = assignOn grid a q := by
        simp only [List.foldl_cons, List.foldl_nil, assignF, assignOn, evalF_self]
      rw [h2] at h1
      exact ih hq' _ _ (h1.trans (assignOn_same grid q (hq q (List.mem_cons_self ..)).1 a b hs))
    · rw [List.filter_cons_of_neg hd, (discretise_eq_nil w (order q) [q]).2 ((ho.nil_iff q).2 (by simpa [UEq.derived_iff] using hd))]
      exact ih hq' _ _ hs

theorem kernels_plain (w : ℕ) (order : UEq → List Ex) (ho : ListsEach order) (eqs : List UEq) :
    (eqs.flatMap fun q => discretise w (order q) [q]) = [] ↔ ∀ q ∈ eqs, q.rhs.cds = [] := by
  rw [List.flatMap_eq_nil_iff]
  refine forall₂_congr fun q _ => ?_
  rw [discretise_eq_nil, ho.nil_iff]

theorem seq_meaning (pts : List P) (eqs : List UEq) (v : Env P) : seq pts (eqs.map fun q => ⟨.data q.lhs, q.rhs⟩) v = meaning pts eqs v := by
  induction eqs generalizing v with
  | nil => rfl
  | cons q eqs ih =>
    have e : setOn pts (.data q.lhs) (q.rhs.eval v) v = assignOn pts v q := rfl
    simp only [seq, List.map_cons, List.foldl_cons, meaning] at ih ⊢
    rw [e]
    exact ih _

/-! ## C70 -/

/-- **C70, what is computed.** Without derivatives all equations are evaluated in order, on the requested points. If any equation has a derivative, exactly the equations with derivatives are evaluated, in order, on the
grid; each sees the results of those before it, derivatives included. Order of visit, order of the set of derivatives and work array numbers are irrelevant. -/
theorem C70_exact (grid haloed : List P) (hg : grid.Nodup) (hh : haloed.Nodup) (w : ℕ) (order : UEq → List Ex) (ho : ListsEach order) (eqs : List UEq) (hq : ∀ q ∈ eqs, Ordinary q) (v : Env P) :
    ((∀ q ∈ eqs, q.rhs.cds = []) → (run grid haloed (kernels w order eqs) v).data = (meaning haloed eqs v).data) ∧
    ((∃ q ∈ eqs, q.rhs.cds ≠ []) → (run grid haloed (kernels w order eqs) v).data = (meaning grid (eqs.filter UEq.derived) v).data) := by
  constructor
  · intro h
    have : kernels w order eqs = [⟨true, eqs.map fun q => ⟨.data q.lhs, q.rhs⟩⟩] := by
      unfold kernels; rw [if_pos ((kernels_plain w order ho eqs).2 h)]
    rw [this]
    simp only [run, runKer, List.foldl_cons, List.foldl_nil, if_true]
    rw [kernel_seq _ (fun e he => by obtain ⟨q, hm, rfl⟩ := List.mem_map.1 he; exact h q hm) haloed hh v, seq_meaning]
  · rintro ⟨q, hm, h⟩
    have : kernels w order eqs = eqs.flatMap fun q => discretise w (order q) [q] := by
      unfold kernels; rw [if_neg (fun h' => h ((kernels_plain w order ho eqs).1 h' q hm))]
    rw [this]
    exact (run_separately grid haloed hg w order ho eqs hq v v (Same.refl v)).1

/-- **C70 (partial).** If all the equations contain derivatives or none does, all equations are evaluated in order: on the grid in the first case, on the requested points in the second. Missing: lists with
equations of both kinds (`C70_plain_dropped`), the requested halos when there are derivatives (`C70_halos_ignored`), derivatives of derivatives (`C70_nested_stale`). -/
theorem C70_meaning_partial (grid haloed : List P) (hg : grid.Nodup) (hh : haloed.Nodup) (w : ℕ) (order : UEq → List Ex) (ho : ListsEach order) (eqs : List UEq) (hq : ∀ q ∈ eqs, Ordinary q)
    (v : Env P) (d : Bool) (hd : ∀ q ∈ eqs, q.derived = d) :
    (run grid haloed (kernels w order eqs) v).data = (meaning (if d ∧ eqs ≠ [] then grid else haloed) eqs v).data := by
  obtain ⟨h1, h2⟩ := C70_exact grid haloed hg hh w order ho eqs hq v
  cases d with
  | false => simp only [Bool.false_eq_true, false_and, if_false]; exact h1 fun q hm => by simpa [UEq.derived, List.isEmpty_iff] using hd q hm
  | true =>
    cases eqs with
    | nil => simpa using h1
    | cons q eqs =>
      rw [h2 ⟨q, List.mem_cons_self .., q.derived_iff.1 (hd q (List.mem_cons_self ..))⟩]
      simp only [true_and, ne_eq, reduceCtorEq, not_false_eq_true, if_true]
      rw [List.filter_eq_self.2 hd]

theorem meaning_untouched (pts : List P) (eqs : List UEq) (s : String) (h : ∀ q ∈ eqs, q.lhs ≠ s) (v : Env P) : (meaning pts eqs v).data s = v.data s := by
  induction eqs generalizing v with
  | nil => rfl
  | cons q eqs ih =>
    rw [meaning, List.foldl_cons]
    have := ih (fun q hm => h q (List.mem_cons_of_mem _ hm)) (assignOn pts v q)
    rw [meaning] at this
    rw [this]
    funext y
    simp [assignOn, (h q (List.mem_cons_self ..)).symm]

theorem meaning_outside (pts : List P) (eqs : List UEq) (y : P) (h : y ∉ pts) (v : Env P) (s : String) : (meaning pts eqs v).data s y = v.data s y := by
  induction eqs generalizing v with
  | nil => rfl
  | cons q eqs ih =>
    rw [meaning, List.foldl_cons]
    have := ih (assignOn pts v q)
    rw [meaning] at this
    rw [this]
    simp [assignOn, h]

/-- **C70, finding: equations are dropped.** In a list with a derivative somewhere, an array that is assigned only by equations without derivatives is never written. -/
theorem C70_plain_dropped (grid haloed : List P) (hg : grid.Nodup) (hh : haloed.Nodup) (w : ℕ) (order : UEq → List Ex) (ho : ListsEach order) (eqs : List UEq) (hq : ∀ q ∈ eqs, Ordinary q) (v : Env P)
    (h : ∃ q ∈ eqs, q.rhs.cds ≠ []) (s : String) (hs : ∀ q ∈ eqs, q.lhs = s → q.rhs.cds = []) :
    (run grid haloed (kernels w order eqs) v).data s = v.data s := by
  rw [(C70_exact grid haloed hg hh w order ho eqs hq v).2 h]
  refine meaning_untouched _ _ _ (fun q hm he => ?_) v
  obtain ⟨hm, hd⟩ := List.mem_filter.1 hm
  exact q.derived_iff.1 hd (hs q hm he)

/-- **C70, finding: requested halos are ignored** as soon as there is a derivative: no point outside the grid is written. -/
theorem C70_halos_ignored (grid haloed : List P) (hg : grid.Nodup) (hh : haloed.Nodup) (w : ℕ) (order : UEq → List Ex) (ho : ListsEach order) (eqs : List UEq) (hq : ∀ q ∈ eqs, Ordinary q) (v : Env P)
    (h : ∃ q ∈ eqs, q.rhs.cds ≠ []) (s : String) (y : P) (hy : y ∉ grid) :
    (run grid haloed (kernels w order eqs) v).data s y = v.data s y := by
  rw [(C70_exact grid haloed hg hh w order ho eqs hq v).2 h]
  exact meaning_outside _ _ y hy v s

/-- **C70, finding: derivative of a derivative.** `a = ∂/∂x (∂b/∂x)`: if the set yields the outer derivative first, its kernel runs before that of the inner one and stores the derivative of whatever the work
array of the inner derivative held before; for the other order it stores the derivative of the array just computed. -/
theorem C70_nested_stale (x : P) (v : Env P) :
    (run [x] [x] ((kernels 0 (fun _ => [.cd 0 (.cd 0 (.data "b")), .cd 0 (.data "b")]) [⟨"a", .cd 0 (.cd 0 (.data "b"))⟩]).take 2) v).work 0 x = v.cd 0 (v.work 1) x ∧
    (run [x] [x] ((kernels 0 (fun _ => [.cd 0 (.data "b"), .cd 0 (.cd 0 (.data "b"))]) [⟨"a", .cd 0 (.cd 0 (.data "b"))⟩]).take 2) v).work 1 x =
      v.cd 0 (fun y => if y = x then v.cd 0 (v.data "b") x else v.work 0 y) x := by
  constructor <;> simp [kernels, discretise, inside, Ex.subs, Ex.replace, run, runKer, atPoint, Env.set, Ex.eval]

/-- **C70, points.** With halos requested, the kernel visits exactly the points whose index in every direction lies between the lower depth of the lower side and the upper depth of the upper side (both depths never
shrinking the grid); without a request the grid. -/
theorem C70_points {n : ℕ} (np : Fin n → ℤ) (h : Fin n → Ranges.HaloType × Ranges.HaloType) (x : Fin n → ℤ) :
    ((userRange np none).visits x ↔ ∀ d, 0 ≤ x d ∧ x d < np d) ∧
    ((userRange np (some h)).visits x ↔ ∀ d, (h d).1.1 ≤ x d ∧ x d < np d + (h d).2.2) := by
  constructor
  · simp [userRange, Ranges.Kernel.visits, Ranges.Kernel.totalRange, Ranges.Kernel.onGrid, Ranges.minHalo, Ranges.maxHalo]
  · have key : ∀ (l : List (Fin n)) (k : Ranges.Kernel n),
        ((l.foldl (fun k d => (k.setHaloRange d false {(h d).1}).setHaloRange d true {(h d).2}) k).ranges = k.ranges) ∧
        ∀ d, (l.foldl (fun k d => (k.setHaloRange d false {(h d).1}).setHaloRange d true {(h d).2}) k).halos d =
          if d ∈ l then ((k.halos d).1 ∪ {(h d).1}, (k.halos d).2 ∪ {(h d).2}) else k.halos d := by
      intro l
      induction l with
      | nil => intro k; simp
      | cons e l ih =>
        intro k
        rw [List.foldl_cons]
        refine ⟨(ih _).1.trans rfl, fun d => ?_⟩
        rw [(ih _).2 d]
        by_cases he : d = e
        · subst he
          by_cases hl : d ∈ l <;> simp [hl, Ranges.Kernel.setHaloRange]
        · by_cases hl : d ∈ l <;> simp [hl, he, Ranges.Kernel.setHaloRange]
    unfold Ranges.Kernel.visits
    refine forall_congr' fun d => ?_
    rw [userRange, Ranges.Kernel.totalRange, (key _ _).1, (key _ _).2 d]
    simp [Ranges.Kernel.onGrid, Ranges.minHalo, Ranges.maxHalo]

/-! ## C71 -/

/-- The arrays an expression reads. -/
def Ex.arrays : Ex → List String
  | .data s => [s]
  | .cd _ e => e.arrays
  | .un _ e => e.arrays
  | .bin _ a b => a.arrays ++ b.arrays
  | _ => []

theorem eval_arrays {v v' : Env P} (ho : v.cd = v'.cd ∧ v.un = v'.un ∧ v.bin = v'.bin) (e : Ex) (h : e.plain = true) (ha : ∀ s ∈ e.arrays, v.data s = v'.data s) : e.eval v = e.eval v' := by
  induction e with
  | num n => rfl
  | data s => exact ha s (List.mem_singleton.2 rfl)
  | work i => simp [Ex.plain] at h
  | cd d e ih => simp only [Ex.eval]; rw [ih h ha, ho.1]
  | un f e ih => simp only [Ex.eval]; rw [ih h ha, ho.2.1]
  | bin f a b iha ihb =>
    simp only [Ex.plain, Bool.and_eq_true] at h
    simp only [Ex.eval]
    rw [iha h.1 (fun s hs => ha s (List.mem_append_left _ hs)), ihb h.2 (fun s hs => ha s (List.mem_append_right _ hs)), ho.2.2]

theorem assignOn_ops (pts : List P) (v : Env P) (q : UEq) : (assignOn pts v q).cd = v.cd ∧ (assignOn pts v q).un = v.un ∧ (assignOn pts v q).bin = v.bin := ⟨rfl, rfl, rfl⟩

theorem meaning_ops (pts : List P) (eqs : List UEq) (v : Env P) : (meaning pts eqs v).cd = v.cd ∧ (meaning pts eqs v).un = v.un ∧ (meaning pts eqs v).bin = v.bin := by
  induction eqs generalizing v with
  | nil => exact ⟨rfl, rfl, rfl⟩
  | cons q eqs ih => exact ih (assignOn pts v q)

theorem evalF_eq_eval (v0 u : Env P) (ho : u.cd = v0.cd) (hu : u.un = v0.un ∧ u.bin = v0.bin) (e : Ex) (h : e.plain = true)
    (ha : ∀ c ∈ e.cds, ∀ s ∈ c.arrays, u.data s = v0.data s) : e.evalF v0 u = e.eval u := by
  induction e with
  | cd d e =>
    simp only [Ex.evalF]
    exact eval_arrays ⟨ho.symm, hu.1.symm, hu.2.symm⟩ (.cd d e) h fun s hs => (ha _ (List.mem_cons_self ..) s hs).symm
  | un f e ih => simp only [Ex.evalF, Ex.eval]; rw [ih h ha]
  | bin f a b iha ihb =>
    simp only [Ex.plain, Bool.and_eq_true] at h
    simp only [Ex.evalF, Ex.eval]
    rw [iha h.1 (fun c hc => ha c (List.mem_append_left _ hc)), ihb h.2 (fun c hc => ha c (List.mem_append_right _ hc))]
  | _ => rfl

theorem frozen_meaning (grid : List P) (v : Env P) (qs : List UEq) (hq : ∀ q ∈ qs, q.rhs.plain = true) (u : Env P) (ho : u.cd = v.cd ∧ u.un = v.un ∧ u.bin = v.bin)
    (hr : ∀ q ∈ qs, ∀ c ∈ q.rhs.cds, ∀ s ∈ c.arrays, u.data s = v.data s ∧ ∀ q' ∈ qs, q'.lhs ≠ s) :
    qs.foldl (assignF v grid) u = meaning grid qs u := by
  induction qs generalizing u with
  | nil => rfl
  | cons q qs ih =>
    have e : assignF v grid u q = assignOn grid u q := by
      simp only [assignF, assignOn]
      rw [evalF_eq_eval v u ho.1 ho.2 q.rhs (hq q (List.mem_cons_self ..)) fun c hc s hs => (hr q (List.mem_cons_self ..) c hc s hs).1]
    rw [List.foldl_cons, e, meaning, List.foldl_cons]
    refine ih (fun q hm => hq q (List.mem_cons_of_mem _ hm)) _ ho fun q' hm c hc s hs => ?_
    obtain ⟨h1, h2⟩ := hr q' (List.mem_cons_of_mem _ hm) c hc s hs
    refine ⟨?_, fun q'' hm' => h2 q'' (List.mem_cons_of_mem _ hm')⟩
    rw [← h1]
    funext y
    simp [assignOn, (h2 q (List.mem_cons_self ..)).symm]

/-- The relations of the required arrays, as equations in the order of the dictionary. -/
def relationEqs (rel : Relations) (required : List String) : List UEq := required.filterMap fun s => (rel.find? fun r => r.1 = s).map fun r => ⟨s, r.2⟩

theorem run_required (grid haloed : List P) (hg : grid.Nodup) (rel : Relations) (hr : ∀ r ∈ rel, r.2.cds = []) (required : List String) (v : Env P) :
    run grid haloed ((postRequired rel required).map Prod.snd) v = meaning grid (relationEqs rel required) v := by
  induction required generalizing v with
  | nil => rfl
  | cons s required ih =>
    unfold postRequired relationEqs at ih ⊢
    rw [List.filterMap_cons, List.filterMap_cons]
    cases hf : rel.find? fun r => r.1 = s with
    | none => exact ih v
    | some r =>
      simp only [Option.map_some, List.map_cons]
      rw [run, List.foldl_cons, meaning, List.foldl_cons]
      have e : runKer grid haloed ⟨false, [⟨.data s, r.2⟩]⟩ v = assignOn grid v ⟨s, r.2⟩ := by
        simp only [runKer, Bool.false_eq_true, if_false]
        rw [kernel_seq [⟨.data s, r.2⟩] (by simpa using hr r (List.mem_of_find?_eq_some hf)) grid hg v]
        exact seq_meaning grid [⟨s, r.2⟩] v
      rw [e]
      exact ih _

theorem missing_nothing (w : ℕ) (order : UEq → List Ex) (ho : ListsEach order) (rel : Relations) (hr : ∀ r ∈ rel, r.2.cds = []) (rest : List String) (d : List (Target × Ker)) :
    postMissing w order rel rest d = d := by
  unfold postMissing
  induction rest generalizing d with
  | nil => rfl
  | cons s rest ih =>
    rw [List.foldl_cons]
    cases hf : rel.find? fun r => r.1 = s with
    | none => exact ih d
    | some r =>
      have : relationKernels w order r = [] := by
        unfold relationKernels
        rw [discretise_eq_nil, ho.nil_iff]
        exact hr r (List.mem_of_find?_eq_some hf)
      simp only [this, List.foldl_nil]
      exact ih d

/-- **C71 (partial).** Relations of the arrays under derivatives, in the order of the dictionary, then the equations in the order given, are evaluated on the grid. Missing: equations without any derivative
(`C71_no_derivative_nothing`), a derivative of an array assigned by the class (`C71_frozen`), relations with derivatives, relations for arrays that occur outside derivatives only
(`C71_unevaluated_relation`). -/
theorem C71_meaning_partial (grid haloed : List P) (hg : grid.Nodup) (w : ℕ) (order : UEq → List Ex) (ho : ListsEach order) (rel : Relations) (hr : ∀ r ∈ rel, r.2.cds = [] ∧ r.2.plain = true)
    (required rest : List String) (cds : List Ex) (eqs : List UEq) (hq : ∀ q ∈ eqs, Ordinary q) (hc : Lists cds eqs) (hne : ∃ q ∈ eqs, q.rhs.cds ≠ [])
    (hread : ∀ q ∈ eqs, ∀ c ∈ q.rhs.cds, ∀ s ∈ c.arrays, ∀ q' ∈ eqs, q'.lhs ≠ s) (v : Env P) :
    (run grid haloed (postKernels w order rel required rest cds eqs) v).data = (meaning grid (relationEqs rel required ++ eqs) v).data := by
  have hne' : cds ≠ [] := by
    obtain ⟨q, hm, h⟩ := hne
    obtain ⟨c, h⟩ := List.exists_mem_of_ne_nil _ h
    exact List.ne_nil_of_mem ((hc c).2 ⟨q, hm, h⟩)
  unfold postKernels
  rw [missing_nothing w order ho rel (fun r h => (hr r h).1), run_append, run_required grid haloed hg rel (fun r h => (hr r h).1)]
  rw [(run_discretise grid haloed hg w cds eqs hc hq hne' _).1]
  rw [frozen_meaning grid _ eqs (fun q h => (hq q h).1) _ ⟨rfl, rfl, rfl⟩ (fun q h c hc s hs => ⟨rfl, hread q h c hc s hs⟩)]
  rw [meaning, meaning, meaning, List.foldl_append]

/-- **C71, in general** derivatives are those of the arrays after the relations and before every equation of the class. -/
theorem C71_frozen_exact (grid haloed : List P) (hg : grid.Nodup) (w : ℕ) (order : UEq → List Ex) (ho : ListsEach order) (rel : Relations) (hr : ∀ r ∈ rel, r.2.cds = [])
    (required rest : List String) (q : UEq) (d : ℕ) (f : Ex) (later : UEq) (hq : Ordinary q) (hl : later.rhs = .cd d f) (hf : Ordinary later) (v : Env P) (y : P)
    (hy : y ∈ grid) (cds : List Ex) (hc : Lists cds [q, later]) :
    (run grid haloed (postKernels w order rel required rest cds [q, later]) v).data later.lhs y = (Ex.cd d f).eval (meaning grid (relationEqs rel required) v) y := by
  have hne' : cds ≠ [] := List.ne_nil_of_mem ((hc (.cd d f)).2 ⟨later, by simp, by rw [hl]; exact List.mem_cons_self ..⟩)
  unfold postKernels
  rw [missing_nothing w order ho rel hr, run_append, run_required grid haloed hg rel hr]
  rw [(run_discretise grid haloed hg w cds _ hc (by simpa using ⟨hq, hf⟩) hne' _).1]
  simp [assignF, hy, hl, Ex.evalF]

/-- **C71, finding: derivatives do not see the class's own results.** `a = ∂b`, `c = ∂a`: as post-processing equations `c` is the derivative of the old `a`, as user defined equations that of the new one. -/
theorem C71_frozen (grid haloed : List P) (hg : grid.Nodup) (hh : haloed.Nodup) (v : Env P) (y : P) (hy : y ∈ grid) :
    let eqs : List UEq := [⟨"a", .cd 0 (.data "b")⟩, ⟨"c", .cd 0 (.data "a")⟩]
    (run grid haloed (postKernels 0 (fun q => q.rhs.cds) [] [] [] [.cd 0 (.data "b"), .cd 0 (.data "a")] eqs) v).data "c" y = v.cd 0 (v.data "a") y ∧
    (run grid haloed (kernels 0 (fun q => q.rhs.cds) eqs) v).data "c" y = v.cd 0 (fun x => if x ∈ grid then v.cd 0 (v.data "b") x else v.data "a" x) y := by
  have oa : Ordinary ⟨"a", .cd 0 (.data "b")⟩ := ⟨rfl, by intro d a h; simp [Ex.cds] at h; simp [h.2, Ex.cds]⟩
  have oc : Ordinary ⟨"c", .cd 0 (.data "a")⟩ := ⟨rfl, by intro d a h; simp [Ex.cds] at h; simp [h.2, Ex.cds]⟩
  constructor
  · exact C71_frozen_exact grid haloed hg 0 (fun q => q.rhs.cds) (fun _ _ => Iff.rfl) [] (by simp) [] [] ⟨"a", .cd 0 (.data "b")⟩ 0 (.data "a") ⟨"c", .cd 0 (.data "a")⟩ oa rfl oc
      v y hy _ (fun c => by simp [Ex.cds])
  · rw [(C70_exact grid haloed hg hh 0 (fun q => q.rhs.cds) (fun _ _ => Iff.rfl) _ (by simpa using ⟨oa, oc⟩) v).2 ⟨_, List.mem_cons_self .., by simp [Ex.cds]⟩]
    simp [meaning, assignOn, UEq.derived, Ex.cds, Ex.eval, hy]

/-- **C71, finding: without derivatives nothing is evaluated.** If no equation of the class has a derivative, none of them is evaluated. -/
theorem C71_no_derivative_nothing (w : ℕ) (order : UEq → List Ex) (ho : ListsEach order) (rel : Relations) (hr : ∀ r ∈ rel, r.2.cds = []) (rest : List String) (eqs : List UEq)
    (h : ∀ q ∈ eqs, q.rhs.cds = []) (cds : List Ex) (hc : Lists cds eqs) : postKernels w order rel [] rest cds eqs = [] := by
  have : cds = [] := by
    rw [List.eq_nil_iff_forall_not_mem]
    intro c hm
    obtain ⟨q, hq, h'⟩ := (hc c).1 hm
    rw [h q hq] at h'
    exact absurd h' (List.not_mem_nil)
  unfold postKernels
  rw [missing_nothing w order ho rel hr, this]
  rfl

/-- **C71, finding: a relation that is not evaluated.** An array that no scheme requires, because it occurs outside derivatives only, keeps its value although there is a relation for it, as it has no
derivatives. -/
theorem C71_unevaluated_relation (grid haloed : List P) (hg : grid.Nodup) (w : ℕ) (order : UEq → List Ex) (ho : ListsEach order) (rel : Relations) (hr : ∀ r ∈ rel, r.2.cds = [] ∧ r.2.plain = true)
    (required rest : List String) (cds : List Ex) (eqs : List UEq) (hq : ∀ q ∈ eqs, Ordinary q) (hc : Lists cds eqs) (hne : ∃ q ∈ eqs, q.rhs.cds ≠ [])
    (hread : ∀ q ∈ eqs, ∀ c ∈ q.rhs.cds, ∀ s ∈ c.arrays, ∀ q' ∈ eqs, q'.lhs ≠ s) (v : Env P) (s : String) (hs : s ∉ required) (hs' : ∀ q ∈ eqs, q.lhs ≠ s) :
    (run grid haloed (postKernels w order rel required rest cds eqs) v).data s = v.data s := by
  rw [C71_meaning_partial grid haloed hg w order ho rel hr required rest cds eqs hq hc hne hread v]
  refine meaning_untouched _ _ _ (fun q hm => ?_) v
  rcases List.mem_append.1 hm with hm | hm
  · obtain ⟨t, ht, hm⟩ := List.mem_filterMap.1 hm
    obtain ⟨r, _, rfl⟩ := Option.map_eq_some_iff.1 hm
    rintro rfl
    exact hs ht
  · exact hs' q hm

/-- Equations in an order in which none reads an array assigned by itself or later, and no array is assigned twice. -/
def InOrder (eqs : List UEq) : Prop := (∀ q ∈ eqs, q.lhs ∉ q.rhs.arrays) ∧ eqs.Pairwise fun q q' => q.lhs ≠ q'.lhs ∧ q'.lhs ∉ q.rhs.arrays

/-- **C71, relations hold (partial).** If the dictionary happens to list the required arrays in the order of their dependencies, all relations hold on the grid after their evaluation. Missing: any other order
(`C71_relation_order`); nothing in the class sorts them. -/
theorem C71_relations_hold_partial (grid haloed : List P) (hg : grid.Nodup) (rel : Relations) (hr : ∀ r ∈ rel, r.2.cds = [] ∧ r.2.plain = true) (required : List String)
    (hord : InOrder (relationEqs rel required)) (v : Env P) (q : UEq) (hq : q ∈ relationEqs rel required) (y : P) (hy : y ∈ grid) :
    (run grid haloed ((postRequired rel required).map Prod.snd) v).data q.lhs y = q.rhs.eval (run grid haloed ((postRequired rel required).map Prod.snd) v) y := by
  rw [run_required grid haloed hg rel fun r h => (hr r h).1]
  have hp : ∀ q ∈ relationEqs rel required, q.rhs.plain = true := by
    intro q hm
    obtain ⟨t, ht, hm⟩ := List.mem_filterMap.1 hm
    obtain ⟨r, hf, rfl⟩ := Option.map_eq_some_iff.1 hm
    exact (hr r (List.mem_of_find?_eq_some hf)).2
  generalize relationEqs rel required = eqs at hord hq hp
  obtain ⟨l, l', rfl⟩ := List.append_of_mem hq
  obtain ⟨h1, h2⟩ := hord
  rw [List.pairwise_append, List.pairwise_cons] at h2
  have hlater := h2.2.1.1
  have split : ∀ u : Env P, meaning grid (l ++ q :: l') u = meaning grid l' (assignOn grid (meaning grid l u) q) := fun u => by
    simp [meaning]
  rw [split]
  set u := meaning grid l v
  rw [meaning_untouched grid l' q.lhs (fun q' hm => (hlater q' hm).1.symm)]
  have e : q.rhs.eval (meaning grid l' (assignOn grid u q)) = q.rhs.eval u := by
    apply eval_arrays ?_ q.rhs (hp q hq)
    · intro s hs
      rw [meaning_untouched grid l' s (fun q' hm h => (hlater q' hm).2 (h ▸ hs))]
      funext y
      have : s ≠ q.lhs := fun h => h1 q hq (h ▸ hs)
      simp [assignOn, this]
    · have a := meaning_ops grid l' (assignOn grid u q)
      exact a
  rw [e]
  simp [assignOn, hy]

/-- **C71, finding: order of relations.** With the temperature listed before the pressure it needs, the temperature is computed from the old pressure. -/
theorem C71_relation_order (grid haloed : List P) (hg : grid.Nodup) (e : Ex) (he : e.cds = []) (v : Env P) (y : P) (hy : y ∈ grid) :
    (run grid haloed ((postRequired [("p", e), ("T", .un "T" (.data "p"))] ["T", "p"]).map Prod.snd) v).data "T" y = v.un "T" (v.data "p" y) := by
  rw [run_required grid haloed hg _ (by simp [he, Ex.cds])]
  simp [relationEqs, meaning, assignOn, hy, Ex.eval, List.find?]

/-! ## C72 -/

/-- **C72, points.** Initialisation visits exactly the points of the grid and five more on every side, corners and edges included. -/
theorem C72_points {n : ℕ} (np : Fin n → ℤ) (x : Fin n → ℤ) : (initRange np).visits x ↔ ∀ d, -5 ≤ x d ∧ x d < np d + 5 := by
  have e : initRange np = Mem.requestBoth (-5, 5) (Ranges.Kernel.onGrid fun d => (0, np d)) (List.finRange n) := rfl
  rw [e, Mem.visits_requestBoth]
  simp only [List.mem_finRange, forall_const, not_true_eq_false, false_implies, and_true]

/-- **C72, memory (partial).** These are exactly the elements in memory of every array with halos. Missing: arrays declared without halos, see `C72_outside_memory`. -/
theorem C72_memory_partial {n : ℕ} (np : Fin n → ℤ) (x : Fin n → ℤ) (name : String) (hn : ¬ Mem.noHalos name) : (initRange np).visits x ↔ Mem.Allocated np name x := by
  have e : Mem.declaredHalos name = (-5, 5) := if_neg hn
  rw [C72_points, Mem.Allocated, e]

/-- **C72, values.** After the initialisation kernel every array holds, at every visited point, the value of its last equation, computed with the values of the arrays assigned before it; arrays without an
equation and other points are unchanged. -/
theorem C72_values (pts : List P) (hn : pts.Nodup) (l l' : List UEq) (q : UEq) (hc : ∀ p ∈ l ++ q :: l', p.rhs.cds = []) (hlast : ∀ p ∈ l', p.lhs ≠ q.lhs) (v : Env P) :
    (∀ y ∈ pts, (pts.foldl (atPoint ((l ++ q :: l').map fun q => ⟨.data q.lhs, q.rhs⟩)) v).data q.lhs y = q.rhs.eval (meaning pts l v) y) ∧
    (∀ y ∉ pts, ∀ s, (pts.foldl (atPoint ((l ++ q :: l').map fun q => ⟨.data q.lhs, q.rhs⟩)) v).data s y = v.data s y) ∧
    (∀ s, (∀ p ∈ l ++ q :: l', p.lhs ≠ s) → (pts.foldl (atPoint ((l ++ q :: l').map fun q => ⟨.data q.lhs, q.rhs⟩)) v).data s = v.data s) := by
  rw [kernel_seq _ (fun e he => by obtain ⟨q, hm, rfl⟩ := List.mem_map.1 he; exact hc q hm) pts hn v, seq_meaning]
  refine ⟨fun y hy => ?_, fun y hy s => meaning_outside pts _ y hy v s, fun s hs => meaning_untouched pts _ s hs v⟩
  have split : meaning pts (l ++ q :: l') v = meaning pts l' (assignOn pts (meaning pts l v) q) := by simp [meaning]
  rw [split, meaning_untouched pts l' q.lhs hlast]
  simp [assignOn, hy]

/-- **C72, finding: writes outside memory.** For an array declared without halos, for example one whose name contains "Residual", initialisation writes elements outside its memory, in every block with at least one
direction. -/
theorem C72_outside_memory {n : ℕ} (np : Fin n → ℤ) (hnp : ∀ d, 0 < np d) (d : Fin n) (name : String) (h : Mem.noHalos name) :
    ∃ x, (initRange np).visits x ∧ ¬ Mem.Allocated np name x := by
  refine ⟨fun _ => -1, (C72_points np _).2 fun d => ⟨by norm_num, by have := hnp d; omega⟩, fun ha => ?_⟩
  have e : Mem.declaredHalos name = (0, 0) := if_pos h
  have := (ha d).1
  rw [e] at this
  exact absurd this (by norm_num)

/-! ## Examples -/

example (grid : List P) (hg : grid.Nodup) (v : Env P) (y : P) (hy : y ∈ grid) :
    (run grid grid (kernels 3 (fun q => q.rhs.cds) [⟨"vort", .bin "-" (.cd 0 (.data "v")) (.cd 1 (.data "u"))⟩, ⟨"ens", .bin "*" (.data "vort") (.cd 0 (.data "vort"))⟩]) v).data "vort" y =
      v.bin "-" (v.cd 0 (v.data "v") y) (v.cd 1 (v.data "u") y) := by
  have o1 : Ordinary ⟨"vort", .bin "-" (.cd 0 (.data "v")) (.cd 1 (.data "u"))⟩ := ⟨rfl, by intro d a h; simp [Ex.cds] at h; rcases h with h | h <;> simp [h.2, Ex.cds]⟩
  have o2 : Ordinary ⟨"ens", .bin "*" (.data "vort") (.cd 0 (.data "vort"))⟩ := ⟨rfl, by intro d a h; simp [Ex.cds] at h; simp [h.2, Ex.cds]⟩
  rw [C70_meaning_partial grid grid hg hg 3 _ (fun _ _ => Iff.rfl) _ (by simpa using ⟨o1, o2⟩) v true (by simp [UEq.derived, Ex.cds])]
  simp [meaning, assignOn, hy, Ex.eval]

example : InOrder (relationEqs [("p", .bin "*" (.data "rho") (.data "rho")), ("T", .un "T" (.data "p"))] ["p", "T"]) := by
  simp [InOrder, relationEqs, List.find?, Ex.arrays]

example (grid : List P) (hg : grid.Nodup) (v : Env P) (y : P) (hy : y ∈ grid) :
    (run grid grid (postKernels 0 (fun q => q.rhs.cds) [("T", .un "T" (.data "p"))] ["T"] ["mu"] [.cd 0 (.data "T")] [⟨"q", .bin "*" (.data "mu") (.cd 0 (.data "T"))⟩]) v).data "q" y =
      v.bin "*" (v.data "mu" y) (v.cd 0 (fun x => if x ∈ grid then v.un "T" (v.data "p" x) else v.data "T" x) y) := by
  have o : Ordinary ⟨"q", .bin "*" (.data "mu") (.cd 0 (.data "T"))⟩ := ⟨rfl, by intro d a h; simp [Ex.cds] at h; simp [h.2, Ex.cds]⟩
  rw [C71_meaning_partial grid grid hg 0 _ (fun _ _ => Iff.rfl) _ (by simp [Ex.cds, Ex.plain]) _ _ _ _ (by simpa using o) (fun c => by simp [Ex.cds]) (by simp [Ex.cds])
    (by simp [Ex.cds, Ex.arrays]) v]
  simp [relationEqs, meaning, assignOn, hy, Ex.eval, List.find?]

example (pts : List P) (hn : pts.Nodup) (v : Env P) (y : P) (hy : y ∈ pts) :
    (pts.foldl (atPoint ([⟨"rho", .num 2⟩, ⟨"rhou", .bin "*" (.data "rho") (.data "x")⟩, ⟨"E", .data "rhou"⟩].map fun q : UEq => ⟨.data q.lhs, q.rhs⟩)) v).data "rhou" y = v.bin "*" 2 (v.data "x" y) := by
  refine ((C72_values pts hn [⟨"rho", .num 2⟩] [⟨"E", .data "rhou"⟩] ⟨"rhou", .bin "*" (.data "rho") (.data "x")⟩ (by simp [Ex.cds]) (by simp) v).1 y hy).trans ?_
  simp [meaning, assignOn, hy, Ex.eval]

end OpenSBLI.User
