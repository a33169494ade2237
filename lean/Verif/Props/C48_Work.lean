import Verif.Model.Work
import Mathlib.Data.List.Nodup
import Mathlib.Order.Basic
import Mathlib.Data.List.Dedup

/-!
# C48 Work arrays
-/
namespace OpenSBLI.Work

variable {F : Type}

/-! ## Convective derivatives -/

theorem number_spec (ds : List (Der F)) (w : Index) :
    (number ds w).1.map Prod.snd = ds ∧ (number ds w).1.map Prod.fst = List.range' w.index ds.length ∧
      (number ds w).2 = { w with index := w.index + ds.length } := by
  induction ds generalizing w with
  | nil => simp [number]
  | cons d ds ih =>
    obtain ⟨h1, h2, h3⟩ := ih w.increase
    simp only [number, List.map_cons, h1, h2, h3, List.length_cons]
    refine ⟨trivial, ?_, ?_⟩
    · simp [Index.increase, List.range'_succ]
    · simp [Index.increase]; omega

theorem numberAll_spec (gs : List (List (Der F))) (w : Index) :
    (numberAll gs w).1.map (fun g => g.map Prod.snd) = gs ∧ (numberAll gs w).1.flatten.map Prod.fst = List.range' w.index gs.flatten.length ∧
      (numberAll gs w).2 = { w with index := w.index + gs.flatten.length } := by
  induction gs generalizing w with
  | nil => simp [numberAll]
  | cons g gs ih =>
    obtain ⟨a1, a2, a3⟩ := number_spec g w
    obtain ⟨h1, h2, h3⟩ := ih (number g w).2
    simp only [numberAll, List.map_cons, a1, h1, List.flatten_cons, List.map_append, a2, h2, h3, List.length_append]
    refine ⟨trivial, ?_, ?_⟩
    · rw [a3]
      simp only []
      rw [← List.range'_append_1]
    · rw [a3]
      simp only [Index.mk.injEq, and_true]
      omega

theorem exec_append (a b : List (Instr F)) (env : ℕ → F) : exec (a ++ b) env = exec b (exec a env) := by simp [exec]

/-- The statements of one direction: the local ones write the arrays from the current index on, the derivative ones read them. -/
theorem groupLoop_spec (ders : List (ℕ × Der F)) (w : Index) :
    w.index ≤ (groupLoop ders w).2.2.index ∧ (groupLoop ders w).2.2.stored = w.stored ∧
      (∀ env i, i < w.index → exec (groupLoop ders w).1 env i = env i) ∧
      (∀ env env' : ℕ → F, (∀ t ∈ ders.map Prod.fst, t < w.index) → (∀ i, w.index ≤ i → env' i = exec (groupLoop ders w).1 env i) →
        (ders.map Prod.fst).Nodup →
        (∀ t d, (t, d) ∈ ders → exec (groupLoop ders w).2.1 env' t = d.op d.arg) ∧
        ∀ i, i ∉ ders.map Prod.fst → exec (groupLoop ders w).2.1 env' i = env' i) := by
  induction ders generalizing w with
  | nil =>
    refine ⟨Nat.le_refl _, rfl, fun _ _ _ => rfl, fun env env' _ _ _ => ⟨?_, ?_⟩⟩
    · intro t d h; cases h
    · intro i _; rfl
  | cons p rest ih =>
    obtain ⟨t, d⟩ := p
    by_cases hs : d.several = true
    · obtain ⟨h1, h2, h3, h4⟩ := ih w.increase
      simp only [groupLoop, hs, if_true]
      have hix : w.increase.index = w.index + 1 := rfl
      rw [hix] at h1 h3 h4
      refine ⟨Nat.le_trans (Nat.le_succ _) h1, h2, ?_, ?_⟩
      · intro env i hi
        show exec (groupLoop rest w.increase).1 (Function.update env w.index d.arg) i = env i
        rw [h3 _ i (by omega), Function.update_of_ne (by omega)]
      · intro env env' ht henv hn
        simp only [List.map_cons, List.nodup_cons] at hn
        have htw : t < w.index := ht t (by simp)
        -- the array of this derivative holds its expression
        have hval : env' w.index = d.arg := by
          rw [henv w.index (Nat.le_refl _)]
          show exec (groupLoop rest w.increase).1 (Function.update env w.index d.arg) w.index = d.arg
          rw [h3 _ _ (by omega), Function.update_self]
        have key := h4 (Function.update env w.index d.arg) (Function.update env' t (d.op (env' w.index)))
          (fun x hx => Nat.lt_succ_of_lt (ht x (List.mem_cons_of_mem _ hx)))
          (fun i hi => by
            rw [Function.update_of_ne (by omega)]
            exact henv i (by omega)) hn.2
        constructor
        · intro t' d' hmem
          show exec (groupLoop rest w.increase).2.1 (Function.update env' t (d.op (env' w.index))) t' = d'.op d'.arg
          rcases List.mem_cons.mp hmem with h | h
          · cases h
            rw [key.2 t hn.1, Function.update_self, hval]
          · exact key.1 t' d' h
        · intro i hi
          simp only [List.map_cons, List.mem_cons, not_or] at hi
          show exec (groupLoop rest w.increase).2.1 (Function.update env' t (d.op (env' w.index))) i = env' i
          rw [key.2 i hi.2, Function.update_of_ne hi.1]
    · obtain ⟨h1, h2, h3, h4⟩ := ih w
      simp only [groupLoop, hs, Bool.false_eq_true, if_false]
      refine ⟨h1, h2, h3, ?_⟩
      intro env env' ht henv hn
      simp only [List.map_cons, List.nodup_cons] at hn
      have htw : t < w.index := ht t (by simp)
      have key := h4 env (Function.update env' t (d.op d.arg)) (fun x hx => ht x (List.mem_cons_of_mem _ hx))
        (fun i hi => by
          rw [Function.update_of_ne (by omega)]
          exact henv i hi) hn.2
      constructor
      · intro t' d' hmem
        show exec (groupLoop rest w).2.1 (Function.update env' t (d.op d.arg)) t' = d'.op d'.arg
        rcases List.mem_cons.mp hmem with h | h
        · cases h
          rw [key.2 t hn.1, Function.update_self]
        · exact key.1 t' d' h
      · intro i hi
        simp only [List.map_cons, List.mem_cons, not_or] at hi
        show exec (groupLoop rest w).2.1 (Function.update env' t (d.op d.arg)) i = env' i
        rw [key.2 i hi.2, Function.update_of_ne hi.1]

theorem group_spec (ders : List (ℕ × Der F)) (w : Index) (ht : ∀ t ∈ ders.map Prod.fst, t < w.index) (hn : (ders.map Prod.fst).Nodup) :
    (group ders w).2.index = w.index ∧
      ∀ env : ℕ → F, (∀ t d, (t, d) ∈ ders → exec (group ders w).1 env t = d.op d.arg) ∧
        ∀ i, i < w.index → i ∉ ders.map Prod.fst → exec (group ders w).1 env i = env i := by
  obtain ⟨_, h2, h3, h4⟩ := groupLoop_spec ders w.store
  refine ⟨?_, fun env => ?_⟩
  · exact h2
  · obtain ⟨a, b⟩ := h4 env (exec (groupLoop ders w.store).1 env) ht (fun _ _ => rfl) hn
    simp only [group, exec_append]
    refine ⟨a, fun i hi hi' => ?_⟩
    rw [b i hi', h3 env i hi]

theorem groups_spec (gs : List (List (ℕ × Der F))) (w : Index) (ht : ∀ t ∈ gs.flatten.map Prod.fst, t < w.index) (hn : (gs.flatten.map Prod.fst).Nodup) :
    (groups gs w).2.index = w.index ∧
      ∀ env : ℕ → F, (∀ t d, (t, d) ∈ gs.flatten → exec (groups gs w).1 env t = d.op d.arg) ∧
        ∀ i, i < w.index → i ∉ gs.flatten.map Prod.fst → exec (groups gs w).1 env i = env i := by
  induction gs generalizing w with
  | nil =>
    refine ⟨rfl, fun env => ⟨?_, fun _ _ _ => rfl⟩⟩
    intro t d h
    simp at h
  | cons g gs ih =>
    simp only [List.flatten_cons, List.map_append, List.mem_append] at ht
    simp only [List.flatten_cons, List.map_append] at hn
    rw [List.nodup_append] at hn
    obtain ⟨n1, n2, n3⟩ := hn
    obtain ⟨e1, e2⟩ := group_spec g w (fun t h => ht t (Or.inl h)) n1
    obtain ⟨f1, f2⟩ := ih (group g w).2 (fun t h => by rw [e1]; exact ht t (Or.inr h)) n2
    refine ⟨by simp only [groups]; rw [f1, e1], fun env => ⟨?_, ?_⟩⟩
    · intro t d hmem
      simp only [groups, exec_append]
      rw [List.flatten_cons, List.mem_append] at hmem
      rcases hmem with h | h
      · have hin : t ∈ g.map Prod.fst := List.mem_map.mpr ⟨_, h, rfl⟩
        have hlt : t < w.index := ht t (Or.inl hin)
        rw [(f2 _).2 t (by omega) fun hh => n3 t hin t hh rfl]
        exact (e2 env).1 t d h
      · exact (f2 _).1 t d h
    · intro i hi hni
      simp only [groups, exec_append]
      simp only [List.flatten_cons, List.map_append, List.mem_append, not_or] at hni
      rw [(f2 _).2 i (by omega) hni.2, (e2 env).2 i hi hni.1]

/-- C48: convective derivatives, any number of directions and derivatives, starting from any work index and any contents of the work arrays: after all statements every derivative's own work
array holds the derivative of its expression, although the arrays for the expressions are reused in every direction; arrays below the starting index keep their contents, and the work index is behind the
arrays in use. -/
theorem C48_convective (gs : List (List (Der F))) (w : Index) (env : ℕ → F) :
    (∀ p (hp : p < gs.flatten.length), exec (convective gs w).2.1 env (w.index + p) = gs.flatten[p].op gs.flatten[p].arg) ∧
      (∀ i, i < w.index → exec (convective gs w).2.1 env i = env i) ∧ (convective gs w).2.2.index = w.index + gs.flatten.length := by
  obtain ⟨h1, h2, h3⟩ := numberAll_spec gs w
  have ht : ∀ t ∈ (numberAll gs w).1.flatten.map Prod.fst, t < (numberAll gs w).2.index := by
    rw [h2, h3]
    intro t hh
    rw [List.mem_range'_1] at hh
    exact hh.2
  have hn : ((numberAll gs w).1.flatten.map Prod.fst).Nodup := by rw [h2]; exact List.nodup_range'
  obtain ⟨e1, e2⟩ := groups_spec (numberAll gs w).1 (numberAll gs w).2 ht hn
  have hsnd : (numberAll gs w).1.flatten.map Prod.snd = gs.flatten := by
    rw [List.map_flatten, h1]
  refine ⟨?_, ?_, ?_⟩
  · intro p hp
    have hlen : p < (numberAll gs w).1.flatten.length := by
      rw [← hsnd, List.length_map] at hp; exact hp
    have hf : ((numberAll gs w).1.flatten[p]).1 = w.index + p := by
      have := List.getElem_map Prod.fst (l := (numberAll gs w).1.flatten) (i := p) (h := by rw [List.length_map]; exact hlen)
      rw [← this]
      simp only [h2, List.getElem_range', Nat.one_mul]
    have hd : ((numberAll gs w).1.flatten[p]).2 = gs.flatten[p] := by
      have := List.getElem_map Prod.snd (l := (numberAll gs w).1.flatten) (i := p) (h := by rw [List.length_map]; exact hlen)
      rw [← this]
      simp only [hsnd]
    have := (e2 env).1 ((numberAll gs w).1.flatten[p]).1 ((numberAll gs w).1.flatten[p]).2 (List.getElem_mem hlen)
    rw [hf, hd] at this
    exact this
  · intro i hi
    refine (e2 env).2 i ?_ ?_
    · rw [h3]; exact Nat.lt_of_lt_of_le hi (Nat.le_add_right _ _)
    · rw [h2, List.mem_range'_1]; omega
  · show (groups (numberAll gs w).1 (numberAll gs w).2).2.index = _
    rw [e1, h3]

/-! ## Viscous derivatives -/

theorem runKernels_cons (ders : List (NDer F)) (i : ℕ) (l : List ℕ) (env : ℕ → F) :
    runKernels ders (i :: l) env = runKernels ders l (runKernels ders [i] env) := rfl

theorem runKernels_not_mem (ders : List (NDer F)) (l : List ℕ) (env : ℕ → F) (j : ℕ) (h : j ∉ l) : runKernels ders l env j = env j := by
  induction l generalizing env with
  | nil => rfl
  | cons i l ih =>
    rw [List.mem_cons, not_or] at h
    rw [runKernels_cons, ih _ h.2]
    simp only [runKernels, List.foldl_cons, List.foldl_nil]
    cases ders[i]? with
    | some d => exact Function.update_of_ne h.1 _ _
    | none => rfl

/-- Any order in which inner derivatives come before the derivatives that use them computes the values. -/
theorem runKernels_correct (ders : List (NDer F)) (val : ℕ → F) (hval : ∀ i (h : i < ders.length), val i = ders[i].op (ders[i].inner.map val))
    (done todo : List ℕ) (hn : (done ++ todo).Nodup) (hlen : ∀ i ∈ todo, i < ders.length)
    (hord : todo.Pairwise fun i k => ∀ h : i < ders.length, k ∉ ders[i].inner)
    (hin : ∀ i ∈ todo, ∀ h : i < ders.length, ∀ j ∈ ders[i].inner, j ∈ done ++ todo ∧ j ≠ i)
    (env : ℕ → F) (henv : ∀ i ∈ done, env i = val i) : ∀ i ∈ done ++ todo, runKernels ders todo env i = val i := by
  induction todo generalizing done env with
  | nil => intro i hi; rw [List.append_nil] at hi; exact henv i hi
  | cons k todo ih =>
    have hk := hlen k List.mem_cons_self
    rw [List.pairwise_cons] at hord
    rw [runKernels_cons]
    have hstep : runKernels ders [k] env = Function.update env k (val k) := by
      simp only [runKernels, List.foldl_cons, List.foldl_nil, List.getElem?_eq_getElem hk]
      rw [hval k hk]
      congr 2
      refine List.map_congr_left fun j hj => henv j ?_
      obtain ⟨h1, h2⟩ := hin k List.mem_cons_self hk j hj
      rcases List.mem_append.mp h1 with h | h
      · exact h
      · rcases List.mem_cons.mp h with h | h
        · exact absurd h h2
        · exact absurd hj (hord.1 j h hk)
    rw [hstep]
    have hn' : ((done ++ [k]) ++ todo).Nodup := by simpa using hn
    have := ih (done ++ [k]) hn' (fun i hi => hlen i (List.mem_cons_of_mem _ hi)) hord.2
      (fun i hi h j hj => by simpa using hin i (List.mem_cons_of_mem _ hi) h j hj) (Function.update env k (val k)) (by
        intro i hi
        rcases List.mem_append.mp hi with hi | hi
        · have : i ≠ k := by
            rw [List.nodup_append] at hn
            exact hn.2.2 i hi k List.mem_cons_self
          rw [Function.update_of_ne this]; exact henv i hi
        · rw [List.mem_singleton] at hi
          rw [hi, Function.update_self])
    intro i hi
    exact this i (by simpa using hi)

/-- C48, partial: derivatives with inner derivatives, any number in any order. If every inner derivative involves fewer directions than the derivative around it, as in the
mixed derivatives of the compressible Navier-Stokes equations, then after the sorted kernels every work array holds its derivative, applied to the values of the inner ones; the old contents of the
work arrays do not matter. Missing: nested derivatives in the same direction (`C48_same_direction`). -/
theorem C48_viscous_partial (ders : List (NDer F)) (val : ℕ → F) (hval : ∀ i (h : i < ders.length), val i = ders[i].op (ders[i].inner.map val))
    (hkey : ∀ i (h : i < ders.length), ∀ j ∈ ders[i].inner, ∃ hj : j < ders.length, ders[j].key < ders[i].key) (env : ℕ → F) (i : ℕ) (hi : i < ders.length) :
    viscous ders env i = val i := by
  have hperm : (kernelOrder ders).Perm (List.range ders.length) := List.mergeSort_perm _ _
  have hpw : (kernelOrder ders).Pairwise fun i j => decide (((ders[i]?.map NDer.key).getD 0) ≤ ((ders[j]?.map NDer.key).getD 0)) = true := by
    apply List.pairwise_mergeSort
    · intro a b c hab hbc
      simp only [decide_eq_true_eq] at *
      exact Nat.le_trans hab hbc
    · intro a b
      simp only [Bool.or_eq_true, decide_eq_true_eq]
      exact Nat.le_total _ _
  have mem : ∀ k, k ∈ kernelOrder ders ↔ k < ders.length := fun k => by rw [hperm.mem_iff, List.mem_range]
  refine runKernels_correct ders val hval [] (kernelOrder ders) ?_ (fun k hk => (mem k).mp hk) ?_ ?_ env (by simp) i ?_
  · rw [List.nil_append]; exact hperm.nodup_iff.mpr List.nodup_range
  · refine hpw.imp ?_
    intro a b hab ha hb
    obtain ⟨hj, hlt⟩ := hkey a ha b hb
    simp only [decide_eq_true_eq, List.getElem?_eq_getElem ha, List.getElem?_eq_getElem hj, Option.map_some, Option.getD_some] at hab
    omega
  · intro k _ h j hj
    obtain ⟨hjl, hlt⟩ := hkey k h j hj
    refine ⟨by rw [List.nil_append]; exact (mem j).mpr hjl, ?_⟩
    rintro rfl
    exact Nat.lt_irrefl _ hlt
  · rw [List.nil_append]; exact (mem i).mpr hi

/-- C48 (finding): a derivative around a derivative in the same direction, as in `∂/∂x0 (mu ∂u/∂x0)`, has the same sort key as the inner one. When the set yields the outer derivative
first, its kernel reads the old contents of the work array. -/
theorem C48_same_direction (outer : F → F) (inner : F) (env : ℕ → F) :
    viscous [⟨[0, 0], [1], fun l => outer (l.headD inner)⟩, ⟨[0], [], fun _ => inner⟩] env 0 = outer (env 1) ∧
      viscous [⟨[0], [], fun _ => inner⟩, ⟨[0, 0], [0], fun l => outer (l.headD inner)⟩] env 1 = outer inner := by
  have o1 : kernelOrder [(⟨[0, 0], [1], fun l => outer (l.headD inner)⟩ : NDer F), ⟨[0], [], fun _ => inner⟩] = [0, 1] := by
    simp [kernelOrder, NDer.key, List.range_succ, List.mergeSort, List.MergeSort.Internal.splitInTwo]
  have o2 : kernelOrder [(⟨[0], [], fun _ => inner⟩ : NDer F), ⟨[0, 0], [0], fun l => outer (l.headD inner)⟩] = [0, 1] := by
    simp [kernelOrder, NDer.key, List.range_succ, List.mergeSort, List.MergeSort.Internal.splitInTwo]
  constructor
  · rw [viscous, o1]
    simp [runKernels]
  · rw [viscous, o2]
    simp [runKernels]

/-! ## Replacing the derivatives in the equations -/

/-- C48 (finding): the replacement of derivatives by work arrays looks for a nested derivative in the form in which its inner derivative has been replaced. If the substitution
takes the outer one first, as it does when the outer one has more operations, for example `∂/∂x1 (mu wk0)`, the derivative is left in the residual. -/
theorem C48_substitution_order :
    let eqn := Ex.cd 1 (.mul (.data "mu") (.cd 0 (.data "u")))
    let inner := (Ex.cd 0 (.data "u"), 0)
    let outer := (Ex.cd 1 (.mul (.data "mu") (.work 0)), 1)
    eqn.subs [inner, outer] = .work 1 ∧ (eqn.subs [outer, inner]).resolved = false := by
  decide +kernel

/-- The value of an expression, given the datasets, the work arrays and the discretised operators. -/
def Ex.eval (data : String → F) (work : ℕ → F) (op : ℕ → F → F) (plus times : F → F → F) : Ex → F
  | .data s => data s
  | .work i => work i
  | .cd d e => op d (e.eval data work op plus times)
  | .add a b => plus (a.eval data work op plus times) (b.eval data work op plus times)
  | .mul a b => times (a.eval data work op plus times) (b.eval data work op plus times)

/-- C48: replacing derivatives by work arrays never changes the value of an equation, in any order of replacement, if every work array holds the value of the expression it stands for. -/
theorem C48_replacement (data : String → F) (work : ℕ → F) (op : ℕ → F → F) (plus times : F → F → F) (pairs : List (Ex × ℕ))
    (h : ∀ p ∈ pairs, work p.2 = p.1.eval data work op plus times) (e : Ex) :
    (e.subs pairs).eval data work op plus times = e.eval data work op plus times := by
  have one : ∀ (old : Ex) (i : ℕ), work i = old.eval data work op plus times → ∀ e : Ex,
      (e.replace old (.work i)).eval data work op plus times = e.eval data work op plus times := by
    intro old i hi e
    induction e with
    | data s =>
      simp only [Ex.replace]; split
      · rename_i h; rw [h]; exact hi
      · rfl
    | work j =>
      simp only [Ex.replace]; split
      · rename_i h; rw [h]; exact hi
      · rfl
    | cd d a ih =>
      simp only [Ex.replace]; split
      · rename_i h; rw [h]; exact hi
      · simp only [Ex.eval, ih]
    | add a b iha ihb =>
      simp only [Ex.replace]; split
      · rename_i h; rw [h]; exact hi
      · simp only [Ex.eval, iha, ihb]
    | mul a b iha ihb =>
      simp only [Ex.replace]; split
      · rename_i h; rw [h]; exact hi
      · simp only [Ex.eval, iha, ihb]
  induction pairs generalizing e with
  | nil => rfl
  | cons p ps ih =>
    have := ih (fun q hq => h q (List.mem_cons_of_mem _ hq)) (e.replace p.1 (.work p.2))
    rw [show e.subs (p :: ps) = (e.replace p.1 (.work p.2)).subs ps from rfl, this, one p.1 p.2 (h p List.mem_cons_self)]

/-! ## Examples -/

/-- Two directions, expressions in work arrays: arrays 0 to 2 for the derivatives, 3 and 4 for the expressions, 3 used again in the second direction. -/
example : let a : Der ℕ := ⟨10, (· + 1), true⟩
    let b : Der ℕ := ⟨20, (· + 2), true⟩
    let c : Der ℕ := ⟨30, (· + 3), true⟩
    let r := exec (convective [[a, b], [c]] ⟨0, 0⟩).2.1 (fun _ => 0)
    [r 0, r 1, r 2, r 3, r 4] = [11, 22, 33, 30, 20] := by decide

/-- A mixed derivative listed before its inner derivative: the sort puts the inner one first. -/
example (op : ℕ → ℕ) (u : ℕ) (env : ℕ → ℕ) :
    viscous [⟨[0, 1], [1], fun l => op (l.headD 0)⟩, ⟨[0], [], fun _ => u⟩] env 0 = op u := by
  refine C48_viscous_partial _ (fun i => if i = 0 then op u else u) ?_ ?_ env 0 (by simp)
  · intro i h
    match i, h with
    | 0, _ => simp
    | 1, _ => simp
  · intro i h j hj
    match i, h with
    | 0, _ =>
      simp only [List.getElem_cons_zero, List.mem_singleton] at hj
      subst hj
      exact ⟨by simp, by simp [NDer.key]⟩
    | 1, _ => simp at hj

end OpenSBLI.Work
