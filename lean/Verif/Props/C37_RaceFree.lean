import Verif.Lemmas.Kernel
import Mathlib.Data.List.Perm.Basic
import Mathlib.Algebra.Order.Ring.Rat
import Mathlib.Tactic.Linarith
import Mathlib.Data.Fin.VecNotation

/-!
# C37 parallel loops do not depend on the order of grid points
-/
namespace OpenSBLI.Ker

variable {d : ℕ} {V : Type}

/-- No grid point writes an array element that another grid point reads or writes. -/
def Independent (eqs : List (Eqn d)) (pts : List (Fin d → ℤ)) : Prop :=
  ∀ p ∈ pts, ∀ q ∈ pts, p ≠ q → ∀ e ∈ eqs, ∀ b, ∀ o ∈ e.mayWrite b, ∀ o', (b, o') ∈ accesses eqs → p + o ≠ q + o'

theorem mem_accesses_of_mayWrite {eqs : List (Eqn d)} {e : Eqn d} (he : e ∈ eqs) {b : String} {o : Fin d → ℤ} (h : o ∈ e.mayWrite b) :
    (b, o) ∈ accesses eqs :=
  List.mem_flatMap.2 ⟨e, he, mayWrite_accesses h⟩

/-- A point computes the same from any two stores that agree on the cells it accesses. -/
theorem point_agree (I : Interp V) (eqs : List (Eqn d)) (p : Fin d → ℤ) (st st' : Store d V) (hs : SameScalars st st')
    (h : ∀ c ∈ accesses eqs, st.data c.1 (p + c.2) = st'.data c.1 (p + c.2)) (b : String) (o : Fin d → ℤ) (hb : (b, o) ∈ accesses eqs) :
    (execPoint I eqs st p).data b (p + o) = (execPoint I eqs st' p).data b (p + o) := by
  have h1 : AgreeOn {c : String × (Fin d → ℤ) | ∃ a ∈ accesses eqs, c = (a.1, p + a.2)}
      (⟨st, fun _ => I.num 0⟩ : Point d V) ⟨st', fun _ => I.num 0⟩ := by
    refine ⟨rfl, hs, ?_⟩
    rintro c ⟨a, ha, rfl⟩
    exact h a ha
  have h2 := AgreeOn.eqns I p eqs (fun c hc => Set.mem_ofPred_eq ▸ ⟨c, hc, rfl⟩) h1
  exact h2.data (b, p + o) ⟨(b, o), hb, rfl⟩

theorem point_scalars (I : Interp V) (eqs : List (Eqn d)) (h : ∀ e ∈ eqs, e.noGlob) (st : Store d V) (p : Fin d → ℤ) :
    SameScalars (execPoint I eqs st p) st := eqns_scalars I p eqs h _

theorem store_ext {st st' : Store d V} (hs : SameScalars st st') (hd : ∀ b x, st.data b x = st'.data b x) : st = st' := by
  obtain ⟨a, b, c, e⟩ := st
  obtain ⟨a', b', c', e'⟩ := st'
  obtain ⟨h1, h2, h3⟩ := hs
  simp only at h1 h2 h3 hd
  subst h1 h2 h3
  congr 1
  funext b x; exact hd b x

theorem point_comm (I : Interp V) (eqs : List (Eqn d)) (pts : List (Fin d → ℤ)) (hg : ∀ e ∈ eqs, e.noGlob) (hi : Independent eqs pts)
    (p q : Fin d → ℤ) (hp : p ∈ pts) (hq : q ∈ pts) (st : Store d V) :
    execPoint I eqs (execPoint I eqs st p) q = execPoint I eqs (execPoint I eqs st q) p := by
  by_cases hpq : p = q
  · subst hpq; rfl
  have sc := point_scalars I eqs hg
  -- the cells accessed by one point are not written by the other
  have keep : ∀ p ∈ pts, ∀ q ∈ pts, p ≠ q → ∀ st : Store d V, ∀ c ∈ accesses eqs,
      (execPoint I eqs st p).data c.1 (q + c.2) = st.data c.1 (q + c.2) := by
    intro p hp q hq hpq st c hc
    apply point_frame
    intro e he o ho h
    exact hi p hp q hq hpq e he c.1 o ho c.2 hc h.symm
  apply store_ext
  · have h1 := (sc (execPoint I eqs st p) q).trans (sc st p)
    have h2 := (sc (execPoint I eqs st q) p).trans (sc st q)
    exact ⟨h1.1.trans h2.1.symm, h1.2.1.trans h2.2.1.symm, h1.2.2.trans h2.2.2.symm⟩
  · intro b x
    by_cases wp : ∃ e ∈ eqs, ∃ o ∈ e.mayWrite b, x = p + o
    · obtain ⟨e, he, o, ho, rfl⟩ := wp
      have ha := mem_accesses_of_mayWrite he ho
      refine Eq.trans (point_frame I eqs _ q b _ fun e' he' o' ho' h => hi q hq p hp (Ne.symm hpq) e' he' b o' ho' o ha h.symm) ?_
      exact Eq.symm <| point_agree I eqs p _ _ ⟨(sc st q).1, (sc st q).2.1, (sc st q).2.2⟩ (fun c hc => keep q hq p hp (Ne.symm hpq) st c hc) b o ha
    · by_cases wq : ∃ e ∈ eqs, ∃ o ∈ e.mayWrite b, x = q + o
      · obtain ⟨e, he, o, ho, rfl⟩ := wq
        have ha := mem_accesses_of_mayWrite he ho
        refine Eq.trans ?_ (point_frame I eqs _ p b _ fun e' he' o' ho' h => hi p hp q hq hpq e' he' b o' ho' o ha h.symm).symm
        exact point_agree I eqs q _ _ (sc st p) (fun c hc => keep p hp q hq hpq st c hc) b o ha
      · have fp : ∀ st : Store d V, (execPoint I eqs st p).data b x = st.data b x := fun st =>
          point_frame I eqs st p b x fun e he o ho h => wp ⟨e, he, o, ho, h⟩
        have fq : ∀ st : Store d V, (execPoint I eqs st q).data b x = st.data b x := fun st =>
          point_frame I eqs st q b x fun e he o ho h => wq ⟨e, he, o, ho, h⟩
        rw [fq, fp, fp, fq]

/-- C37: for a kernel whose points are independent (and which assigns no global) the result of the loop is the same for every order of the
grid points, for every arithmetic. -/
theorem C37_order_independent (I : Interp V) (eqs : List (Eqn d)) (pts pts' : List (Fin d → ℤ)) (hperm : pts.Perm pts')
    (hg : ∀ e ∈ eqs, e.noGlob) (hi : Independent eqs pts) (st : Store d V) : execLoop I eqs pts st = execLoop I eqs pts' st :=
  hperm.foldl_eq' (fun p hp q hq st => point_comm I eqs pts hg hi p q hp hq st) st

/-- C37: and it is the simultaneous update: every element written by a grid point has the value this point computes from the store before
the loop, all other elements are unchanged. -/
theorem C37_simultaneous (I : Interp V) (eqs : List (Eqn d)) (pts : List (Fin d → ℤ)) (hnd : pts.Nodup)
    (hg : ∀ e ∈ eqs, e.noGlob) (hi : Independent eqs pts) (st : Store d V) (b : String) :
    (∀ p ∈ pts, ∀ o, (∃ e ∈ eqs, o ∈ e.mayWrite b) → (execLoop I eqs pts st).data b (p + o) = (execPoint I eqs st p).data b (p + o)) ∧
    (∀ x, (∀ p ∈ pts, ∀ o, (∃ e ∈ eqs, o ∈ e.mayWrite b) → x ≠ p + o) → (execLoop I eqs pts st).data b x = st.data b x) := by
  constructor
  · rintro p hp o ⟨e, he, ho⟩
    obtain ⟨l₁, l₂, rfl⟩ := List.append_of_mem hp
    have hperm : (l₁ ++ p :: l₂).Perm (p :: (l₁ ++ l₂)) := List.perm_middle
    rw [C37_order_independent I eqs _ _ hperm hg hi]
    rw [execLoop, List.foldl_cons, ← execLoop, loop_frame]
    intro q hq e' he' o' ho' h
    have hne : q ≠ p := by
      rintro rfl
      exact (List.nodup_cons.1 (hperm.nodup_iff.1 hnd)).1 hq
    have hq' : q ∈ l₁ ++ p :: l₂ := by
      rcases List.mem_append.1 hq with h | h
      · exact List.mem_append_left _ h
      · exact List.mem_append_right _ (List.mem_cons_of_mem _ h)
    exact hi q hq' p hp hne e' he' b o' ho' o (mem_accesses_of_mayWrite he ho) h.symm
  · intro x hx
    exact loop_frame I eqs pts st b x fun p hp e he o ho => hx p hp o ⟨e, he, ho⟩

/-- C37, interior kernels (derivatives stored to work arrays, residuals, Runge-Kutta updates): if every array that is written is accessed
at a single offset, the points are independent whatever the range. -/
theorem C37_pointwise_kernels (eqs : List (Eqn d)) (pts : List (Fin d → ℤ))
    (h : ∀ e ∈ eqs, ∀ b, ∀ o ∈ e.mayWrite b, ∀ o', (b, o') ∈ accesses eqs → o' = o) : Independent eqs pts := by
  intro p _ q _ hpq e he b o ho o' ho' heq
  rw [h e he b o ho o' ho'] at heq
  exact hpq (add_right_cancel heq)

/-- C37, boundary kernels: if the loop covers a plane of constant index in a direction and the arrays that are written are accessed only
along that direction, the points are independent. -/
theorem C37_boundary_kernels (eqs : List (Eqn d)) (pts : List (Fin d → ℤ)) (dir : Fin d)
    (hplane : ∀ p ∈ pts, ∀ q ∈ pts, p dir = q dir)
    (h : ∀ e ∈ eqs, ∀ b, ∀ o ∈ e.mayWrite b, (∀ i, i ≠ dir → o i = 0) ∧ ∀ o', (b, o') ∈ accesses eqs → ∀ i, i ≠ dir → o' i = 0) :
    Independent eqs pts := by
  intro p hp q hq hpq e he b o ho o' ho' heq
  obtain ⟨h1, h2⟩ := h e he b o ho
  apply hpq
  funext i
  by_cases hi : i = dir
  · subst hi; exact hplane p hp q hq
  · have := congrFun heq i
    simp only [Pi.add_apply, h1 i hi, h2 o' ho' i hi, add_zero] at this
    exact this

/-- `q[0] = q[1]` in one dimension: an in-place stencil update. -/
def inPlaceKernel : List (Eqn 1) := [.assign ⟨.data "q" 0, .data "q" 1⟩]

/-- Without independence the order matters: the hypothesis cannot be dropped. -/
theorem C37_in_place_order_dependent : ∃ (I : Interp ℚ) (st : Store 1 ℚ) (pts pts' : List (Fin 1 → ℤ)), pts.Perm pts' ∧
    (execLoop I inPlaceKernel pts st).data "q" 0 ≠ (execLoop I inPlaceKernel pts' st).data "q" 0 := by
  refine ⟨⟨fun q => q, fun _ x => x, fun _ x _ => x, fun _ _ _ => true, fun x => x⟩,
    ⟨fun _ x => x 0, fun _ => 0, fun _ _ => 0, fun _ => 0⟩, [0, 1], [1, 0], List.Perm.swap _ _ _, ?_⟩
  have h10 : (1 : Fin 1 → ℤ) ≠ 0 := by decide
  have h11 : (1 + 1 : Fin 1 → ℤ) ≠ 1 := by decide
  have h01 : (0 : Fin 1 → ℤ) ≠ 1 := by decide
  simp [execLoop, execPoint, inPlaceKernel, Eqn.exec, Assign.exec, Store.setData, Expr.eval, h01]

/-- A central first derivative stored to a work array meets the hypothesis of `C37_pointwise_kernels`. -/
example : ∀ e ∈ ([.assign ⟨.data "wk0" 0, .bin "-" (.data "u" ![1, 0]) (.data "u" ![-1, 0])⟩] : List (Eqn 2)), ∀ b, ∀ o ∈ e.mayWrite b,
    ∀ o', (b, o') ∈ accesses ([.assign ⟨.data "wk0" 0, .bin "-" (.data "u" ![1, 0]) (.data "u" ![-1, 0])⟩] : List (Eqn 2)) → o' = o := by
  intro e he b o ho o' ho'
  simp only [List.mem_singleton] at he
  subst he
  simp only [Eqn.mayWrite, Set.mem_ofPred_eq, Lhs.data.injEq] at ho
  obtain ⟨rfl, rfl⟩ := ho
  simpa [accesses, Eqn.accesses, Lhs.accesses, Expr.accesses] using ho'

/-- A symmetry condition at the lower boundary in direction 0 meets the hypotheses of `C37_boundary_kernels`. -/
example : Independent ([.assign ⟨.data "rho" ![-1, 0], .data "rho" ![1, 0]⟩, .assign ⟨.data "rho" ![-2, 0], .data "rho" ![2, 0]⟩] :
    List (Eqn 2)) [![0, 0], ![0, 1], ![0, 2]] := by
  refine C37_boundary_kernels _ _ 0 ?_ ?_
  · simp
  · intro e he b o ho
    simp only [List.mem_cons, List.not_mem_nil, or_false] at he
    refine ⟨?_, ?_⟩
    · intro i hi
      have : i = 1 := by omega
      subst this
      rcases he with rfl | rfl <;> simp only [Eqn.mayWrite, Set.mem_ofPred_eq, Lhs.data.injEq] at ho <;>
        obtain ⟨rfl, rfl⟩ := ho <;> rfl
    · intro o' ho' i hi
      have : i = 1 := by omega
      subst this
      simp [accesses, Eqn.accesses, Lhs.accesses, Expr.accesses] at ho'
      rcases ho' with ⟨-, rfl⟩ | ⟨-, rfl⟩ | ⟨-, rfl⟩ | ⟨-, rfl⟩ <;> rfl

end OpenSBLI.Ker
