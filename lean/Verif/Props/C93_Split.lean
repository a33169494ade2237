import Verif.Props.C93_Blocks
import Verif.Props.C77_Conservation

/-!
# C93: a domain split into blocks

A simulation on one block and one on several blocks which tile it. Whatever the conditions at the outer boundaries, when they look the same from the blocks as from the whole, and when the equations read no points in the
halos of two directions at once, the blocks hold after any number of steps exactly the values of the one block.
-/
namespace OpenSBLI.Sim
open MultiBlock (Link nextTo InFace InHalo across)

variable {D n Nb : ℕ}

/-! ## Points read -/

/-- Points at which an expression reads datasets for its value at `x`, with stencils reaching `h` points. -/
def Ex.reads (h : ℤ) : Ex D → P D → P D → Prop
  | .arr _ => fun x y => y = x
  | .cd d _ e => fun x y => ∃ j : ℤ, |j| ≤ h ∧ e.reads h (shift x d j) y
  | .add a b | .mul a b | .pow a b => fun x y => a.reads h x y ∨ b.reads h x y
  | .fn _ e => e.reads h
  | _ => fun _ _ => False

theorem shift_offset (x o : P D) (d : Fin D) (j : ℤ) : shift x d j + o = shift (x + o) d j := by
  funext e
  by_cases he : e = d
  · subst he; simp [shift]; ring
  · simp [shift, he]

/-- Central differences look the same from another origin. -/
theorem eval_moved {S : Setup D n} {I : Interp D} {delta : Fin D → ℝ} (hI : IsCentral S I delta) {f g : String → P D → ℝ} {o : P D} (e : Ex D) (x : P D)
    (h : ∀ s ∈ e.datas, ∀ y, e.reads S.h x y → f s y = g s (y + o)) : e.eval I (memOf f) x = e.eval I (memOf g) (x + o) := by
  induction e generalizing x with
  | num _ => rfl
  | const _ => rfl
  | indexed _ => rfl
  | arr a =>
    cases a with
    | data s => exact h s (by simp [Ex.datas, Ex.arrs]) x rfl
    | _ => rfl
  | cd d k e ih =>
    simp only [Ex.eval]
    rw [central_eval hI, central_eval hI]
    congr 1
    refine Finset.sum_congr rfl fun p hp => ?_
    rw [← shift_offset, ih (shift x d p) fun s hs y hy => h s hs y ⟨p, points_abs S hp, hy⟩]
  | add a b iha ihb | mul a b iha ihb | pow a b iha ihb =>
    simp only [Ex.eval]
    rw [iha x fun s hs y hy => h s ((mem_datas _ s).2 (List.mem_append_left _ ((mem_datas a s).1 hs))) y (.inl hy),
      ihb x fun s hs y hy => h s ((mem_datas _ s).2 (List.mem_append_right _ ((mem_datas b s).1 hs))) y (.inr hy)]
  | fn g e ih =>
    simp only [Ex.eval]
    rw [ih x h]

/-! ## The boundary phase -/

/-- Values no exchange touches stay as they are. -/
theorem untouched_kept {α : Type} {np : Fin Nb → Fin D → ℤ} (hnp : ∀ b d, 0 ≤ np b d) {h : ℤ} (hh : 0 ≤ h) (own : Fin Nb → (P D → α) → P D → α) (b : Fin Nb) (y : P D)
    (steps : List (MultiBlock.Step D Nb)) (hl : ∀ l, .link l ∈ steps → l = nextTo l.src l.dst l.direction l.side)
    (hy : ∀ l, .link l ∈ steps → l.dst = b → ¬ InHalo (np b) h h l.direction (!l.side) y) (ho : .own b ∉ steps)
    (st : Fin Nb → P D → α) : steps.foldl (MultiBlock.Step.run np h own) st b y = st b y := by
  induction steps generalizing st with
  | nil => rfl
  | cons s steps ih =>
    rw [List.foldl_cons, ih (fun l hm => hl l (List.mem_cons_of_mem _ hm)) (fun l hm => hy l (List.mem_cons_of_mem _ hm)) (fun hm => ho (List.mem_cons_of_mem _ hm))]
    cases s with
    | own c =>
      have : b ≠ c := fun e => ho (by rw [e]; exact List.mem_cons_self ..)
      simp [MultiBlock.Step.run, Function.update_of_ne this]
    | link l =>
      by_cases e : b = l.dst
      · subst e
        have hx := (MultiBlock.run_exchanged np h hh l.src l.dst l.direction (hnp _ _) l.side st).2 y (hy l (List.mem_cons_self ..) rfl)
        rw [← hl l (List.mem_cons_self ..)] at hx
        exact hx
      · simp only [MultiBlock.Step.run]; rw [MultiBlock.run_other _ _ _ _ _ e]

theorem grid_not_halo {np : Fin D → ℤ} {h : ℤ} {d : Fin D} {side : Bool} {y : P D} (hy : Grid np y) : ¬ InHalo np h h d side y := by
  rintro ⟨-, hs⟩
  have := hy d
  cases side <;> simp at hs <;> omega

/-- Where no exchange writes, a block has after the phase what its own conditions make of its grid values. -/
theorem phase_own {α : Type} {np : Fin Nb → Fin D → ℤ} (hnp : ∀ b d, 0 ≤ np b d) {h : ℤ} (hh : 0 ≤ h) (own : Fin Nb → (P D → α) → P D → α) (links : Fin Nb → List (Link D Nb))
    (hl : ∀ b, ∀ l ∈ links b, l = nextTo b l.dst l.direction l.side) (b : Fin Nb) (st : Fin Nb → P D → α) :
    ∃ f : P D → α, (∀ x, Grid (np b) x → f x = st b x) ∧
      ∀ y, (∀ c, ∀ l ∈ links c, l.dst = b → ¬ InHalo (np b) h h l.direction (!l.side) y) → MultiBlock.boundaryPhase np h own links st b y = own b f y := by
  obtain ⟨pre, post, hbs⟩ := List.append_of_mem (List.mem_finRange b)
  have hnd := List.nodup_finRange Nb
  rw [hbs, List.nodup_append] at hnd
  have hpre : b ∉ pre := fun hm => hnd.2.2 b hm b (List.mem_cons_self ..) rfl
  have hpost : b ∉ post := (List.nodup_cons.1 hnd.2.1).1
  have hsteps : MultiBlock.stepsOf links (List.finRange Nb) = MultiBlock.stepsOf links pre ++ .own b :: ((links b).map .link ++ MultiBlock.stepsOf links post) := by
    simp [MultiBlock.stepsOf, hbs]
  have hmem : ∀ (l : Link D Nb) (bs : List (Fin Nb)), .link l ∈ MultiBlock.stepsOf links bs → ∃ c, l ∈ links c := by
    intro l bs hm
    simp only [MultiBlock.stepsOf, List.mem_flatMap, List.mem_cons, List.mem_map] at hm
    obtain ⟨c, _, hm | ⟨l', hl', e⟩⟩ := hm
    · cases hm
    · cases e; exact ⟨c, hl'⟩
  have hlink : ∀ l c, l ∈ links c → l = nextTo l.src l.dst l.direction l.side := by
    intro l c hm
    have h1 := hl c l hm
    have h2 : l.src = c := by rw [h1]; rfl
    rw [h2]; exact h1
  have hown : ∀ bs, b ∉ bs → (.own b : MultiBlock.Step D Nb) ∉ MultiBlock.stepsOf links bs := by
    intro bs hb hm
    simp only [MultiBlock.stepsOf, List.mem_flatMap, List.mem_cons, List.mem_map] at hm
    obtain ⟨c, hc, hm | ⟨l', _, e⟩⟩ := hm
    · cases hm; exact hb hc
    · cases e
  refine ⟨(MultiBlock.stepsOf links pre).foldl (MultiBlock.Step.run np h own) st b, fun x hx => ?_, fun y hy => ?_⟩
  · refine untouched_kept hnp hh own b x _ (fun l hm => ?_) (fun l hm _ => grid_not_halo hx) (hown pre hpre) st
    obtain ⟨c, hc⟩ := hmem l _ hm
    exact hlink l c hc
  · rw [MultiBlock.phase_steps, hsteps, List.foldl_append, List.foldl_cons]
    have hrest : ∀ l, .link l ∈ (links b).map .link ++ MultiBlock.stepsOf links post → ∃ c, l ∈ links c := by
      intro l hm
      rcases List.mem_append.1 hm with hm | hm
      · obtain ⟨l', hl', e⟩ := List.mem_map.1 hm
        cases e; exact ⟨b, hl'⟩
      · exact hmem l _ hm
    rw [untouched_kept hnp hh own b y _ (fun l hm => by obtain ⟨c, hc⟩ := hrest l hm; exact hlink l c hc) (fun l hm hd => by obtain ⟨c, hc⟩ := hrest l hm; exact hy c l hc hd) (by
      intro hm
      rcases List.mem_append.1 hm with hm | hm
      · obtain ⟨l', _, e⟩ := List.mem_map.1 hm; cases e
      · exact hown post hpost hm)]
    simp [MultiBlock.Step.run]

/-! ## Splitting -/

/-- A block of `np` points with boundary conditions `B`, and blocks of `nb b` points at offsets `off b` with own conditions and interfaces. `outer b` are points outside the grid of block `b` which its own conditions fill. -/
structure Splits (np : Fin D → ℤ) (h : ℤ) (B : Sol D n → Sol D n) (nb : Fin Nb → Fin D → ℤ) (off : Fin Nb → P D) (own : Fin Nb → Sol D n → Sol D n) (links : Fin Nb → List (Link D Nb))
    (outer : Fin Nb → P D → Prop) : Prop where
  /-- the grids of the blocks are parts of the grid -/
  inside : ∀ b x, Grid (nb b) x → Grid np (x + off b)
  sizes : ∀ b d, 0 ≤ nb b d
  /-- interfaces between opposite sides, the faces having the same points and the blocks at least `h` points across -/
  aligned : ∀ b, ∀ l ∈ links b, l = nextTo b l.dst l.direction l.side
  faces : ∀ b, ∀ l ∈ links b, h ≤ nb b l.direction ∧ ∀ d, d ≠ l.direction → nb b d = nb l.dst d
  /-- every face is filled once -/
  once : (((List.finRange Nb).flatMap links).map fun l => (l.dst, l.direction, l.side)).Nodup
  /-- own conditions leave the faces of interfaces -/
  apart : ∀ b, ∀ l ∈ links b, ∀ x, InFace (nb l.dst) h l.direction (!l.side) x → ∀ f i, own l.dst f i x = f i x
  /-- and interfaces leave the outer points -/
  outside : ∀ b y, outer b y → ∀ c, ∀ l ∈ links c, l.dst = b → ¬ InHalo (nb b) h h l.direction (!l.side) y
  /-- a point beyond an interface and the point of the neighbour it stands for are the same point of the whole, or hold the same values after its boundary conditions -/
  meet : ∀ b, ∀ l ∈ links b, ∀ x, InFace (nb l.dst) h l.direction (!l.side) x → ∀ q i, B q i (x + off l.dst) = B q i (across (nb l.dst) (nb b) l.direction x (!l.side) + off b)
  /-- on the grid of a block and at its outer points, its own conditions do what the conditions of the whole do -/
  conditions : ∀ b f q, (∀ i x, Grid (nb b) x → f i x = q i (x + off b)) → ∀ y, Grid (nb b) y ∨ outer b y → ∀ i, own b f i y = B q i (y + off b)

/-- Points of block `b` which the boundary phase sets properly: the grid, the faces of interfaces, the outer points. -/
def Reached (h : ℤ) (nb : Fin Nb → Fin D → ℤ) (links : Fin Nb → List (Link D Nb)) (outer : Fin Nb → P D → Prop) (b : Fin Nb) (y : P D) : Prop :=
  Grid (nb b) y ∨ (∃ c, ∃ l ∈ links c, l.dst = b ∧ InFace (nb b) h l.direction (!l.side) y) ∨ outer b y

section
variable {np : Fin D → ℤ} {h : ℤ} {B : Sol D n → Sol D n} {nb : Fin Nb → Fin D → ℤ} {off : Fin Nb → P D} {own : Fin Nb → Sol D n → Sol D n} {links : Fin Nb → List (Link D Nb)}
  {outer : Fin Nb → P D → Prop}

/-- From solutions agreeing on the grids, the boundary phases lead to solutions agreeing wherever the phase reaches. -/
theorem split_bc (hs : Splits np h B nb off own links outer) (hh : 0 ≤ h) {q : Sol D n} {qs : Fin Nb → Sol D n} (hq : ∀ b i x, Grid (nb b) x → qs b i x = q i (x + off b))
    (b : Fin Nb) (i : Fin n) (y : P D) (hy : Reached h nb links outer b y) : exchanges nb h own links qs b i y = B q i (y + off b) := by
  have hfree : ∀ b y, Grid (nb b) y ∨ outer b y → exchanges nb h own links qs b i y = B q i (y + off b) := by
    intro b y hy
    obtain ⟨f, f1, f2⟩ := phase_own (α := Fin n → ℝ) hs.sizes hh (fun b f x i => own b (fun i x => f x i) i x) links hs.aligned b (fun b x i => qs b i x)
    have h1 : exchanges nb h own links qs b i y = own b (fun i x => f x i) i y := congrFun (f2 y fun c l hl hd => by
      rcases hy with hy | hy
      · exact grid_not_halo hy
      · exact hs.outside b y hy c l hl hd) i
    rw [h1]
    exact hs.conditions b _ q (fun i x hx => (congrFun (f1 x hx) i).trans (hq b i x hx)) y hy i
  rcases hy with hy | ⟨c, l, hl, rfl, hy⟩ | hy
  · exact hfree b y (.inl hy)
  · have h1 := congrFun (MultiBlock.C73_interfaces_partial (α := Fin n → ℝ) nb hs.sizes h hh (fun b f x i => own b (fun i x => f x i) i x) links hs.aligned hs.faces hs.once
      (fun b l hl x hx f => funext fun i => hs.apart b l hl x hx _ i) (fun b x i => qs b i x) c l hl y hy) i
    have h2 : exchanges nb h own links qs l.dst i y = exchanges nb h own links qs c i (across (nb l.dst) (nb c) l.direction y (!l.side)) := h1
    rw [h2, hfree c _ (.inl ?_)]
    · exact (hs.meet c l hl y hy q i).symm
    · intro d
      have h3 := hs.faces c l hl
      have h4 := hy.1.2
      have h5 := hy.1.1 l.direction
      by_cases e : d = l.direction
      · subst e
        cases hside : l.side <;> simp [hside, across] at h4 ⊢ <;> omega
      · have := hy.2 d e
        rw [across, Function.update_of_ne e, h3.2 d e]
        exact this
  · exact hfree b y (.inr hy)

variable {F : Sol D n → Sol D n} {Fs : Fin Nb → Sol D n → Sol D n}

/-- Right hand sides which look the same from the blocks: on the grid they depend on the points the boundary phase reaches. -/
def SameRhs (R : Fin Nb → P D → Prop) (nb : Fin Nb → Fin D → ℤ) (off : Fin Nb → P D) (F : Sol D n → Sol D n) (Fs : Fin Nb → Sol D n → Sol D n) : Prop :=
  ∀ b q q', (∀ i y, R b y → q' i y = q i (y + off b)) → ∀ i x, Grid (nb b) x → Fs b q' i x = F q i (x + off b)

open Classical in
theorem split_onGrid (hs : Splits np h B nb off own links outer) {new rest : Sol D n} {b : Fin Nb} {new' rest' : Sol D n} (hnew : ∀ i x, Grid (nb b) x → new' i x = new i (x + off b)) (i : Fin n) (x : P D)
    (hx : Grid (nb b) x) : onGrid (nb b) new' rest' i x = onGrid np new rest i (x + off b) := by
  simp only [onGrid]
  rw [if_pos hx, if_pos (hs.inside b x hx), hnew i x hx]

/-- The same state: `q` wherever the boundary phase reaches, the register on the grids. -/
structure SameState (R : Fin Nb → P D → Prop) (nb : Fin Nb → Fin D → ℤ) (off : Fin Nb → P D) (s : TState D n) (ss : Fin Nb → TState D n) : Prop where
  q : ∀ b i y, R b y → (ss b).q i y = s.q i (y + off b)
  aux : ∀ b i x, Grid (nb b) x → (ss b).aux i x = s.aux i (x + off b)

theorem split_rkStage (hs : Splits np h B nb off own links outer) (hh : 0 ≤ h) (hF : SameRhs (Reached h nb links outer) nb off F Fs) (dt : ℝ) (c : ℝ × ℝ) {s : TState D n} {ss : Fin Nb → TState D n}
    (h1 : SameState (Reached h nb links outer) nb off s ss) :
    SameState (Reached h nb links outer) nb off (rkStage np F B dt s c) (rkStageMB nb Fs (exchanges nb h own links) dt ss c) := by
  have hval : ∀ b i x, Grid (nb b) x → Fs b (ss b).q i x = F s.q i (x + off b) := fun b => hF b s.q (ss b).q (h1.q b)
  refine ⟨fun b i y hy => split_bc hs hh (fun b i x hx => split_onGrid hs (fun i x hx => ?_) i x hx) b i y hy, fun b i x hx => by
      simp only [rkStageMB, rkStage]
      exact split_onGrid hs (fun i x hx => by rw [h1.aux b i x hx, hval b i x hx]) i x hx⟩
  rw [h1.aux b i x hx, hval b i x hx]

theorem split_rkStep (hs : Splits np h B nb off own links outer) (hh : 0 ≤ h) (hF : SameRhs (Reached h nb links outer) nb off F Fs) (dt : ℝ) (coef : List (ℝ × ℝ)) {s : TState D n} {ss : Fin Nb → TState D n}
    (h1 : ∀ b i x, Grid (nb b) x → (ss b).q i x = s.q i (x + off b)) :
    SameState (Reached h nb links outer) nb off (rkStep np F B dt coef s) (rkStepMB nb Fs (exchanges nb h own links) dt coef ss) := by
  unfold rkStep rkStepMB
  have hbc : ∀ b i y, Reached h nb links outer b y → exchanges nb h own links (fun b => (ss b).q) b i y = B s.q i (y + off b) := fun b i y hy => split_bc hs hh h1 b i y hy
  have h0 : SameState (Reached h nb links outer) nb off { q := B s.q, aux := onGrid np (B s.q) s.aux }
      fun b => { q := exchanges nb h own links (fun b => (ss b).q) b, aux := onGrid (nb b) (exchanges nb h own links (fun b => (ss b).q) b) (ss b).aux } :=
    ⟨hbc, fun b i x hx => split_onGrid hs (fun i x hx => hbc b i x (.inl hx)) i x hx⟩
  revert h0
  generalize ({ q := B s.q, aux := onGrid np (B s.q) s.aux } : TState D n) = t
  generalize (fun b => ({ q := exchanges nb h own links (fun b => (ss b).q) b, aux := onGrid (nb b) (exchanges nb h own links (fun b => (ss b).q) b) (ss b).aux } : TState D n)) = ts
  intro h0
  induction coef generalizing t ts with
  | nil => exact h0
  | cons c coef ih => exact ih _ _ (split_rkStage hs hh hF dt c h0)

theorem split_lsStage (hs : Splits np h B nb off own links outer) (hh : 0 ≤ h) (hF : SameRhs (Reached h nb links outer) nb off F Fs) (dt : ℝ) (c : ℝ × ℝ) {s : TState D n} {ss : Fin Nb → TState D n}
    (h1 : ∀ b i y, Reached h nb links outer b y → (ss b).q i y = s.q i (y + off b)) (h2 : ∀ b i x, Grid (nb b) x → c.1 * (ss b).aux i x = c.1 * s.aux i (x + off b)) :
    SameState (Reached h nb links outer) nb off (lsStage np F B dt s c) (lsStageMB nb Fs (exchanges nb h own links) dt ss c) := by
  have hval : ∀ b i x, Grid (nb b) x → Fs b (ss b).q i x = F s.q i (x + off b) := fun b => hF b s.q (ss b).q (h1 b)
  refine ⟨fun b i y hy => split_bc hs hh (fun b i x hx => split_onGrid hs (fun i x hx => ?_) i x hx) b i y hy, fun b i x hx => by
    simp only [lsStageMB, lsStage]
    exact split_onGrid hs (fun i x hx => by rw [h2 b i x hx, hval b i x hx]) i x hx⟩
  rw [h2 b i x hx, h1 b i x (.inl hx), hval b i x hx]

/-- The first coefficient of the register being 0, what it held before the step does not matter. -/
theorem split_lsStep (hs : Splits np h B nb off own links outer) (hh : 0 ≤ h) (hF : SameRhs (Reached h nb links outer) nb off F Fs) (dt c : ℝ) (coef : List (ℝ × ℝ)) {s : TState D n} {ss : Fin Nb → TState D n}
    (h1 : ∀ b i x, Grid (nb b) x → (ss b).q i x = s.q i (x + off b)) :
    SameState (Reached h nb links outer) nb off (lsStep np F B dt ((0, c) :: coef) s) (lsStepMB nb Fs (exchanges nb h own links) dt ((0, c) :: coef) ss) := by
  unfold lsStep lsStepMB
  rw [List.foldl_cons, List.foldl_cons]
  have h0 := split_lsStage hs hh hF dt (0, c) (s := { s with q := B s.q }) (ss := fun b => { ss b with q := exchanges nb h own links (fun b => (ss b).q) b })
    (fun b i y hy => split_bc hs hh h1 b i y hy) (fun b i x _ => by rw [zero_mul, zero_mul])
  revert h0
  generalize lsStage np F B dt { s with q := B s.q } (0, c) = t
  generalize lsStageMB nb Fs (exchanges nb h own links) dt (fun b => { ss b with q := exchanges nb h own links (fun b => (ss b).q) b }) (0, c) = ts
  intro h0
  induction coef generalizing t ts with
  | nil => exact h0
  | cons c coef ih => exact ih _ _ (split_lsStage hs hh hF dt c h0.q fun b i x hx => by rw [h0.aux b i x hx])

end

/-! ## Programs -/

section
variable {S : Setup D n} {t : Temporal} {I : Interp D} {delta : Fin D → ℝ} {pts : Ranges.Kernel D → List (P D)} {B : Sol D n → Sol D n} {nb : Fin Nb → Fin D → ℤ} {off : Fin Nb → P D} {own : Fin Nb → Sol D n → Sol D n}
  {links : Fin Nb → List (Link D Nb)} {outer : Fin Nb → P D → Prop}

/-- The right hand sides of equations in which no other datasets occur, read where the boundary phase reaches, look the same from the blocks. -/
theorem same_rhs (hS : S.Valid) (hcl : Closed S) {ks : List (Ker D)} (hks : S.spatial = .ok ks) (hI : IsCentral S I delta)
    (hreads : ∀ b i x y, Grid (nb b) x → (S.rhs i).reads S.h x y → Reached S.h nb links outer b y) {init : String → P D → ℝ} {init' : Fin Nb → String → P D → ℝ} {full : Sol D n → String → P D → ℝ}
    {full' : Fin Nb → Sol D n → String → P D → ℝ} (hfull : ∀ q, Consistent S I init q (full q)) (hfull' : ConsistentMB S nb (fun _ => I) init' full') :
    SameRhs (Reached S.h nb links outer) nb off (fun q i x => (S.rhs i).eval I (memOf (full q)) x) (fun b q i x => (S.rhs i).eval I (memOf (full' b q)) x) := by
  intro b q q' hq i x hx
  refine eval_moved hI (S.rhs i) x fun s hs y hy => ?_
  obtain ⟨order, hord⟩ := spatial_order hks
  have hc' : Consistent S I (init' b) q' (full' b q') := ⟨(hfull' b q').sol, (hfull' b q').rel, (hfull' b q').rest⟩
  exact required_two hS.relations hord (fun t e he s hs => hcl s (.inr ⟨t, e, he, hs⟩)) hc' (hfull q) (fun j => hq j y (hreads b i x y hx hy)) s (rhs_required hS i s hs) (hcl s (.inl ⟨i, hs⟩))

theorem reads_plain (h : ℤ) (e : Ex D) (x y : P D) (hc : e.cds = []) (hr : e.reads h x y) : y = x := by
  induction e with
  | num _ => cases hr
  | const _ => cases hr
  | indexed _ => cases hr
  | arr a => exact hr
  | cd d k e ih => simp [Ex.cds] at hc
  | add a b iha ihb | mul a b iha ihb | pow a b iha ihb =>
    simp only [Ex.cds, List.append_eq_nil_iff] at hc
    rcases hr with hr | hr
    · exact iha hc.1 hr
    · exact ihb hc.2 hr
  | fn g e ih => exact ih hc hr

/-- Expressions without derivatives of derivatives read at a point and at points shifted in one direction. -/
theorem reads_near (h : ℤ) (e : Ex D) (x y : P D) (hc : ∀ c ∈ e.cds, c.arg.cds = []) (hr : e.reads h x y) : y = x ∨ ∃ d j, |j| ≤ h ∧ y = shift x d j := by
  induction e with
  | num _ => cases hr
  | const _ => cases hr
  | indexed _ => cases hr
  | arr a => exact .inl hr
  | cd d k e ih =>
    obtain ⟨j, hj, hr⟩ := hr
    exact .inr ⟨d, j, hj, reads_plain h e _ y (hc (.cd d k e) (by simp [Ex.cds])) hr⟩
  | add a b iha ihb | mul a b iha ihb | pow a b iha ihb =>
    rcases hr with hr | hr
    · exact iha (fun c hm => hc c (List.mem_append_left _ hm)) hr
    · exact ihb (fun c hm => hc c (List.mem_append_right _ hm)) hr
  | fn g e ih => exact ih hc hr

variable {inp : Alg.Input (Call D)} {prg : List (Alg.Node (Call D))} {blocks : List (Alg.BlockMB (CallMB D Nb))} {prgs : List (Alg.Node (CallMB D Nb))}

/-- The arrays of the blocks are those of the one block: after the programs, and whenever both write the file of a step. -/
def SameResults (S : Setup D n) (I : Interp D) (pts : Ranges.Kernel D → List (P D)) (B : Sol D n → Sol D n) (nb : Fin Nb → Fin D → ℤ) (off : Fin Nb → P D) (own : Fin Nb → Sol D n → Sol D n)
    (prg : List (Alg.Node (Call D))) (prgs : List (Alg.Node (CallMB D Nb))) (m : Mem D) (ms : Fin Nb → Mem D) : Prop :=
  (∀ b i x, Grid (nb b) x → Alg.effect (execMB (fun _ => I) pts nb S.h S.sol own) (Alg.runProgram prgs) ms b (.data (S.sol i)) x =
    Alg.effect (exec I pts S.sol B) (Alg.runProgram prg) m (.data (S.sol i)) (x + off b)) ∧
  ∀ before after o k e, Alg.runProgram prg = before ++ .write o (some k) e :: after → ∀ before' after' o' e', Alg.runProgram prgs = before' ++ .write o' (some k) e' :: after' →
    ∀ b i x, Grid (nb b) x → Alg.effect (execMB (fun _ => I) pts nb S.h S.sol own) before' ms b (.data (S.sol i)) x = Alg.effect (exec I pts S.sol B) before m (.data (S.sol i)) (x + off b)

theorem blocks_full (hM : ProgramMB S nb t (fun _ => I) pts links inp.stages inp.niter blocks prgs) (init : Fin Nb → String → P D → ℝ) :
    ∃ full : Fin Nb → Sol D n → String → P D → ℝ, ConsistentMB S nb (fun _ => I) init full := by
  obtain ⟨ks, hks, -⟩ := hM.items
  exact ⟨fun b q => (C77_datasets_exist (sized_valid hM.valid (nb b)) I (ks b) (hks b) (init b) q).choose, fun b q => (C77_datasets_exist (sized_valid hM.valid (nb b)) I (ks b) (hks b) (init b) q).choose_spec⟩

/-- **C93, splitting a domain, three stage scheme.** The program for one block and the program for blocks tiling it, for the same equations, time step, numbers of steps and grid spacings. When both start from the same values
on the grid, they end with the same values on the grid, and so do the files they write: the decomposition into blocks is invisible in the results. Outer boundary conditions may be anything which looks the same from the blocks as from
the whole (`Splits`). Missing: equations with mixed derivatives, which read corners of halos, where interfaces leave old values (`C73_corner_stale`); `hreads` excludes them where corners are shared by blocks. -/
theorem C93_split_rk_partial (hP : Program S .rk I pts inp prg) (hM : ProgramMB S nb .rk (fun _ => I) pts links inp.stages inp.niter blocks prgs) (hNb : 0 < Nb) (hst : inp.stages = 3)
    (hnew : I.table "rknew" = [2/3, 5/12, 3/5]) (hold : I.table "rkold" = [1/4, 3/20, 3/5]) (hI : IsCentral S I delta) (hcl : Closed S) (hs : Splits S.np S.h B nb off own links outer)
    (hreads : ∀ b i x y, Grid (nb b) x → (S.rhs i).reads S.h x y → Reached S.h nb links outer b y) (m : Mem D) (ms : Fin Nb → Mem D)
    (hstart : ∀ b i x, Grid (nb b) x → atStartMB (fun _ => I) pts nb S.h S.sol own blocks ms b (.data (S.sol i)) x = atStart I pts S.sol B inp m (.data (S.sol i)) (x + off b)) :
    SameResults S I pts B nb off own prg prgs m ms := by
  obtain ⟨full, hfull⟩ := program_full hP fun s => atStart I pts S.sol B inp m (.data s)
  obtain ⟨full', hfull'⟩ := blocks_full (inp := inp) hM fun b s => atStartMB (fun _ => I) pts nb S.h S.sol own blocks ms b (.data s)
  obtain ⟨ks, hks⟩ := program_spatial hP
  obtain ⟨w1, w2⟩ := C77_program_rk_partial hP hst hnew hold B m full hfull
  obtain ⟨b1, b2⟩ := C93_program_rk_partial own hM hNb hst (fun _ => rfl) (fun _ => hnew) (fun _ => hold) ms full' hfull'
  have hF := same_rhs (off := off) hP.valid hcl hks hI hreads hfull hfull'
  have hiter : ∀ k b i x, Grid (nb b) x →
      ((rkStepMB nb (fun b q i x => (S.rhs i).eval I (memOf (full' b q)) x) (exchanges nb S.h own links) (I.const "dt") [(2/3, 1/4), (5/12, 3/20), (3/5, 3/5)])^[k]
        (fun b => stateOf S (atStartMB (fun _ => I) pts nb S.h S.sol own blocks ms b)) b).q i x =
      ((rkStep S.np (fun q i x => (S.rhs i).eval I (memOf (full q)) x) B (I.const "dt") [(2/3, 1/4), (5/12, 3/20), (3/5, 3/5)])^[k] (stateOf S (atStart I pts S.sol B inp m))).q i (x + off b) := by
    intro k
    induction k with
    | zero => exact hstart
    | succ k ih =>
      intro b i x hx
      rw [Function.iterate_succ_apply', Function.iterate_succ_apply']
      exact (split_rkStep hs S.h_nonneg hF _ _ ih).q b i x (.inl hx)
  refine ⟨fun b i x hx => ?_, fun before after o k e hw before' after' o' e' hw' b i x hx => ?_⟩
  · rw [w1 i, b1 b i]
    exact hiter _ b i x hx
  · obtain ⟨j, hj, _, _, h1⟩ := w2 before after o k e hw
    obtain ⟨j', hj', _, _, h2⟩ := b2 before' after' o' k e' hw'
    have : j' = j := by omega
    subst this
    rw [h1 i, h2 b i]
    exact hiter _ b i x hx

/-- **C93, splitting a domain, low storage schemes** of any number of stages, the first coefficient of the register being 0, as in all schemes of the code. -/
theorem C93_split_ls_partial (hP : Program S .lowStorage I pts inp prg) (hM : ProgramMB S nb .lowStorage (fun _ => I) pts links inp.stages inp.niter blocks prgs) (hNb : 0 < Nb) (A C : List ℝ)
    (hAC : A.length = C.length) (hst : inp.stages = A.length) (hA : I.table "rkA" = A) (hC : I.table "rkB" = C) (hA0 : A.head? = some 0) (hI : IsCentral S I delta) (hcl : Closed S)
    (hs : Splits S.np S.h B nb off own links outer) (hreads : ∀ b i x y, Grid (nb b) x → (S.rhs i).reads S.h x y → Reached S.h nb links outer b y) (m : Mem D) (ms : Fin Nb → Mem D)
    (hstart : ∀ b i x, Grid (nb b) x → atStartMB (fun _ => I) pts nb S.h S.sol own blocks ms b (.data (S.sol i)) x = atStart I pts S.sol B inp m (.data (S.sol i)) (x + off b)) :
    SameResults S I pts B nb off own prg prgs m ms := by
  obtain ⟨full, hfull⟩ := program_full hP fun s => atStart I pts S.sol B inp m (.data s)
  obtain ⟨full', hfull'⟩ := blocks_full (inp := inp) hM fun b s => atStartMB (fun _ => I) pts nb S.h S.sol own blocks ms b (.data s)
  obtain ⟨ks, hks⟩ := program_spatial hP
  obtain ⟨w1, w2⟩ := C77_program_ls_partial hP A C hAC hst hA hC B m full hfull
  obtain ⟨b1, b2⟩ := C93_program_ls_partial own hM hNb A C hAC hst (fun _ => rfl) (fun _ => hA) (fun _ => hC) ms full' hfull'
  have hF := same_rhs (off := off) hP.valid hcl hks hI hreads hfull hfull'
  obtain ⟨c, coef, hcoef⟩ : ∃ c coef, A.zip C = (0, c) :: coef := by
    cases A with
    | nil => simp at hA0
    | cons a A =>
      cases C with
      | nil => simp at hAC
      | cons c C => simp only [List.head?_cons, Option.some.injEq] at hA0; exact ⟨c, A.zip C, by rw [hA0]; rfl⟩
  have hiter : ∀ k b i x, Grid (nb b) x → ((lsStepMB nb (fun b q i x => (S.rhs i).eval I (memOf (full' b q)) x) (exchanges nb S.h own links) (I.const "dt") (A.zip C))^[k]
        (fun b => stateOf S (atStartMB (fun _ => I) pts nb S.h S.sol own blocks ms b)) b).q i x =
      ((lsStep S.np (fun q i x => (S.rhs i).eval I (memOf (full q)) x) B (I.const "dt") (A.zip C))^[k] (stateOf S (atStart I pts S.sol B inp m))).q i (x + off b) := by
    rw [hcoef]
    intro k
    induction k with
    | zero => exact hstart
    | succ k ih =>
      intro b i x hx
      rw [Function.iterate_succ_apply', Function.iterate_succ_apply']
      exact (split_lsStep hs S.h_nonneg hF (I.const "dt") c coef ih).q b i x (.inl hx)
  refine ⟨fun b i x hx => ?_, fun before after o k e hw before' after' o' e' hw' b i x hx => ?_⟩
  · rw [w1 i, b1 b i]
    exact hiter _ b i x hx
  · obtain ⟨j, hj, _, _, h1⟩ := w2 before after o k e hw
    obtain ⟨j', hj', _, _, h2⟩ := b2 before' after' o' k e' hw'
    have : j' = j := by omega
    subst this
    rw [h1 i, h2 b i]
    exact hiter _ b i x hx

end

/-! ## Periodic boxes cut into blocks -/

/-- Blocks tiling a periodic box of `np` points: block `next b d` follows block `b` in direction `d`, after the last one comes the first again. -/
structure Tiling (np : Fin D → ℤ) (h : ℤ) (nb : Fin Nb → Fin D → ℤ) (off : Fin Nb → P D) (next prev : Fin Nb → Fin D → Fin Nb) : Prop where
  thick : ∀ b d, h ≤ nb b d
  inside : ∀ b d, 0 ≤ off b d ∧ 0 ≤ nb b d ∧ off b d + nb b d ≤ np d
  follows : ∀ b d, off (next b d) d = off b d + nb b d ∨ off b d + nb b d = np d ∧ off (next b d) d = 0
  beside : ∀ b d e, e ≠ d → off (next b d) e = off b e ∧ nb (next b d) e = nb b e
  back : ∀ b d, prev (next b d) d = b
  forth : ∀ b d, next (prev b d) d = b

/-- The interfaces of the blocks, by direction and side. -/
def tilingLinks (next prev : Fin Nb → Fin D → Fin Nb) (b : Fin Nb) : List (Link D Nb) := (List.finRange D).flatMap fun d => [nextTo b (prev b d) d false, nextTo b (next b d) d true]

section
variable {np : Fin D → ℤ} {h : ℤ} {nb : Fin Nb → Fin D → ℤ} {off : Fin Nb → P D} {next prev : Fin Nb → Fin D → Fin Nb}

theorem mem_tilingLinks (b : Fin Nb) (l : Link D Nb) : l ∈ tilingLinks next prev b ↔ ∃ d, l = nextTo b (prev b d) d false ∨ l = nextTo b (next b d) d true := by
  simp [tilingLinks]

theorem exchange_same (hh : 0 ≤ h) (hnp : ∀ d, h ≤ np d) (q : Sol D n) (i : Fin n) {y z : P D} (hy : Allocated np h y) (hz : Allocated np h z)
    (hyz : ∀ e, y e % np e = z e % np e) : exchange np h q i y = exchange np h q i z := by
  rw [exchange_image hh hnp q i y hy, exchange_image hh hnp q i z hz]
  congr 1
  funext e
  exact hyz e

theorem Tiling.nodup (ht : Tiling np h nb off next prev) : (((List.finRange Nb).flatMap (tilingLinks next prev)).map fun l => (l.dst, l.direction, l.side)).Nodup := by
  have hinj : ∀ b b' d, next b d = next b' d → b = b' := fun b b' d e => by rw [← ht.back b d, e, ht.back]
  have hinj' : ∀ b b' d, prev b d = prev b' d → b = b' := fun b b' d e => by rw [← ht.forth b d, e, ht.forth]
  have hmap : (((List.finRange Nb).flatMap (tilingLinks next prev)).map fun l => (l.dst, l.direction, l.side)) =
      (List.finRange Nb).flatMap fun b => (List.finRange D).flatMap fun d => [(prev b d, d, false), (next b d, d, true)] := by
    simp [tilingLinks, List.map_flatMap, nextTo]
  rw [hmap, List.nodup_flatMap]
  refine ⟨fun b _ => ?_, ?_⟩
  · rw [List.nodup_flatMap]
    refine ⟨fun d _ => by simp, ?_⟩
    refine (List.nodup_finRange D).imp fun {d d'} hne => ?_
    intro x hx hx'
    simp only [List.mem_cons, List.not_mem_nil, or_false] at hx hx'
    rcases hx with rfl | rfl <;> rcases hx' with e | e <;> simp at e <;> exact hne e.2
  · refine (List.nodup_finRange Nb).imp fun {b b'} hne => ?_
    intro x hx hx'
    simp only [List.mem_flatMap, List.mem_cons, List.not_mem_nil, or_false] at hx hx'
    obtain ⟨d, _, hx⟩ := hx
    obtain ⟨d', _, hx'⟩ := hx'
    rcases hx with rfl | rfl <;> rcases hx' with e | e <;> simp at e
    · obtain ⟨e, rfl⟩ := e; exact hne (hinj' _ _ _ e)
    · obtain ⟨e, rfl⟩ := e; exact hne (hinj _ _ _ e)

theorem Tiling.splits (ht : Tiling np h nb off next prev) (hh : 0 ≤ h) : Splits (n := n) np h (exchange np h) nb off (fun _ f => f) (tilingLinks next prev) fun _ _ => False where
  inside := fun b x hx d => by
    have h1 := hx d; have h2 := ht.inside b d
    simp only [Pi.add_apply]; omega
  sizes := fun b d => (ht.inside b d).2.1
  aligned := fun b l hl => by
    obtain ⟨d, rfl | rfl⟩ := (mem_tilingLinks b l).1 hl <;> rfl
  faces := fun b l hl => by
    obtain ⟨d, rfl | rfl⟩ := (mem_tilingLinks b l).1 hl
    · refine ⟨ht.thick b d, fun e he => ?_⟩
      have := (ht.beside (prev b d) d e he).2
      rw [ht.forth] at this
      exact this
    · exact ⟨ht.thick b d, fun e he => ((ht.beside b d e he).2).symm⟩
  once := ht.nodup
  apart := fun _ _ _ _ _ _ _ => rfl
  outside := fun _ _ h => h.elim
  meet := fun b l hl x hx q i => by
    have hnp : ∀ d, h ≤ np d := fun d => by
      have := ht.inside b d; have := ht.thick b d; omega
    obtain ⟨d, rfl | rfl⟩ := (mem_tilingLinks b l).1 hl
    · have hf := ht.follows (prev b d) d
      have hb := ht.beside (prev b d) d
      rw [ht.forth] at hf hb
      have hin := ht.inside b d
      have hin' := ht.inside (prev b d) d
      have hth := ht.thick b d
      have h1 : -h ≤ x d ∧ x d < nb (prev b d) d + h := hx.1.1 d
      have h2 : nb (prev b d) d ≤ x d := by simpa [nextTo, InHalo] using hx.1.2
      have h3 : ∀ e, e ≠ d → 0 ≤ x e ∧ x e < nb (prev b d) e := hx.2
      have hval : across (nb (prev b d)) (nb b) d x true d = x d - nb (prev b d) d := by simp [across]
      have hoth : ∀ e, e ≠ d → across (nb (prev b d)) (nb b) d x true e = x e := fun e he => by simp [across, he]
      refine exchange_same hh hnp q i (fun e => ?_) (fun e => ?_) (fun e => ?_)
      · by_cases he : e = d
        · subst he; simp only [nextTo, Pi.add_apply]; omega
        · have := h3 e he; have := ht.inside (prev b d) e
          simp only [nextTo, Pi.add_apply]; omega
      · by_cases he : e = d
        · subst he
          simp only [nextTo, Bool.not_false, Pi.add_apply, hval]; omega
        · have := h3 e he; have := ht.inside (prev b d) e; have := (hb e he).1
          simp only [nextTo, Bool.not_false, Pi.add_apply, hoth e he]; omega
      · by_cases he : e = d
        · subst he
          simp only [nextTo, Bool.not_false, Pi.add_apply, hval]
          rcases hf with hf | ⟨hf1, hf2⟩
          · congr 1; omega
          · have : x e + off (prev b e) e = (x e - nb (prev b e) e + off b e) + np e := by omega
            rw [this, Int.add_emod_right]
        · simp only [nextTo, Bool.not_false, Pi.add_apply, hoth e he]
          rw [(hb e he).1]
    · have hf := ht.follows b d
      have hb := ht.beside b d
      have hin := ht.inside b d
      have hin' := ht.inside (next b d) d
      have hth := ht.thick b d
      have h1 : -h ≤ x d ∧ x d < nb (next b d) d + h := hx.1.1 d
      have h2 : x d < 0 := by simpa [nextTo, InHalo] using hx.1.2
      have h3 : ∀ e, e ≠ d → 0 ≤ x e ∧ x e < nb (next b d) e := hx.2
      have hval : across (nb (next b d)) (nb b) d x false d = x d + nb b d := by simp [across]
      have hoth : ∀ e, e ≠ d → across (nb (next b d)) (nb b) d x false e = x e := fun e he => by simp [across, he]
      refine exchange_same hh hnp q i (fun e => ?_) (fun e => ?_) (fun e => ?_)
      · by_cases he : e = d
        · subst he; simp only [nextTo, Pi.add_apply]; omega
        · have := h3 e he; have := ht.inside (next b d) e
          simp only [nextTo, Pi.add_apply]; omega
      · by_cases he : e = d
        · subst he
          simp only [nextTo, Bool.not_true, Pi.add_apply, hval]; omega
        · have := h3 e he; have := ht.inside (next b d) e; have := (hb e he).1
          simp only [nextTo, Bool.not_true, Pi.add_apply, hoth e he]; omega
      · by_cases he : e = d
        · subst he
          simp only [nextTo, Bool.not_true, Pi.add_apply, hval]
          rcases hf with hf | ⟨hf1, hf2⟩
          · congr 1; omega
          · have : x e + nb b e + off b e = (x e + off (next b e) e) + np e := by omega
            rw [this, Int.add_emod_right]
        · simp only [nextTo, Bool.not_true, Pi.add_apply, hoth e he]
          rw [(hb e he).1]
  conditions := fun b f q hf y hy i => by
    rcases hy with hy | hy
    · have hnp : ∀ d, h ≤ np d := fun d => by
        have := ht.inside b d; have := ht.thick b d; omega
      have hg : Grid np (y + off b) := fun d => by
        have h1 := hy d; have h2 := ht.inside b d
        simp only [Pi.add_apply]; omega
      rw [exchange_image hh hnp q i _ fun d => by have := hg d; omega, hf i y hy]
      congr 1
      funext d
      exact (Int.emod_eq_of_lt (hg d).1 (hg d).2).symm
    · exact hy.elim

/-- Expressions without derivatives of derivatives read where the exchanges reach. -/
theorem Tiling.reached (ht : Tiling np h nb off next prev) (e : Ex D) (hc : ∀ c ∈ e.cds, c.arg.cds = []) (b : Fin Nb) (x y : P D) (hx : Grid (nb b) x) (hr : e.reads h x y) :
    Reached h nb (tilingLinks next prev) (fun _ _ => False) b y := by
  rcases reads_near h e x y hc hr with rfl | ⟨d, j, hj, rfl⟩
  · exact .inl hx
  · rw [abs_le] at hj
    have hd : shift x d j d = x d + j := by simp [shift]
    have ho : ∀ e, e ≠ d → shift x d j e = x e := fun e he => by simp [shift, he]
    have hxd := hx d
    have hrange : ∀ e, -h ≤ shift x d j e ∧ shift x d j e < nb b e + h := fun e => by
      by_cases he : e = d
      · subst he; rw [hd]; omega
      · have := hx e; rw [ho e he]; omega
    by_cases h1 : x d + j < 0
    · refine .inr (.inl ⟨prev b d, nextTo (prev b d) (next (prev b d) d) d true, (mem_tilingLinks _ _).2 ⟨d, .inr rfl⟩, ht.forth b d, ⟨hrange, ?_⟩, fun e he => ?_⟩)
      · simpa [nextTo, hd] using h1
      · rw [ho e he]; exact hx e
    · by_cases h2 : nb b d ≤ x d + j
      · refine .inr (.inl ⟨next b d, nextTo (next b d) (prev (next b d) d) d false, (mem_tilingLinks _ _).2 ⟨d, .inl rfl⟩, ht.back b d, ⟨hrange, ?_⟩, fun e he => ?_⟩)
        · simpa [nextTo, hd] using h2
        · rw [ho e he]; exact hx e
      · refine .inl fun e => ?_
        by_cases he : e = d
        · subst he; rw [hd]; omega
        · rw [ho e he]; exact hx e

variable {S : Setup D n} {I : Interp D} {delta : Fin D → ℝ} {pts : Ranges.Kernel D → List (P D)} {inp : Alg.Input (Call D)} {prg : List (Alg.Node (Call D))}
  {blocks : List (Alg.BlockMB (CallMB D Nb))} {prgs : List (Alg.Node (CallMB D Nb))}

/-- **C93, periodic boxes in blocks.** Equations without derivatives of derivatives on a periodic box of any dimension, cut in any way into any number of blocks with matching faces, each at least as thick as the halos, joined by
interfaces, and around the box as well. The program for the blocks, and the program for one block with the periodic boundary conditions of the code, compute the same values at every point of the grid, at the end and in every
numbered file. -/
theorem C93_tiling_rk (hP : Program S .rk I pts inp prg) (hM : ProgramMB S nb .rk (fun _ => I) pts (tilingLinks next prev) inp.stages inp.niter blocks prgs) (hNb : 0 < Nb) (hst : inp.stages = 3)
    (hnew : I.table "rknew" = [2/3, 5/12, 3/5]) (hold : I.table "rkold" = [1/4, 3/20, 3/5]) (hI : IsCentral S I delta) (hcl : Closed S) (ht : Tiling S.np S.h nb off next prev)
    (hflat : ∀ i, ∀ c ∈ (S.rhs i).cds, c.arg.cds = []) (m : Mem D) (ms : Fin Nb → Mem D)
    (hstart : ∀ b i x, Grid (nb b) x → atStartMB (fun _ => I) pts nb S.h S.sol (fun _ f => f) blocks ms b (.data (S.sol i)) x = atStart I pts S.sol (exchange S.np S.h) inp m (.data (S.sol i)) (x + off b)) :
    SameResults S I pts (exchange S.np S.h) nb off (fun _ f => f) prg prgs m ms :=
  C93_split_rk_partial hP hM hNb hst hnew hold hI hcl (ht.splits S.h_nonneg) (fun b i x y hx hy => ht.reached _ (hflat i) b x y hx hy) m ms hstart

/-- **C93, periodic boxes in blocks, low storage schemes.** -/
theorem C93_tiling_ls (hP : Program S .lowStorage I pts inp prg) (hM : ProgramMB S nb .lowStorage (fun _ => I) pts (tilingLinks next prev) inp.stages inp.niter blocks prgs) (hNb : 0 < Nb) (A C : List ℝ)
    (hAC : A.length = C.length) (hst : inp.stages = A.length) (hA : I.table "rkA" = A) (hC : I.table "rkB" = C) (hA0 : A.head? = some 0) (hI : IsCentral S I delta) (hcl : Closed S)
    (ht : Tiling S.np S.h nb off next prev) (hflat : ∀ i, ∀ c ∈ (S.rhs i).cds, c.arg.cds = []) (m : Mem D) (ms : Fin Nb → Mem D)
    (hstart : ∀ b i x, Grid (nb b) x → atStartMB (fun _ => I) pts nb S.h S.sol (fun _ f => f) blocks ms b (.data (S.sol i)) x = atStart I pts S.sol (exchange S.np S.h) inp m (.data (S.sol i)) (x + off b)) :
    SameResults S I pts (exchange S.np S.h) nb off (fun _ f => f) prg prgs m ms :=
  C93_split_ls_partial hP hM hNb A C hAC hst hA hC hA0 hI hcl (ht.splits S.h_nonneg) (fun b i x y hx hy => ht.reached _ (hflat i) b x y hx hy) m ms hstart

end

end OpenSBLI.Sim
