import Verif.Props.C91_BoundaryText

/-!
# C91: the boundary values of a simulation

The conditions are the last thing a stage does, so what they say of the boundary and the halos is true of the arrays at the end and in the files. For the walls: the momentum is zero there.
-/
namespace OpenSBLI.Bc
open OpenSBLI.CCode OpenSBLI.Sim OpenSBLI.Reg

variable {D n : ℕ} {T : Text D} {prg : List (Alg.Node (Call D))} {pts : Ranges.Kernel D → List (P D)} {vs : Fin n → Var D}

theorem keeps_op {i : Fin n} {y : P D} {c : Item D} (hvs : Function.Injective vs) (h : c.Keeps vs i y) (q : Sol D n) : c.op vs q i y = q i y := by
  have hl : ∀ (dir : Fin D) (x : P D) (k : ℤ), lineState vs dir q x (.data (vs i) k) = q i (shift x dir k) := by
    intro dir x k
    have : (List.finRange n).find? (fun j : Fin n => vs j = vs i) = some i := by
      have hs : ((List.finRange n).find? fun j : Fin n => decide (vs j = vs i)).isSome := by
        rw [List.find?_isSome]
        exact ⟨i, List.mem_finRange i, by simp⟩
      obtain ⟨j, hj⟩ := Option.isSome_iff_exists.1 hs
      have hij : j = i := hvs (by simpa using List.find?_some hj)
      rw [hj, hij]
    simp [lineState, this]
  cases c with
  | lines r dir p prog =>
    simp only [Item.op, onLines]
    split
    · rename_i hv
      rw [run_kept (h hv), hl]
      congr 1
      funext e
      by_cases he : e = dir
      · subst he
        simp [shift]
      · simp [shift, he]
    · rfl
  | points r dir prog =>
    simp only [Item.op, onPoints]
    split
    · rename_i hv
      rw [run_kept (h hv), hl]
      congr 1
      funext e
      by_cases he : e = dir
      · subst he
        simp [shift]
      · simp [shift, he]
    · rfl
  | exchange t =>
    simp only [Item.op, Ranges.Transfer.apply]
    rw [if_neg h]

theorem keeps_conditions (hvs : Function.Injective vs) {i : Fin n} {y : P D} {items : List (Item D)} (h : ∀ c ∈ items, c.Keeps vs i y) (q : Sol D n) : conditions vs items q i y = q i y := by
  induction items generalizing q with
  | nil => rfl
  | cons c items ih => exact (ih (fun c hc => h c (List.mem_cons_of_mem _ hc)) _).trans (keeps_op hvs (h c (by simp)) q)

/-- C91: among the conditions of a block, one on the lines normal to a boundary has the last word where later conditions do not write. -/
theorem C91_last (hvs : Function.Injective vs) {pre post : List (Item D)} {r : Ranges.Kernel D} {dir : Fin D} {p : ℤ} {prog : List (Assign D)} (hr : r.totalRange dir = (p, p + 1)) {x : P D} (hx : r.visits x)
    (q : Sol D n) (i : Fin n) (k : ℤ) (hk : ∀ c ∈ post, c.Keeps vs i (shift x dir k)) :
    conditions vs (pre ++ .lines r dir p prog :: post) q i (shift x dir k) = run prog (lineState vs dir (conditions vs pre q) x) (.data (vs i) k) := by
  have hp : x dir = p := by
    have := hx dir
    rw [hr] at this
    omega
  have hu : Function.update (shift x dir k) dir p = x := by
    funext e
    by_cases he : e = dir
    · subst he
      simp [hp]
    · simp [shift, he]
  have hk' : shift x dir k dir - p = k := by simp [shift, hp]
  rw [conditions, List.foldl_append, List.foldl_cons]
  change conditions vs post _ i _ = _
  rw [keeps_conditions hvs hk, Item.op, onLines, hu, if_pos hx, hk']
  rfl

theorem rkStep_bc (np : Fin D → ℤ) (F B : Sol D n → Sol D n) (dt : ℝ) (c1 c2 c3 : ℝ × ℝ) (s : TState D n) (k : ℕ) (hk : 1 ≤ k) : ∃ q, ((rkStep np F B dt [c1, c2, c3])^[k] s).q = B q := by
  obtain ⟨k, rfl⟩ := Nat.exists_eq_add_of_le' hk
  rw [Function.iterate_succ_apply']
  exact ⟨_, rfl⟩

/-- C91: after the first time step the printed program has, at the end and in the files with a number, the values of the conditions on the boundary and in the halos: on every line normal to
the boundary those of the equations of the condition, from the values along the line which are not changed by it. Partial: as C85. -/
theorem C91_boundary_values_partial {S : Setup D n} {U : Sim.Arr → Prop} {inp : Alg.Input (Call D)} (hS : T.Suits S .rk inp U) (hP : Program S .rk (T.meaning (T.const prg) 0) pts inp prg) (hst : inp.stages = 3)
    (hnew : T.table "rknew" = [2/3, 5/12, 3/5]) (hold : T.table "rkold" = [1/4, 3/20, 3/5]) (hvs : Function.Injective vs) {items pre post : List (Item D)} (h : List.Forall₂ (Renders T prg S.sol vs) T.bcs items)
    {r : Ranges.Kernel D} {dir : Fin D} {p : ℤ} {prog : List (Assign D)} (hi : items = pre ++ .lines r dir p prog :: post) (hr : r.totalRange dir = (p, p + 1)) (a : Arrays D) (hn : 1 ≤ inp.niter) :
    let holds (a' : Arrays D) := ∃ q : Sol D n, ∀ x, r.visits x → ∀ i k, (∀ c ∈ post, c.Keeps vs i (shift x dir k)) →
      a' (T.names (.data (S.sol i))) (shift x dir k) = run prog (lineState vs dir q x) (.data (vs i) k)
    (∃ a', T.runText prg pts (Alg.runProgram prg) a = some a' ∧ holds a') ∧
    ∀ before after o (k : ℤ) e, Alg.runProgram prg = before ++ .write o (some k) e :: after → ∃ a', T.runText prg pts before a = some a' ∧ holds a' := by
  intro holds
  obtain ⟨full, hfull⟩ := program_full hP fun s => T.startState S prg pts (conditions vs items) inp a (.data s)
  obtain ⟨⟨a', r1, r2⟩, r3⟩ := C91_rk_partial hS hP hst hnew hold h a full hfull
  have key : ∀ (a' : Arrays D) (s : TState D n) (F : Sol D n → Sol D n) (dt : ℝ) (j : ℕ), 1 ≤ j →
      (∀ i, a' (T.names (.data (S.sol i))) = ((rkStep S.np F (conditions vs items) dt [(2/3, 1/4), (5/12, 3/20), (3/5, 3/5)])^[j] s).q i) → holds a' := by
    intro a' s F dt j hj he
    obtain ⟨q, hq⟩ := rkStep_bc S.np F (conditions vs items) dt (2/3, 1/4) (5/12, 3/20) (3/5, 3/5) s j hj
    refine ⟨conditions vs pre q, fun x hx i k hk => ?_⟩
    rw [he i, hq, hi]
    exact C91_last hvs hr hx q i k hk
  refine ⟨⟨a', r1, key _ _ _ _ _ ?_ r2⟩, fun before after o k e he => ?_⟩
  · omega
  · obtain ⟨j, -, j1, -, a', s1, s2⟩ := r3 before after o k e he
    exact ⟨a', s1, key _ _ _ _ _ j1 s2⟩

/-- The density at the wall is not changed by the condition. -/
theorem wall_density (γ M Tw : ℝ) (s : Side) (nh : ℕ) (st : Cell D → ℝ) : run (isothermalWall D γ M Tw [wallEnergy D γ M Tw] s nh) st (.data .rho 0) = st (.data .rho 0) := by
  rw [isothermalWall, run_append, isothermal_run, isoFinal_wall]
  apply run_unwritten
  intro a ha
  simp only [isothermalWallPart, List.mem_append, List.mem_map, List.mem_singleton, wallEnergy] at ha
  rcases ha with (rfl | ⟨i, -, rfl⟩) | rfl <;> simp

/-- C91: after the first time step the momentum at an isothermal wall is zero, at the end and in the files with a number, at all points which are not on another boundary whose condition writes them later.
Partial: as C85. -/
theorem C91_no_slip_partial {S : Setup D n} {U : Sim.Arr → Prop} {inp : Alg.Input (Call D)} (hS : T.Suits S .rk inp U) (hP : Program S .rk (T.meaning (T.const prg) 0) pts inp prg) (hst : inp.stages = 3)
    (hnew : T.table "rknew" = [2/3, 5/12, 3/5]) (hold : T.table "rkold" = [1/4, 3/20, 3/5]) (hvs : Function.Injective vs) {items pre post : List (Item D)} (h : List.Forall₂ (Renders T prg S.sol vs) T.bcs items)
    {r : Ranges.Kernel D} {dir : Fin D} {p : ℤ} {γ M Tw : ℝ} {user : List (Assign D)} {s : Side} {nh : ℕ} (hi : items = pre ++ .lines r dir p (isothermalWall D γ M Tw user s nh) :: post)
    (hr : r.totalRange dir = (p, p + 1)) (a : Arrays D) (hn : 1 ≤ inp.niter)
    (huser : ∀ a ∈ user, ∀ j, a.target ≠ .data (.mom j) 0) :
    let still (a' : Arrays D) := ∀ x, r.visits x → ∀ i j, vs i = .mom j → (∀ c ∈ post, c.Keeps vs i x) → a' (T.names (.data (S.sol i))) x = 0
    (∃ a', T.runText prg pts (Alg.runProgram prg) a = some a' ∧ still a') ∧
    ∀ before after o (k : ℤ) e, Alg.runProgram prg = before ++ .write o (some k) e :: after → ∃ a', T.runText prg pts before a = some a' ∧ still a' := by
  intro still
  have h0 : ∀ x : P D, shift x dir 0 = x := fun x => by
    funext e
    by_cases he : e = dir
    · subst he
      simp [shift]
    · simp [shift, he]
  obtain ⟨⟨a', r1, q, r2⟩, r3⟩ := C91_boundary_values_partial hS hP hst hnew hold hvs h hi hr a hn
  have key : ∀ (a' : Arrays D) (q : Sol D n), (∀ x, r.visits x → ∀ i k, (∀ c ∈ post, c.Keeps vs i (shift x dir k)) →
      a' (T.names (.data (S.sol i))) (shift x dir k) = run (isothermalWall D γ M Tw user s nh) (lineState vs dir q x) (.data (vs i) k)) → still a' := by
    intro a' q hq x hx i j hij hc
    have := hq x hx i 0 (by rw [h0]; exact hc)
    rw [h0, hij, C27_no_slip γ M Tw user s nh _ j fun a ha => huser a ha j] at this
    exact this
  refine ⟨⟨a', r1, key a' q r2⟩, fun before after o k e he => ?_⟩
  obtain ⟨a', s1, q, s2⟩ := r3 before after o k e he
  exact ⟨a', s1, key a' q s2⟩

/-- C91: with the wall energy of the shipped applications the temperature at an isothermal wall is the prescribed one after the first time step, at the end and in the files with a number, at all points which are not on
another boundary whose condition writes them later and where the density is not zero. Partial: as C85. -/
theorem C91_wall_temperature_partial {S : Setup D n} {U : Sim.Arr → Prop} {inp : Alg.Input (Call D)} (hS : T.Suits S .rk inp U) (hP : Program S .rk (T.meaning (T.const prg) 0) pts inp prg) (hst : inp.stages = 3)
    (hnew : T.table "rknew" = [2/3, 5/12, 3/5]) (hold : T.table "rkold" = [1/4, 3/20, 3/5]) (hvs : Function.Injective vs) {items pre post : List (Item D)} (h : List.Forall₂ (Renders T prg S.sol vs) T.bcs items)
    {r : Ranges.Kernel D} {dir : Fin D} {p : ℤ} {γ M Tw : ℝ} {s : Side} {nh : ℕ} (hi : items = pre ++ .lines r dir p (isothermalWall D γ M Tw [wallEnergy D γ M Tw] s nh) :: post)
    (hr : r.totalRange dir = (p, p + 1)) (a : Arrays D) (hn : 1 ≤ inp.niter) (hγ : γ ≠ 0) (hγ1 : γ ≠ 1) (hM : M ≠ 0) {iρ iE : Fin n} {im : Fin D → Fin n} (hρ : vs iρ = .rho) (hE : vs iE = .rhoE)
    (hm : ∀ j, vs (im j) = .mom j) :
    let warm (a' : Arrays D) := ∀ x, r.visits x → (∀ c ∈ post, ∀ i, c.Keeps vs i x) → a' (T.names (.data (S.sol iρ))) x ≠ 0 →
      Spec.temperatureOf γ M (a' (T.names (.data (S.sol iρ))) x) (fun j => a' (T.names (.data (S.sol (im j)))) x) (a' (T.names (.data (S.sol iE))) x) = Tw
    (∃ a', T.runText prg pts (Alg.runProgram prg) a = some a' ∧ warm a') ∧
    ∀ before after o (k : ℤ) e, Alg.runProgram prg = before ++ .write o (some k) e :: after → ∃ a', T.runText prg pts before a = some a' ∧ warm a' := by
  intro warm
  have h0 : ∀ x : P D, shift x dir 0 = x := fun x => by
    funext e
    by_cases he : e = dir
    · subst he
      simp [shift]
    · simp [shift, he]
  obtain ⟨⟨a', r1, q, r2⟩, r3⟩ := C91_boundary_values_partial hS hP hst hnew hold hvs h hi hr a hn
  have key : ∀ (a' : Arrays D) (q : Sol D n), (∀ x, r.visits x → ∀ i k, (∀ c ∈ post, c.Keeps vs i (shift x dir k)) →
      a' (T.names (.data (S.sol i))) (shift x dir k) = run (isothermalWall D γ M Tw [wallEnergy D γ M Tw] s nh) (lineState vs dir q x) (.data (vs i) k)) → warm a' := by
    intro a' q hq x hx hc hne
    have hv : ∀ i, a' (T.names (.data (S.sol i))) x = run (isothermalWall D γ M Tw [wallEnergy D γ M Tw] s nh) (lineState vs dir q x) (.data (vs i) 0) := fun i => by
      have := hq x hx i 0 (by rw [h0]; exact fun c hc' => hc c hc' i)
      rwa [h0] at this
    have hw : ∀ h', _ := C27_wall_temperature γ M Tw s nh (lineState vs dir q x) hγ hγ1 hM
    rw [hv iρ, hρ] at hne
    have hρ0 : lineState vs dir q x (.data .rho 0) ≠ 0 := by
      rwa [wall_density] at hne
    have := (hw hρ0).1
    rw [tAt, ← hρ, ← hE, ← hv, ← hv] at this
    simp only [← hm, ← hv] at this
    exact this
  refine ⟨⟨a', r1, key a' q r2⟩, fun before after o k e he => ?_⟩
  obtain ⟨a', s1, q, s2⟩ := r3 before after o k e he
  exact ⟨a', s1, key a' q s2⟩

/-! ### Symmetry on a Cartesian grid -/

/-- C91: on a Cartesian grid the right hand sides of a symmetry condition have the values of the simplified ones. -/
theorem mirrored_val {N : Spelling D} {L : Lib ℝ} {o : Outer D ℝ} (arrays : List (Arr D)) (k : ℤ) :
    List.Forall₂ (fun (e : Sym D) (f : Expr D) => ∀ st, e.val L o st = (f.setLoc k).eval (N.view st)) (mirrored N arrays k) (reflectedRhs (cartesian N.dir) 2 arrays) := by
  induction arrays with
  | nil => exact .nil
  | cons A arrays ih =>
    rw [mirrored, reflectedRhs, List.flatMap_cons, List.flatMap_cons]
    refine List.rel_append ?_ ih
    cases A with
    | scalar v => exact .cons (fun st => rfl) .nil
    | vector m =>
      simp only [List.forall₂_map_left_iff, List.forall₂_map_right_iff]
      refine List.forall₂_same.2 fun i _ st => ?_
      rw [eval_reflected]
      have hn : ∀ j, normalAt (cartesian N.dir) (N.view st) k j = if j = N.dir then 1 else 0 := fun j => rfl
      simp only [Spec.inner, hn]
      by_cases hi : i = N.dir
      · subst hi
        simp [Sym.val, Spelling.cell, Spelling.view]
        ring
      · simp [hi, Sym.val, Spelling.cell, Spelling.view]

theorem forall₂_zip {α β γ : Type} {R : β → γ → Prop} : ∀ (as : List α) {l : List β} {l' : List γ}, List.Forall₂ R l l' → List.Forall₂ (fun p q => p.1 = q.1 ∧ R p.2 q.2) (as.zip l) (as.zip l')
  | [], _, _, _ => by simp
  | _ :: _, [], [], .nil => by simp
  | a :: as, _ :: _, _ :: _, .cons h t => .cons ⟨rfl, h⟩ (forall₂_zip as t)

/-- C91: the simplified text of a symmetry condition on a Cartesian grid says what the condition says. -/
theorem C91_symmetry (N : Spelling D) (L : Lib ℝ) (o : Outer D ℝ) (arrays : List (Arr D)) (s : Side) (nh : ℕ) :
    SaysLine N L o (symmetryText N arrays s nh) (symmetry (cartesian N.dir) arrays s nh) := by
  unfold SaysLine symmetryText symmetry createBoundaryEquations
  induction mirrorIndices s nh with
  | nil => exact .nil
  | cons p l ih =>
    rw [List.flatMap_cons, List.flatMap_cons]
    refine List.rel_append ?_ ih
    rw [List.forall₂_map_left_iff, List.forall₂_map_right_iff]
    refine (forall₂_zip (flatten arrays) (mirrored_val (N := N) (L := L) (o := o) arrays p.2)).imp ?_
    rintro ⟨v, e⟩ ⟨v', f⟩ ⟨h1, h2⟩
    cases h1
    exact ⟨e, rfl, h2⟩

theorem mirrored_cases {N : Spelling D} {arrays : List (Arr D)} {k : ℤ} {e : Sym D} (h : e ∈ mirrored N arrays k) : ∃ c, e = N.cell (.data c k) ∨ e = .mul (.num (-1)) (N.cell (.data c k)) := by
  simp only [mirrored, List.mem_flatMap] at h
  obtain ⟨A, -, h⟩ := h
  cases A with
  | scalar v => exact ⟨v, .inl (by simpa using h)⟩
  | vector m =>
    obtain ⟨i, -, rfl⟩ := List.mem_map.1 h
    by_cases hi : i = N.dir
    · exact ⟨m i, .inr (by simp only [if_pos hi])⟩
    · exact ⟨m i, .inl (by simp only [if_neg hi])⟩

/-- C91: and it is faithful in any program. -/
theorem C91_symmetry_proper (N : Spelling D) (arrays : List (Arr D)) (s : Side) (nh : ℕ) : T.Proper (symmetryText N arrays s nh) := by
  have hq : ∀ q ∈ symmetryText N arrays s nh, ∃ v k w l, q = .assign ⟨N.lhs (.data v k), N.cell (.data w l)⟩ ∨ q = .assign ⟨N.lhs (.data v k), .mul (.num (-1)) (N.cell (.data w l))⟩ := by
    intro q hq
    obtain ⟨p, -, hq⟩ := List.mem_flatMap.1 hq
    obtain ⟨⟨v, e⟩, he, rfl⟩ := List.mem_map.1 hq
    obtain ⟨w, h | h⟩ := mirrored_cases (List.of_mem_zip he).2
    · exact ⟨v, p.1, w, p.2, .inl (by rw [← h])⟩
    · exact ⟨v, p.1, w, p.2, .inr (by rw [← h])⟩
  have hex : ∀ e ∈ exprs (symmetryText N arrays s nh), ∃ w l, e = N.cell (.data w l) ∨ e = .mul (.num (-1)) (N.cell (.data w l)) := by
    intro e he
    obtain ⟨q, h1, h2⟩ := List.mem_flatMap.1 he
    obtain ⟨v, k, w, l, rfl | rfl⟩ := hq q h1
    · exact ⟨w, l, .inl (by simpa [Eqn.exprs] using h2)⟩
    · exact ⟨w, l, .inr (by simpa [Eqn.exprs] using h2)⟩
  refine ⟨fun e he c hc => ?_, fun v hv => ?_, fun e he o st => ?_, fun bs hb => ?_, fun e he k hk => ?_⟩
  · obtain ⟨w, l, rfl | rfl⟩ := hex e he <;> simp [Spelling.cell, Sym.consts] at hc
  · rw [declaredVars, mem_unions] at hv
    obtain ⟨q, h1, h2⟩ := hv
    obtain ⟨v, k, w, l, rfl | rfl⟩ := hq q h1 <;> simp [Eqn.gvars, Assign.gvars, Spelling.lhs, Lhs.gvars, Spelling.cell, Sym.gvars] at h2
  · obtain ⟨w, l, rfl | rfl⟩ := hex e he
    · trivial
    · exact ⟨trivial, trivial, by simp [Spelling.cell, Sym.recipInt]⟩
  · obtain ⟨v, k, w, l, e | e⟩ := hq _ hb <;> cases e
  · obtain ⟨w, l, rfl | rfl⟩ := hex e he <;> simp [Spelling.cell, Sym.inverses] at hk

theorem reflectedRhs_cells {row : Fin D → Expr D} (hrow : ∀ i, (row i).cells = []) {c : ℝ} {arrays : List (Arr D)} {e : Expr D} (he : e ∈ reflectedRhs row c arrays) {x : Cell D} (hx : x ∈ e.cells) :
    ∃ v ∈ flatten arrays, x = .data v 0 := by
  simp only [reflectedRhs, List.mem_flatMap] at he
  obtain ⟨A, hA, he⟩ := he
  cases A with
  | scalar v =>
    simp only [List.mem_singleton] at he
    subst he
    exact ⟨v, List.mem_flatMap.2 ⟨_, hA, by simp⟩, by simpa [Expr.dat, Expr.cells] using hx⟩
  | vector m =>
    obtain ⟨i, -, rfl⟩ := List.mem_map.1 he
    have hm : ∀ j, m j ∈ flatten arrays := fun j => List.mem_flatMap.2 ⟨_, hA, List.mem_map.2 ⟨j, List.mem_finRange j, rfl⟩⟩
    have hu : ∀ j, (unitNormal row j).cells = [] := fun j => by
      refine List.eq_nil_iff_forall_not_mem.2 fun y hy => ?_
      change y ∈ (row j).cells ++ (Expr.sum _).cells at hy
      rw [hrow, List.nil_append, mem_cells_sum] at hy
      obtain ⟨e, he, hy⟩ := hy
      obtain ⟨l, -, rfl⟩ := List.mem_map.1 he
      change y ∈ (row l).cells ++ (row l).cells at hy
      simp [hrow] at hy
    change x ∈ [Cell.data (m i) 0] ++ ((([] : List (Cell D)) ++ (Expr.sum _).cells) ++ (unitNormal row i).cells) at hx
    rw [hu, List.append_nil, List.nil_append, List.mem_append, List.mem_singleton, mem_cells_sum] at hx
    rcases hx with rfl | ⟨e, he, hx⟩
    · exact ⟨m i, hm i, rfl⟩
    · obtain ⟨l, -, rfl⟩ := List.mem_map.1 he
      change x ∈ (unitNormal row l).cells ++ [Cell.data (m l) 0] at hx
      rw [hu, List.nil_append, List.mem_singleton] at hx
      exact ⟨m l, hm l, hx⟩

/-- C91: symmetry conditions on a Cartesian grid concern the listed arrays only. -/
theorem C91_symmetry_confined (dir : Fin D) (arrays : List (Arr D)) (h : ∀ v ∈ flatten arrays, ∃ i, v = vs i) (s : Side) (nh : ℕ) : Confined vs (symmetry (cartesian dir) arrays s nh) := by
  have ha : ∀ a ∈ symmetry (cartesian dir) arrays s nh, (∃ v ∈ flatten arrays, ∃ k, a.target = .data v k) ∧ ∀ c ∈ a.rhs.cells, ∃ v ∈ flatten arrays, ∃ k, c = .data v k := by
    intro a ha
    obtain ⟨p, -, ha⟩ := List.mem_flatMap.1 ha
    obtain ⟨⟨v, e⟩, he, rfl⟩ := List.mem_map.1 ha
    refine ⟨⟨v, (List.of_mem_zip he).1, _, rfl⟩, fun c hc => ?_⟩
    simp only [Expr.setLoc, cells_mapCells, List.mem_map] at hc
    obtain ⟨c', hc', rfl⟩ := hc
    obtain ⟨w, hw, rfl⟩ := reflectedRhs_cells (fun i => rfl) (List.of_mem_zip he).2 hc'
    exact ⟨w, hw, p.2, rfl⟩
  refine ⟨fun a h1 v k e => ?_, fun c => ∃ i k, c = .data (vs i) k, fun i k => ⟨i, k, rfl⟩, fun v k ⟨i, k', e⟩ => ⟨i, by cases e; rfl⟩, fun a h1 _ c hc => ?_⟩
  · obtain ⟨⟨w, hw, k', e'⟩, -⟩ := ha a h1
    rw [e] at e'
    cases e'
    exact h v hw
  · obtain ⟨w, hw, k, rfl⟩ := (ha a h1).2 c hc
    obtain ⟨i, rfl⟩ := h w hw
    exact ⟨i, k, rfl⟩

end OpenSBLI.Bc
