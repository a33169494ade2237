import Verif.Lemmas.ScopeProgram

/-!
# C84: the names of the generated program are declared

Every name in the generated program is declared before it is used, as the kind of thing it is used for, and nothing is declared twice in a block.
-/
namespace OpenSBLI.Prog
open OpenSBLI.Reg OpenSBLI.CCode OpenSBLI.Alg

variable {d : ℕ}

/-- C84: under the conditions `Regular` on names and declarations, when no component stands in a block of text twice and all components fit their loops,
the program is written and every name in it is declared once in its block, before its use and as what it is used for. Partial: without these conditions
the generator may write programs that are not well scoped, see below. -/
theorem C84_scoped_partial (inp : Input d) (lib : List String) (h : Regular inp lib) (hb : inp.b = 0) (ht : ∀ t ∈ inp.tables, t.2 ≠ [])
    (hm : (nodesMarks inp inp.prg).Nodup) (hf : nodesFit inp [] inp.prg = true) : ∃ t, inp.generate = .ok t ∧ wellScoped lib t = true :=
  ⟨inp.text, generate_ok h (.inl hb) ht hf, text_ok h hm hf⟩

/-! ## The programs of the time integration -/

/-- The kernels among components. -/
def Input.kernelsAmong (inp : Input d) (l : List ℕ) : List ℕ := l.filter fun n => (inp.kern? n).isSome

theorem marks_append (inp : Input d) (a b : List (Node ℕ)) : nodesMarks inp (a ++ b) = nodesMarks inp a ++ nodesMarks inp b := by
  induction a with
  | nil => simp [nodesMarks]
  | cons n a ih => simp only [List.cons_append, nodesMarks, ih, List.append_assoc]

theorem fit_append (inp : Input d) (vars : List Alg.Var) (a b : List (Node ℕ)) : nodesFit inp vars (a ++ b) = (nodesFit inp vars a && nodesFit inp vars b) := by
  induction a with
  | nil => simp [nodesFit]
  | cons n a ih => simp only [List.cons_append, nodesFit, ih, Bool.and_assoc]

theorem marks_kernels (inp : Input d) (l : List ℕ) : nodesMarks inp (l.map .kernel) = (inp.kernelsAmong l).map .kernel := by
  induction l with
  | nil => rfl
  | cons n l ih =>
    rw [List.map_cons, nodesMarks, ih, nodeMarks, Input.kernelsAmong, Input.kernelsAmong, List.filter_cons]
    split <;> rfl

theorem marks_flatMap {A : Type} (inp : Input d) (l : List A) (f : A → List (Node ℕ)) : nodesMarks inp (l.flatMap f) = l.flatMap fun x => nodesMarks inp (f x) := by
  induction l with
  | nil => rfl
  | cons x l ih => rw [List.flatMap_cons, marks_append, ih, List.flatMap_cons]

theorem fit_flatMap {A : Type} (inp : Input d) (vars : List Alg.Var) (l : List A) (f : A → List (Node ℕ)) (h : ∀ x ∈ l, nodesFit inp vars (f x) = true) :
    nodesFit inp vars (l.flatMap f) = true := by
  induction l with
  | nil => rfl
  | cons x l ih =>
    rw [List.flatMap_cons, fit_append, h x (List.mem_cons_self ..), ih fun y hy => h y (List.mem_cons_of_mem _ hy)]
    rfl

theorem fit_kernels (inp : Input d) (vars : List Alg.Var) (l : List ℕ)
    (h : ∀ n ∈ l, ∀ k, inp.kern? n = some k → ∀ c ∈ k.indexed, ∀ v ∈ c.2, v ∈ vars.map varName) : nodesFit inp vars (l.map .kernel) = true := by
  induction l with
  | nil => rfl
  | cons n l ih =>
    rw [List.map_cons, nodesFit, ih fun m hm => h m (List.mem_cons_of_mem _ hm), Bool.and_true, nodeFits]
    have h1 := h n (List.mem_cons_self ..)
    cases hk : inp.comp n with
    | exchange x => rfl
    | kernel k =>
      have h2 := h1 k (by simp [Input.kern?, hk])
      refine List.all_eq_true.2 fun c hc => List.all_eq_true.2 fun v hv => decide_eq_true ?_
      exact h2 c hc v (Option.mem_toList.1 hv)

/-- A usable output or input object: made by the constructor, of arrays of the block; a writing one has arrays and no name if it is periodic. -/
def Input.UsableIO (inp : Input d) (o : Alg.IO) : Prop := ∃ id write name every, o = IO.new id write name every ∧ (∀ x ∈ inp.ioArrays id, x ∈ inp.arrays) ∧
  (write = true → inp.ioArrays id ≠ [] ∧ (every ≠ 0 → name = none))

theorem io_parts (inp : Input d) (o : Alg.IO) (h : inp.UsableIO o) :
    nodesMarks inp (o.places.flatMap (selBefore o)) = [] ∧ nodesMarks inp (o.places.flatMap (selIn o)) = [] ∧
    nodesMarks inp (o.places.flatMap (selAfter o)) = (if o.write && o.name.isNone then [.buffer] else []) ∧
    nodesFit inp [] (o.places.flatMap (selBefore o)) = true ∧ nodesFit inp [.iter] (o.places.flatMap (selIn o)) = true ∧
    nodesFit inp [] (o.places.flatMap (selAfter o)) = true := by
  obtain ⟨id, write, name, every, rfl, h1, h2⟩ := h
  cases write with
  | false => simp [IO.new, selBefore, selIn, selAfter, nodesMarks, nodeMarks, nodesFit, nodeFits]; simpa using h1
  | true =>
    obtain ⟨h2, h3⟩ := h2 rfl
    by_cases he : every = 0
    · subst he
      simp [IO.new, selBefore, selIn, selAfter, nodesMarks, nodeMarks, nodesFit, nodeFits, h2]
      simpa using h1
    · have hn := h3 he
      subst hn
      simp [IO.new, selBefore, selIn, selAfter, nodesMarks, nodeMarks, nodesFit, nodeFits, h2, he]
      exact h1

theorem buffers (inp : Input d) (ios : List Alg.IO) (h : ∀ o ∈ ios, inp.UsableIO o) :
    nodesMarks inp (ioAt ios selAfter) = (ios.filter fun o => o.write && o.name.isNone).map fun _ => .buffer := by
  unfold ioAt
  rw [marks_flatMap]
  induction ios with
  | nil => rfl
  | cons o l ih =>
    rw [List.flatMap_cons, ih fun x hx => h x (List.mem_cons_of_mem _ hx), (io_parts inp o (h o (List.mem_cons_self ..))).2.2.1, List.filter_cons]
    split <;> rfl

/-- C84: the program made from one set of simulation equations, with its start and end kernels, advancing, boundary and spatial kernels, and any other
equations, output objects and monitor, is well scoped when no kernel is placed twice outside the time loop, twice in a time step outside the stages or
twice in a stage, at most one output object has no name, and only the kernels in the stage loop depend on the stage. Partial for the same reasons. -/
theorem C84_algorithm_partial (inp : Input d) (lib : List String) (h : Regular inp lib) (hb : inp.b = 0) (ht : ∀ t ∈ inp.tables, t.2 ≠ [])
    (req : Alg.Input ℕ) (pre post : List (Item ℕ)) (s f k b sp : List ℕ) (hitems : req.items = pre ++ .simulation s f k b sp :: post)
    (hpre : ∀ i ∈ pre, i.isSimulation = false) (hpost : ∀ i ∈ post, i.isSimulation = false) (hp : Alg.generate req = .ok inp.prg)
    (outside : (inp.kernelsAmong (placedAt (sortByOrder (others req.items)) .before ++ placedAt (sortByOrder (others req.items)) .after)).Nodup)
    (step : (inp.kernelsAmong (b ++ s ++ placedAt (sortByOrder (others req.items)) (.inTheSimulation 0) ++ f)).Nodup)
    (stage : (inp.kernelsAmong (sp ++ k ++ b)).Nodup)
    (fixed : ∀ n ∈ placedAt (sortByOrder (others req.items)) .before ++ placedAt (sortByOrder (others req.items)) .after ++
      (b ++ s ++ placedAt (sortByOrder (others req.items)) (.inTheSimulation 0) ++ f), ∀ κ, inp.kern? n = some κ → ∀ c ∈ κ.indexed, c.2 = none)
    (staged : ∀ n ∈ sp ++ k ++ b, ∀ κ, inp.kern? n = some κ → ∀ c ∈ κ.indexed, ∀ v ∈ c.2, v = "stage" ∨ v = "iter")
    (ios : ∀ o ∈ req.ios, inp.UsableIO o) (unnamed : (req.ios.filter fun o => o.write && o.name.isNone).length ≤ 1)
    (monitored : req.monitorFrequency ≠ none → d ≤ 3) : ∃ t, inp.generate = .ok t ∧ wellScoped lib t = true := by
  have shape : ∃ (a : Acc ℕ) (p : Placed ℕ), req.items.foldlM Acc.add ({} : Acc ℕ) = .ok a ∧
      (sortByOrder a.nonSim).foldlM (fun p (x : ℤ × List Place × List ℕ) => x.2.1.foldlM (Placed.addKernels x.2.2) p) ({} : Placed ℕ) = .ok p ∧
      inp.prg = assemble req a p := by
    unfold Alg.generate at hp
    split at hp
    · cases hp
    · split at hp
      · cases hp
      · rename_i a ha
        split at hp
        · cases hp
        · rename_i p hp'
          split at hp
          · cases hp
          · exact ⟨a, p, ha, hp', (Except.ok.inj hp).symm⟩
  obtain ⟨a, p, ha, hp', e⟩ := shape
  rw [hitems] at ha
  have ea := foldlM_oneSim pre post s f k b sp hpre hpost a ha
  rw [← hitems] at ea
  subst ea
  have ep := addKernels_eqs _ _ _ hp'
  simp only [List.nil_append] at ep
  set B := placedAt (sortByOrder (others req.items)) .before with hB
  set A := placedAt (sortByOrder (others req.items)) .after with hA
  set I := placedAt (sortByOrder (others req.items)) (.inTheSimulation 0) with hI
  have prg : inp.prg = B.map .kernel ++ ioAt req.ios selBefore ++ [.timers [.loop .iter req.niter ((b ++ s).map .kernel ++
      [.loop .stage req.stages ((sp ++ k ++ b).map .kernel)] ++ (I.map .kernel ++ monitorNodes req.monitorFrequency ++ ioAt req.ios selIn) ++ f.map .kernel)]] ++
      (A.map .kernel ++ ioAt req.ios selAfter) := by
    rw [e, ep]
    unfold assemble
    simp only [addIO_all]
  have iob : nodesMarks inp (ioAt req.ios selBefore) = [] := by
    unfold ioAt
    rw [marks_flatMap, List.flatMap_eq_nil_iff]
    exact fun o ho => (io_parts inp o (ios o ho)).1
  have ioi : nodesMarks inp (ioAt req.ios selIn) = [] := by
    unfold ioAt
    rw [marks_flatMap, List.flatMap_eq_nil_iff]
    exact fun o ho => (io_parts inp o (ios o ho)).2.1
  have kinj : Function.Injective Mark.kernel := fun _ _ h => Mark.kernel.inj h
  have among : ∀ x y : List ℕ, inp.kernelsAmong (x ++ y) = inp.kernelsAmong x ++ inp.kernelsAmong y := fun x y => List.filter_append ..
  refine C84_scoped_partial inp lib h hb ht ?_ ?_
  · rw [prg]
    simp only [marks_append, marks_kernels, iob, buffers inp req.ios ios, nodesMarks, nodeMarks, List.append_nil]
    rw [among, List.nodup_append] at outside
    rw [List.nodup_append, List.nodup_append, List.nodup_append]
    refine ⟨⟨outside.1.map kinj, by simp, ?_⟩, ⟨outside.2.1.map kinj, ?_, ?_⟩, ?_⟩
    · intro x hx y hy
      obtain ⟨n, -, rfl⟩ := List.mem_map.1 hx
      rw [List.mem_singleton] at hy
      rw [hy]; simp
    · generalize req.ios.filter (fun o => o.write && o.name.isNone) = l at unnamed
      match l with
      | [] => simp
      | [_] => simp
      | _ :: _ :: _ => simp at unnamed
    · intro x hx y hy
      obtain ⟨n, -, rfl⟩ := List.mem_map.1 hx
      obtain ⟨o, -, rfl⟩ := List.mem_map.1 hy
      simp
    · rintro x hx y hy rfl
      rcases List.mem_append.1 hx with hx | hx <;> rcases List.mem_append.1 hy with hy | hy
      · obtain ⟨n, hn, rfl⟩ := List.mem_map.1 hx
        obtain ⟨m, hm, e⟩ := List.mem_map.1 hy
        exact outside.2.2 n hn m hm (kinj e).symm
      · obtain ⟨n, hn, rfl⟩ := List.mem_map.1 hx
        obtain ⟨o, -, e⟩ := List.mem_map.1 hy
        cases e
      · rw [List.mem_singleton] at hx
        obtain ⟨m, hm, e⟩ := List.mem_map.1 hy
        rw [hx] at e
        cases e
      · rw [List.mem_singleton] at hx
        obtain ⟨m, hm, e⟩ := List.mem_map.1 hy
        rw [hx] at e
        cases e
  · have fx : ∀ (vars : List Alg.Var) (l : List ℕ), (∀ n ∈ l, n ∈ B ++ A ++ (b ++ s ++ I ++ f)) → nodesFit inp vars (l.map .kernel) = true := by
      intro vars l hl
      refine fit_kernels inp vars l fun n hn κ hk c hc v hv => ?_
      rw [fixed n (hl n hn) κ hk c hc] at hv
      cases hv
    have fs : nodesFit inp [.stage, .iter] ((sp ++ k ++ b).map .kernel) = true := by
      refine fit_kernels inp _ _ fun n hn κ hk c hc v hv => ?_
      rcases staged n hn κ hk c hc v hv with rfl | rfl <;> simp [varName]
    have fb : nodesFit inp [] (ioAt req.ios selBefore) = true := fit_flatMap inp _ _ _ fun o ho => (io_parts inp o (ios o ho)).2.2.2.1
    have fi : nodesFit inp [.iter] (ioAt req.ios selIn) = true := fit_flatMap inp _ _ _ fun o ho => (io_parts inp o (ios o ho)).2.2.2.2.1
    have fa : nodesFit inp [] (ioAt req.ios selAfter) = true := fit_flatMap inp _ _ _ fun o ho => (io_parts inp o (ios o ho)).2.2.2.2.2
    have fm : nodesFit inp [.iter] (monitorNodes req.monitorFrequency) = true ∧ nodesMarks inp (monitorNodes req.monitorFrequency) = [] := by
      cases hq : req.monitorFrequency with
      | none => exact ⟨rfl, rfl⟩
      | some q =>
        have := monitored (by rw [hq]; simp)
        simp [monitorNodes, nodesFit, nodeFits, nodesMarks, nodeMarks, this]
    have k1 := fx [] B fun n hn => by simp [hn]
    have k2 := fx [] A fun n hn => by simp [hn]
    have k3 := fx [.iter] (b ++ s) fun n hn => by simp only [List.mem_append] at hn ⊢; tauto
    have k4 := fx [.iter] I fun n hn => by simp [hn]
    have k5 := fx [.iter] f fun n hn => by simp [hn]
    have m1 : (nodesMarks inp ((b ++ s).map .kernel ++ [.loop .stage req.stages ((sp ++ k ++ b).map .kernel)] ++
        (I.map .kernel ++ monitorNodes req.monitorFrequency ++ ioAt req.ios selIn) ++ f.map .kernel)).Nodup := by
      simp only [marks_append, marks_kernels, ioi, fm.2, nodesMarks, nodeMarks, List.append_nil]
      rw [← List.map_append, ← List.map_append, ← among, ← among]
      exact step.map kinj
    have m2 : (nodesMarks inp ((sp ++ k ++ b).map .kernel)).Nodup := by
      rw [marks_kernels]; exact stage.map kinj
    rw [prg]
    simp only [fit_append, nodesFit, nodeFits, k1, k2, k3, k4, k5, fs, fb, fi, fa, fm.1, m1, m2, decide_true, Bool.and_true]

/-! ## A program -/

/-- The arrays, in one dimension. -/
def arr (x : String) (i : ℤ) : Sym 1 := .data x fun _ => i

/-- Initialisation: `u = idx*Delta`. -/
def initial : Kern 1 := ⟨[.assign ⟨.data "u" fun _ => 0, .mul (.idx 0) (.const "Delta0block0")⟩], [], none⟩

/-- Residual: `R = -c*(u[1] - u[-1])/(2 Delta two)`, where `inv_0` is the name of the inverse of the spacing. -/
def residual : Kern 1 := ⟨[.assign ⟨.data "R" fun _ => 0,
  .mul (.mul (.num (-1 / 2)) (.const "c")) (.mul (.mul (.const "inv_0") (.pow (.const "two") (.num (-1)))) (.add (arr "u" 1) (.mul (.num (-1)) (arr "u" (-1)))))⟩], [], none⟩

/-- Advancing: `u = u + dt*R`, with the coefficient of the stage. -/
def advance : Kern 1 := ⟨[.assign ⟨.data "u" fun _ => 0, .add (arr "u" 0) (.mul (.const "dt") (arr "R" 0))⟩], [("rknew", some "stage")], none⟩

/-- A request for an advection program with periodic boundaries, a monitor and outputs. -/
def advectionRequest : Alg.Input ℕ where
  temporalSchemes := 1
  items := [.nonSimulation 0 [.before] [0], .simulation [] [] [2] [3] [1]]
  stages := 3
  niter := 10
  monitorFrequency := some 5
  ios := [IO.new 0 true none 2]

/-- Its input to the generator. -/
def advection : Input 1 where
  b := 0
  comp := fun
    | 0 => .kernel initial
    | 1 => .kernel residual
    | 2 => .kernel advance
    | _ => .exchange ["u"]
  created := [0, 1, 2]
  constants := [⟨"c", some (.mul (.const "two") (.pow (.const "two") (.num (-1))))⟩, ⟨"two", some (.num 2)⟩]
  inverses := [.pow (.const "Delta0block0") (.num (-1))]
  tables := [("rknew", [some (1 / 3), some (2 / 3), some 1])]
  ioArrays := fun _ => ["u"]
  monitor := some { arrays := ["u"] }
  prg := [.kernel 0, .timers [.loop .iter 10 [.kernel 3, .loop .stage 3 [.kernel 1, .kernel 2, .kernel 3],
    .cond (.everyOrFirst 5) [.monitor], .cond (.every 2) [.io (IO.new 0 true none 2) true]]], .io (IO.new 0 true none 2) false]

/-- Names in the included headers. -/
def headers : List String := ["printf", "gamma", "sin", "j0", "j1", "y0", "y1", "jn", "ops_init", "sqrt"]

theorem not_generated (n : String) (h : starts "rc" n = false) (h' : starts "inv_" n = false) : ¬ Generated n := by
  rintro ⟨p, i, rfl⟩
  cases p with
  | rc => rw [show Prefix.str .rc = "rc" from rfl, starts_append] at h; cases h
  | inv => rw [show Prefix.str .inv = "inv_" from rfl, starts_append] at h'; cases h'
  | rcinv =>
    rw [show Prefix.str .rcinv = "rc" ++ "inv" from rfl, String.append_assoc, starts_append] at h
    cases h

theorem advection_kernels : advection.kernels = [(0, initial), (1, residual), (2, advance)] := rfl

theorem advection_regular : Regular advection headers where
  constants := by decide +kernel
  tables := by
    have h : ∀ t ∈ advection.tableNames, form t = .user ∧ (starts "rc" t = false ∧ starts "inv_" t = false) ∧ t ∉ advection.arrays := by decide +kernel
    exact fun t ht => ⟨(h t ht).1, not_generated t (h t ht).2.1.1 (h t ht).2.1.2, (h t ht).2.2⟩
  tables_nodup := by decide +kernel
  arrays := by
    have h : ∀ t ∈ advection.arrays, form t = .user ∧ starts "rc" t = false ∧ starts "inv_" t = false := by decide +kernel
    exact fun t ht => ⟨(h t ht).1, not_generated t (h t ht).2.1 (h t ht).2.2⟩
  library := by
    have h : ∀ t ∈ headers, (form t = .user ∨ form t = .corner) ∧ (starts "rc" t = false ∧ starts "inv_" t = false) ∧ t ∉ advection.constantNames := by decide +kernel
    exact fun t ht => ⟨(h t ht).1, not_generated t (h t ht).2.1.1 (h t ht).2.1.2, (h t ht).2.2⟩
  values := by
    have e : advection.registered = ["block0np0", "Delta0block0", "niter", "dt"].map (⟨·, none⟩) ++ advection.constants := by with_unfolding_all rfl
    intro c hc v hv
    rw [e] at hc
    have n : "two" ∈ advection.constantNames := by decide +kernel
    rcases List.mem_append.1 hc with hc | hc
    · obtain ⟨x, -, rfl⟩ := List.mem_map.1 hc
      cases hv
    · simp only [advection, List.mem_cons, List.not_mem_nil, or_false] at hc
      rcases hc with rfl | rfl <;> cases hv <;> simp [Sym.Closed, Sym.consts, n]
  inverses := by
    intro k hk
    rw [List.mem_singleton.1 hk]
    exact ⟨⟨trivial, trivial⟩, by decide +kernel⟩
  kernels := by
    rw [advection_kernels]
    intro p hp
    simp only [List.mem_cons, List.not_mem_nil, or_false] at hp
    rcases hp with rfl | rfl | rfl
    · exact ⟨by decide, by decide, by decide +kernel, by decide +kernel, by simp [initial, exprs, Eqn.exprs, Sym.inverses], by decide +kernel, by decide +kernel, by simp [initial]⟩
    · exact ⟨by decide, by decide, by decide +kernel, by decide +kernel, by simp [residual, exprs, Eqn.exprs, Sym.inverses, arr, Sym.Closed], by decide +kernel, by decide +kernel, by simp [residual]⟩
    · exact ⟨by decide, by decide, by decide +kernel, by decide +kernel, by simp [advance, exprs, Eqn.exprs, Sym.inverses, arr], by decide +kernel, by decide +kernel, by simp [advance]⟩
  exchanges := by decide +kernel
  monitor := by
    intro m hm
    cases hm
    decide +kernel

/-- A program with loops, a stencil, exchanges, fractions and inverses of constants, an array of constants, a monitor and outputs meets the conditions. -/
example : ∃ t, advection.generate = .ok t ∧ wellScoped headers t = true := by
  refine C84_algorithm_partial advection headers advection_regular rfl (by decide) advectionRequest [.nonSimulation 0 [.before] [0]] [] [] [] [2] [3] [1] rfl
    (by decide) (by decide) (by with_unfolding_all rfl) (by decide +kernel) (by decide +kernel) (by decide +kernel) ?_ ?_ ?_ (by decide) (by decide)
  · have : ∀ n ∈ [0, 3], ∀ κ, advection.kern? n = some κ → ∀ c ∈ κ.indexed, c.2 = none := by
      intro n hn κ hk
      simp only [List.mem_cons, List.not_mem_nil, or_false] at hn
      rcases hn with rfl | rfl
      · cases hk; simp [initial]
      · cases hk
    have e : placedAt (sortByOrder (others advectionRequest.items)) .before ++ placedAt (sortByOrder (others advectionRequest.items)) .after ++
      ([3] ++ [] ++ placedAt (sortByOrder (others advectionRequest.items)) (.inTheSimulation 0) ++ []) = [0, 3] := by decide +kernel
    rw [e]
    exact this
  · intro n hn κ hk
    simp only [List.cons_append, List.nil_append, List.mem_cons, List.not_mem_nil, or_false] at hn
    rcases hn with rfl | rfl | rfl <;> cases hk <;> simp [residual, advance]
  · intro o ho
    simp only [advectionRequest, List.mem_cons, List.not_mem_nil, or_false] at ho
    exact ⟨0, true, none, 2, ho, by decide +kernel, fun _ => ⟨by decide, fun _ => rfl⟩⟩

/-! ## Programs that are not well scoped -/

/-- The same program with another kernel. -/
def Input.set (inp : Input d) (n : ℕ) (k : Kern d) : Input d := { inp with comp := fun m => if m = n then .kernel k else inp.comp m }

/-- What becomes of a program: `none` when the writing raises, otherwise whether its names are declared. -/
def outcome (inp : Input d) : Option Bool := inp.generate.toOption.map (wellScoped headers)

example : outcome advection = some true := by decide +kernel

/-- The constant `c` of a kernel was not registered: it is used but nowhere declared. -/
theorem C84_unregistered : outcome { advection with constants := [⟨"two", some (.num 2)⟩] } = some false := by decide +kernel

/-- The value of a constant mentions a constant that was not registered. -/
theorem C84_value : outcome { advection with constants := [⟨"c", some (.mul (.const "two") (.num 3))⟩] } = some false := by decide +kernel

/-- A constant is called like a function of the headers (`y1` of math.h): it is declared again. -/
theorem C84_library : outcome { advection with constants := ⟨"y1", some (.num 2)⟩ :: advection.constants } = some false := by decide +kernel

/-- A constant is called like an array: in the kernels the array hides it, so `c` is read there as an array without accessor. -/
theorem C84_hidden : outcome (advection.set 1 ⟨residual.eqs ++ [.assign ⟨.data "c" fun _ => 0, arr "u" 0⟩], [], none⟩) = some false := by decide +kernel

/-- An array is called like the local variable of a kernel: both are declared in one function. -/
theorem C84_local : outcome (advection.set 1 ⟨.assign ⟨.gvar "u", arr "u" 1⟩ :: residual.eqs, [], none⟩) = some false := by decide +kernel

/-- A kernel stands before and after the time loop (`UserDefinedEquations` with two places): its iteration range is declared twice. -/
theorem C84_placed_twice : outcome { advection with prg := advection.prg ++ [.kernel 0] } = some false := by decide +kernel

/-- Two outputs without a name at the end: the buffer for their names is declared twice. -/
theorem C84_two_outputs : outcome { advection with prg := advection.prg ++ [.io (IO.new 1 true none 0) false] } = some false := by decide +kernel

/-- The same request as the user writes it. -/
theorem C84_two_outputs_requested : Alg.generate { advectionRequest with ios := [IO.new 0 true none 2, IO.new 1 true none 0] } =
    .ok (advection.prg ++ [.io (IO.new 1 true none 0) false]) := by with_unfolding_all rfl

/-- A monitored array that occurs in no kernel is not declared; unlike an output of such an array, this is not noticed. -/
theorem C84_monitored : outcome { advection with monitor := some { arrays := ["p"] } } = some false ∧
    outcome { advection with ioArrays := fun _ => ["p"] } = none := by decide +kernel

/-- A kernel outside the stage loop that uses a coefficient of the stage. -/
theorem C84_stage_outside : outcome { advection with prg := .kernel 2 :: advection.prg.tail } = some false := by decide +kernel

/-- A power of a constant with a negative multiple of an array as exponent is taken for a constant, and its definition reads the array. -/
theorem C84_inverse : outcome (advection.set 0 ⟨[.assign ⟨.data "u" fun _ => 0, .pow (.const "c") (.mul (.num (-1)) (arr "R" 0))⟩], [], none⟩) =
    some false := by decide +kernel

/-- A program on a block with another number than 0 is not written: the list of kernel files has one entry and is asked for that of the block. -/
theorem C84_block_number (inp : Input d) (hb : inp.b ≠ 0) (hk : inp.kernels ≠ []) : ∀ t, inp.generate ≠ .ok t := by
  intro t
  unfold Input.generate
  split
  · simp
  · rw [if_pos ⟨hb, hk⟩]; simp

example : outcome { advection with b := 1 } = none := by decide +kernel

/-- An output without arrays at the end raises. -/
theorem C84_empty_output : outcome { advection with ioArrays := fun _ => [] } = none := by decide +kernel

end OpenSBLI.Prog
