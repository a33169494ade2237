import Verif.Lemmas.Kernel
import Mathlib.Data.List.Forall2
import Mathlib.Data.Finset.Dedup

/-!
# C32 kernel call and kernel definition agree, C33 access modes are truthful
-/
namespace OpenSBLI.Ker

variable {d : ℕ} {V : Type}

/-! ## C32 -/

/-- An argument of the call is received by a parameter of the same object, `const` exactly when it is passed read-only. -/
def Matches : Arg → Param → Prop
  | .dat b a, .dat b' c => b = b' ∧ (c = true ↔ a = .read)
  | .iconst b _ a, .iconst b' c => b = b' ∧ (c = true ↔ a = .read)
  | .glob g a, .glob g' c => g = g' ∧ (c = true ↔ a = .read)
  | .idx, .idx => True
  | _, _ => False

theorem globals_disjoint (eqs : List (Eqn d)) : (globalVariables eqs).1 ∩ (globalVariables eqs).2 = ∅ := by
  simp [globalVariables]

theorem match_dats (l : List String) (a : Access) (c : Bool) (h : c = true ↔ a = .read) :
    List.Forall₂ Matches (l.map (Arg.dat · a)) (l.map (Param.dat · c)) := by
  rw [List.forall₂_map_left_iff, List.forall₂_map_right_iff, List.forall₂_same]
  exact fun x _ => ⟨rfl, h⟩

theorem match_globs (l : List String) (a : Access) (c : Bool) (h : c = true ↔ a = .read) :
    List.Forall₂ Matches (l.map (Arg.glob · a)) (l.map (Param.glob · c)) := by
  rw [List.forall₂_map_left_iff, List.forall₂_map_right_iff, List.forall₂_same]
  exact fun x _ => ⟨rfl, h⟩

theorem match_iconsts (l : List (String × IIdx)) :
    List.Forall₂ Matches (l.map fun c => Arg.iconst c.1 c.2 .read) (l.map fun c => Param.iconst c.1 true) := by
  rw [List.forall₂_map_left_iff, List.forall₂_map_right_iff, List.forall₂_same]
  exact fun x _ => ⟨rfl, by simp⟩

theorem match_idx (b : Bool) : List.Forall₂ Matches (if b then [Arg.idx] else []) (if b then [Param.idx] else []) := by
  cases b
  · exact .nil
  · exact .cons trivial .nil

theorem enum_empty {α : Type} (E : Enum α) {s : Finset α} (h : s = ∅) : E.list s = [] := by
  subst h
  rw [List.eq_nil_iff_forall_not_mem]
  intro a ha
  simpa using (E.mem _ a).1 ha

theorem enum_ne_nil {α : Type} (E : Enum α) {s : Finset α} (h : s ≠ ∅) : E.list s ≠ [] := by
  obtain ⟨a, ha⟩ := Finset.nonempty_iff_ne_empty.2 h
  exact List.ne_nil_of_mem ((E.mem s a).2 ha)

theorem forall₂_cancel {α β : Type} {R : α → β → Prop} {A X : List α} {B Y : List β} (hl : A.length = B.length)
    (h : List.Forall₂ R (A ++ X) (B ++ Y)) : List.Forall₂ R X Y := by
  have := List.forall₂_drop A.length h
  rwa [List.drop_left, hl, List.drop_left] at this

/-- C32: for every kernel, with any iteration order of sets, the argument list of the loop call and the parameter list of the kernel
definition match position by position exactly when the kernel does not use indexed constants and global variables together. -/
theorem C32_match_iff (E : Enum String) (EI : Enum (String × IIdx)) (eqs : List (Eqn d)) (hne : eqs ≠ []) :
    ∃ args params, callArgs E EI eqs = some args ∧ headerParams E EI eqs = some params ∧
      (List.Forall₂ Matches args params ↔ indexedConstants eqs = ∅ ∨ (globalVariables eqs).1 = ∅) := by
  have hd := globals_disjoint eqs
  have he : eqs.isEmpty = false := by simpa using hne
  refine ⟨_, _, by simp only [callArgs, hd, he]; simp only [ne_eq, not_true_eq_false, decide_false, Bool.or_self,
    Bool.false_eq_true, if_false]; rfl, by simp only [headerParams, hd]; simp only [ne_eq, not_true_eq_false, if_false]; rfl, ?_⟩
  have h0 : E.list (globalVariables eqs).2 = [] := enum_empty E rfl
  rw [h0]
  have hdat : List.Forall₂ Matches
      ((E.list (insSet eqs)).map (Arg.dat · .read) ++ (E.list (outsSet eqs)).map (Arg.dat · .write) ++
        (E.list (inoutsSet eqs)).map (Arg.dat · .rw))
      ((E.list (insSet eqs)).map (Param.dat · true) ++ (E.list (outsSet eqs)).map (Param.dat · false) ++
        (E.list (inoutsSet eqs)).map (Param.dat · false)) :=
    List.rel_append (List.rel_append (match_dats _ _ _ (by simp)) (match_dats _ _ _ (by simp))) (match_dats _ _ _ (by simp))
  constructor
  · intro h
    by_contra hcon
    push Not at hcon
    obtain ⟨c, cs, hc⟩ := List.exists_cons_of_ne_nil (enum_ne_nil EI hcon.1.ne_empty)
    obtain ⟨g, gs, hg⟩ := List.exists_cons_of_ne_nil (enum_ne_nil E hcon.2.ne_empty)
    have hl := hdat.length_eq
    revert h hl
    generalize (E.list (insSet eqs)).map (Arg.dat · .read) ++ (E.list (outsSet eqs)).map (Arg.dat · .write) ++
        (E.list (inoutsSet eqs)).map (Arg.dat · .rw) = A
    generalize (E.list (insSet eqs)).map (Param.dat · true) ++ (E.list (outsSet eqs)).map (Param.dat · false) ++
        (E.list (inoutsSet eqs)).map (Param.dat · false) = B
    intro h hl
    simp only [hc, hg, List.map_cons, List.map_nil, List.append_nil, List.append_assoc, List.cons_append] at h
    cases forall₂_cancel hl h with
    | cons h _ => exact h
  · rintro (h | h)
    · rw [enum_empty EI h]
      simp only [List.map_nil, List.append_nil]
      exact List.rel_append (List.rel_append hdat (match_globs _ _ _ (by simp))) (match_idx _)
    · rw [enum_empty E h]
      simp only [List.map_nil, List.append_nil]
      exact List.rel_append (List.rel_append hdat (match_iconsts _)) (match_idx _)

/-- A kernel with an indexed constant (a Runge-Kutta coefficient) and a global variable: `q[0] = rk[stage] * time`. -/
def mixedKernel : List (Eqn 1) := [.assign ⟨.data "q" 0, .bin "*" (.iconst "rk" (.sym "stage")) (.glob "time")⟩]

/-- C32 fails for kernels mixing the two: the kernel receives the constant in the parameter of the global and vice versa. -/
theorem C32_mixed_mismatch (E : Enum String) (EI : Enum (String × IIdx)) :
    ∃ args params, callArgs E EI mixedKernel = some args ∧ headerParams E EI mixedKernel = some params ∧
      ¬ List.Forall₂ Matches args params := by
  obtain ⟨a, p, h1, h2, h3⟩ := C32_match_iff E EI mixedKernel (by simp [mixedKernel])
  refine ⟨a, p, h1, h2, fun h => ?_⟩
  rcases h3.1 h with h | h
  · have : ("rk", IIdx.sym "stage") ∈ indexedConstants mixedKernel := by decide +kernel
    rw [h] at this; simp at this
  · have : "time" ∈ (globalVariables mixedKernel).1 := by decide +kernel
    rw [h] at this; simp at this

theorem mem_args {E : Enum String} {EI : Enum (String × IIdx)} {eqs : List (Eqn d)} {args : List Arg} (h : callArgs E EI eqs = some args) :
    args = (E.list (insSet eqs)).map (Arg.dat · .read) ++ (E.list (outsSet eqs)).map (Arg.dat · .write) ++
    (E.list (inoutsSet eqs)).map (Arg.dat · .rw) ++
    (EI.list (indexedConstants eqs)).map (fun c => Arg.iconst c.1 c.2 .read) ++
    (E.list (globalVariables eqs).1).map (Arg.glob · .read) ++ (E.list (globalVariables eqs).2).map (Arg.glob · .write) ++
    (if gridIndicesUsed eqs then [Arg.idx] else []) := by
  rw [callArgs] at h
  split at h
  · cases h
  · exact (Option.some.inj h).symm

theorem mem_params {E : Enum String} {EI : Enum (String × IIdx)} {eqs : List (Eqn d)} {ps : List Param}
    (h : headerParams E EI eqs = some ps) :
    ps = (E.list (insSet eqs)).map (Param.dat · true) ++ (E.list (outsSet eqs)).map (Param.dat · false) ++
    (E.list (inoutsSet eqs)).map (Param.dat · false) ++
    (E.list (globalVariables eqs).1).map (Param.glob · true) ++ (E.list (globalVariables eqs).2).map (Param.glob · false) ++
    (EI.list (indexedConstants eqs)).map (fun c => Param.iconst c.1 true) ++
    (if gridIndicesUsed eqs then [Param.idx] else []) := by
  rw [headerParams] at h
  split at h
  · cases h
  · exact (Option.some.inj h).symm

theorem union_classes (eqs : List (Eqn d)) (b : String) :
    b ∈ insSet eqs ∨ b ∈ outsSet eqs ∨ b ∈ inoutsSet eqs ↔ b ∈ rhsBases eqs ∨ b ∈ lhsBases eqs := by
  simp only [insSet, outsSet, inoutsSet, Finset.mem_sdiff, Finset.mem_inter]
  tauto

/-- C32: the access macro `OPS_ACCn` printed for a dataset carries the position `n` of that dataset in the call and in the definition, for
every kernel (also when constants and globals are mixed). -/
theorem C32_access_number (E : Enum String) (EI : Enum (String × IIdx)) (eqs : List (Eqn d)) (args : List Arg) (params : List Param)
    (ha : callArgs E EI eqs = some args) (hp : headerParams E EI eqs = some params) (b : String)
    (hb : b ∈ rhsBases eqs ∨ b ∈ lhsBases eqs) :
    ∃ n, accNumber E eqs b = some n ∧ (∃ a, args[n]? = some (.dat b a)) ∧ ∃ c, params[n]? = some (.dat b c) := by
  rw [mem_args ha, mem_params hp, accNumber, datasetInps]
  set D := E.list (insSet eqs) ++ E.list (outsSet eqs) ++ E.list (inoutsSet eqs) with hD
  have hm : b ∈ D := by
    simp only [hD, List.mem_append, E.mem, or_assoc]
    exact (union_classes eqs b).2 hb
  obtain ⟨n, hn⟩ : ∃ n, D.findIdx? (· = b) = some n := by
    rw [← Option.isSome_iff_exists, List.findIdx?_isSome]
    simpa using hm
  have hn' := List.findIdx?_eq_some_iff_getElem.1 hn
  obtain ⟨hlt, hnb, -⟩ := hn'
  simp only [decide_eq_true_eq] at hnb
  refine ⟨n, ?_, ?_, ?_⟩
  · rw [List.append_assoc D, List.findIdx?_append, hn]; rfl
  · have hA : ((E.list (insSet eqs)).map (Arg.dat · .read) ++ (E.list (outsSet eqs)).map (Arg.dat · .write) ++
        (E.list (inoutsSet eqs)).map (Arg.dat · .rw)).map (fun a => match a with | .dat b _ => b | _ => "") = D := by
      simp [hD, Function.comp_def]
    have hk : ∀ x ∈ (E.list (insSet eqs)).map (Arg.dat · .read) ++ (E.list (outsSet eqs)).map (Arg.dat · .write) ++
        (E.list (inoutsSet eqs)).map (Arg.dat · .rw), ∃ b a, x = .dat b a := by
      intro x hx
      simp only [List.mem_append, List.mem_map] at hx
      rcases hx with (⟨b, -, rfl⟩ | ⟨b, -, rfl⟩) | ⟨b, -, rfl⟩ <;> exact ⟨_, _, rfl⟩
    simp only [List.append_assoc _ _ (List.map (Arg.glob · .read) _), List.append_assoc _ _ (List.map (Arg.glob · .write) _)]
    revert hA hk
    generalize (E.list (insSet eqs)).map (Arg.dat · .read) ++ (E.list (outsSet eqs)).map (Arg.dat · .write) ++
        (E.list (inoutsSet eqs)).map (Arg.dat · .rw) = A
    intro hA hk
    have hlA : n < A.length := by rw [← hA, List.length_map] at hlt; exact hlt
    obtain ⟨b', a, e⟩ := hk A[n] (List.getElem_mem hlA)
    refine ⟨a, ?_⟩
    simp only [List.append_assoc]
    rw [List.getElem?_append_left hlA, List.getElem?_eq_getElem hlA, e]
    have : D[n] = b' := by simp [← hA, e]
    rw [← this, hnb]
  · have hA : ((E.list (insSet eqs)).map (Param.dat · true) ++ (E.list (outsSet eqs)).map (Param.dat · false) ++
        (E.list (inoutsSet eqs)).map (Param.dat · false)).map (fun a => match a with | .dat b _ => b | _ => "") = D := by
      simp [hD, Function.comp_def]
    have hk : ∀ x ∈ (E.list (insSet eqs)).map (Param.dat · true) ++ (E.list (outsSet eqs)).map (Param.dat · false) ++
        (E.list (inoutsSet eqs)).map (Param.dat · false), ∃ b a, x = .dat b a := by
      intro x hx
      simp only [List.mem_append, List.mem_map] at hx
      rcases hx with (⟨b, -, rfl⟩ | ⟨b, -, rfl⟩) | ⟨b, -, rfl⟩ <;> exact ⟨_, _, rfl⟩
    revert hA hk
    generalize (E.list (insSet eqs)).map (Param.dat · true) ++ (E.list (outsSet eqs)).map (Param.dat · false) ++
        (E.list (inoutsSet eqs)).map (Param.dat · false) = A
    intro hA hk
    have hlA : n < A.length := by rw [← hA, List.length_map] at hlt; exact hlt
    obtain ⟨b', a, e⟩ := hk A[n] (List.getElem_mem hlA)
    refine ⟨a, ?_⟩
    simp only [List.append_assoc]
    rw [List.getElem?_append_left hlA, List.getElem?_eq_getElem hlA, e]
    have : D[n] = b' := by simp [← hA, e]
    rw [← this, hnb]

/-- Element of an indexed constant read inside the kernel: the call passes the address of `base[i]`, the body reads the printed index from
there; `env` gives the value of loop symbols of the main program. -/
def elementRead (env : String → ℕ) : IIdx → ℕ
  | .sym s => env s + (IIdx.sym s).printed
  | .lit n => n + (IIdx.lit n).printed

/-- Element meant by the symbolic expression. -/
def elementMeant (env : String → ℕ) : IIdx → ℕ
  | .sym s => env s
  | .lit n => n

/-- C32: constants indexed by a loop symbol (the Runge-Kutta stage) are read at the right element. -/
theorem C32_indexed_by_symbol (env : String → ℕ) (s : String) : elementRead env (.sym s) = elementMeant env (.sym s) := by
  simp [elementRead, elementMeant, IIdx.printed]

/-- A literal index is applied twice: element `2n` is read instead of `n`. -/
theorem C32_literal_index_doubled (env : String → ℕ) (n : ℕ) :
    elementRead env (.lit n) = 2 * n ∧ (elementRead env (.lit n) = elementMeant env (.lit n) ↔ n = 0) := by
  simp only [elementRead, elementMeant, IIdx.printed]; omega

/-- Two elements of the same indexed constant in one kernel declare two C parameters of the same name. -/
theorem C32_duplicate_parameter (E : Enum String) (EI : Enum (String × IIdx)) (eqs : List (Eqn d)) (params : List Param)
    (hp : headerParams E EI eqs = some params) (b : String) (i j : IIdx) (hij : i ≠ j)
    (hi : (b, i) ∈ indexedConstants eqs) (hj : (b, j) ∈ indexedConstants eqs) : ¬ (params.map Param.name).Nodup := by
  rw [mem_params hp]
  intro h
  simp only [List.map_append, List.map_map] at h
  have h1 := ((List.nodup_append.1 h).1 |> List.nodup_append.1).2.1
  have h2 := List.inj_on_of_nodup_map h1 ((EI.mem _ _).2 hi) ((EI.mem _ _).2 hj) rfl
  exact hij (Prod.mk.inj h2).2

/-! ## C33 -/

/-- Some equation of the kernel reads the dataset: on a right hand side or in a condition. -/
def Reads (eqs : List (Eqn d)) (b : String) : Prop :=
  ∃ e ∈ eqs, match e with
    | .assign a => ∃ o, (b, o) ∈ a.rhs.accesses
    | .piecewise bs => ∃ x ∈ bs, (∃ a ∈ x.1, ∃ o, (b, o) ∈ a.rhs.accesses) ∨ ∃ o, (b, o) ∈ x.2.accesses

/-- Some equation of the kernel assigns the dataset. -/
def Writes (eqs : List (Eqn d)) (b : String) : Prop :=
  ∃ e ∈ eqs, match e with
    | .assign a => ∃ o, a.lhs = .data b o
    | .piecewise bs => ∃ x ∈ bs, ∃ a ∈ x.1, ∃ o, a.lhs = .data b o

theorem mem_rhsBases {eqs : List (Eqn d)} {b : String} : b ∈ rhsBases eqs ↔ Reads eqs b := by
  rw [rhsBases, mem_unionAll, Reads]
  apply exists_congr
  intro e
  apply and_congr_right
  intro _
  cases e with
  | assign a => exact mem_bases
  | piecewise bs => simp [Eqn.rhsBases, mem_unionAll, mem_bases, mem_cbases]

theorem mem_lhsBases {eqs : List (Eqn d)} {b : String} : b ∈ lhsBases eqs ↔ Writes eqs b := by
  rw [lhsBases, mem_unionAll, Writes]
  apply exists_congr
  intro e
  apply and_congr_right
  intro _
  cases e with
  | assign a => exact mem_lbases
  | piecewise bs => simp [Eqn.lhsBases, mem_unionAll, mem_lbases]

/-- C33: a dataset is passed exactly once if the kernel uses it, read-only exactly when it is only read, write-only exactly when it is only
written, read-write exactly when both; unused datasets are not passed. -/
theorem C33_modes (E : Enum String) (EI : Enum (String × IIdx)) (eqs : List (Eqn d)) (args : List Arg) (ha : callArgs E EI eqs = some args)
    (b : String) :
    (Arg.dat b .read ∈ args ↔ Reads eqs b ∧ ¬ Writes eqs b) ∧ (Arg.dat b .write ∈ args ↔ Writes eqs b ∧ ¬ Reads eqs b) ∧
    (Arg.dat b .rw ∈ args ↔ Reads eqs b ∧ Writes eqs b) ∧
    ∀ a, args.count (Arg.dat b a) ≤ 1 := by
  rw [mem_args ha]
  simp only [← mem_rhsBases, ← mem_lhsBases]
  refine ⟨?_, ?_, ?_, ?_⟩
  · cases gridIndicesUsed eqs <;> simp [E.mem, insSet]
  · cases gridIndicesUsed eqs <;> simp [E.mem, outsSet]
  · cases gridIndicesUsed eqs <;> simp [E.mem, inoutsSet]
  · intro a
    have hinj : ∀ a, Function.Injective (Arg.dat · a) := fun a x y h => by simpa using h
    have h0 : ∀ (l : List String) a', a' ≠ a → (l.map (Arg.dat · a')).count (Arg.dat b a) = 0 := by
      intro l a' h
      rw [List.count_eq_zero]
      simp only [List.mem_map, Arg.dat.injEq, not_exists, not_and]
      exact fun _ _ _ h' => h h'
    have h1 : ∀ (s : Finset String) a', ((E.list s).map (Arg.dat · a')).count (Arg.dat b a) ≤ 1 := fun s a' =>
      List.nodup_iff_count_le_one.1 ((E.nodup s).map (hinj a')) _
    have h2 : ∀ (l : List String) a', (l.map (Arg.glob · a')).count (Arg.dat b a) = 0 := by
      intro l a'; rw [List.count_eq_zero]; simp
    have h3 : ((EI.list (indexedConstants eqs)).map (fun c => Arg.iconst c.1 c.2 .read)).count (Arg.dat b a) = 0 := by
      rw [List.count_eq_zero]; simp
    have h4 : (if gridIndicesUsed eqs then [Arg.idx] else []).count (Arg.dat b a) = 0 := by
      rw [List.count_eq_zero]; split <;> simp
    simp only [List.count_append, h2, h3, h4, add_zero]
    cases a
    · rw [h0 _ .write (by simp), h0 _ .rw (by simp)]; simpa using h1 _ _
    · rw [h0 _ .read (by simp), h0 _ .rw (by simp)]; simpa using h1 _ _
    · rw [h0 _ .read (by simp), h0 _ .write (by simp)]; simpa using h1 _ _

/-- C33, meaning of read-only: whatever the arithmetic, the points and their order, a dataset passed read-only, or not passed, is unchanged. -/
theorem C33_read_only_unchanged (E : Enum String) (EI : Enum (String × IIdx)) (eqs : List (Eqn d)) (args : List Arg)
    (ha : callArgs E EI eqs = some args) (b : String) (h : Arg.dat b .write ∉ args) (h' : Arg.dat b .rw ∉ args)
    (I : Interp V) (pts : List (Fin d → ℤ)) (st : Store d V) : (execLoop I eqs pts st).data b = st.data b := by
  obtain ⟨-, hw, hrw, -⟩ := C33_modes E EI eqs args ha b
  have hn : ¬ Writes eqs b := fun hW => by
    by_cases hR : Reads eqs b
    · exact h' (hrw.2 ⟨hR, hW⟩)
    · exact h (hw.2 ⟨hW, hR⟩)
  funext x
  apply loop_frame
  intro p _ e he o ho
  exact absurd (mem_lhsBases.1 ((mem_unionAll _ _ _).2 ⟨e, he, mem_mayWrite_bases.2 ⟨o, ho⟩⟩)) hn

/-- C33, meaning of write-only: the contents of a dataset passed write-only, or not passed, influence nothing else; and at the points
assigned unconditionally the result does not depend on them either. -/
theorem C33_write_only_not_read (E : Enum String) (EI : Enum (String × IIdx)) (eqs : List (Eqn d)) (args : List Arg)
    (ha : callArgs E EI eqs = some args) (b : String) (h : Arg.dat b .read ∉ args) (h' : Arg.dat b .rw ∉ args)
    (I : Interp V) (pts : List (Fin d → ℤ)) (st : Store d V) (f : (Fin d → ℤ) → V) :
    let st' := { st with data := Function.update st.data b f }
    (∀ b', b' ≠ b → (execLoop I eqs pts st').data b' = (execLoop I eqs pts st).data b') ∧
    (execLoop I eqs pts st').glob = (execLoop I eqs pts st).glob ∧
    (∀ p ∈ pts, ∀ o r, Eqn.assign ⟨.data b o, r⟩ ∈ eqs →
      (execLoop I eqs pts st').data b (p + o) = (execLoop I eqs pts st).data b (p + o)) := by
  obtain ⟨hr, -, hrw, -⟩ := C33_modes E EI eqs args ha b
  have hn : b ∉ rhsBases eqs := fun hR => by
    rw [mem_rhsBases] at hR
    by_cases hW : Writes eqs b
    · exact h' (hrw.2 ⟨hR, hW⟩)
    · exact h (hr.2 ⟨hR, hW⟩)
  intro st'
  have h0 : SRel b ∅ st' st := SRel.iff.2 ⟨rfl, rfl, rfl, fun b' hb' => by simp [st', hb'], by simp⟩
  obtain ⟨-, -, h3, h4, h5⟩ := SRel.iff.1 (h0.loop I eqs hn pts)
  refine ⟨h4, h3, fun p hp o r hmem => h5 _ (Or.inr ⟨p, hp, _, hmem, o, ?_, rfl⟩)⟩
  simp [Eqn.surelyWrites]

/-- `if (x[0] < y[0]) q[0] = x[0]`: a conditional assignment. -/
def conditionalKernel : List (Eqn 1) :=
  [.piecewise [([⟨.data "q" 0, .data "x" 0⟩], .rel "<" (.data "x" 0) (.data "y" 0))]]

/-- A dataset assigned only in some branches is passed write-only although its old contents survive: the restriction to unconditional
assignments in `C33_write_only_not_read` is needed. -/
theorem C33_conditional_write_keeps_old (E : Enum String) (EI : Enum (String × IIdx)) :
    ∃ args, callArgs E EI conditionalKernel = some args ∧ Arg.dat "q" .write ∈ args ∧
      ∃ (I : Interp ℚ) (st : Store 1 ℚ), ∀ v, (execLoop I conditionalKernel [0]
        { st with data := Function.update st.data "q" fun _ => v }).data "q" 0 = v := by
  obtain ⟨args, -, h, -, -⟩ := C32_match_iff E EI conditionalKernel (by simp [conditionalKernel])
  refine ⟨args, h, ?_, ⟨fun q => q, fun _ x => x, fun _ x _ => x, fun _ x y => x < y, fun x => x⟩,
    ⟨fun _ _ => 1, fun _ => 0, fun _ _ => 0, fun _ => 0⟩, ?_⟩
  · obtain ⟨-, hw, -, -⟩ := C33_modes E EI _ args h "q"
    refine hw.2 ⟨mem_lhsBases.1 (by decide +kernel), fun hR => ?_⟩
    exact absurd (mem_rhsBases.2 hR) (by decide +kernel)
  · intro v
    simp [execLoop, execPoint, conditionalKernel, Eqn.exec, execBranches, Cond.eval, Expr.eval]

/-- Global variables are always passed read-only and `const`, also when the kernel assigns them. -/
theorem C33_global_output_read_only (E : Enum String) (EI : Enum (String × IIdx)) (eqs : List (Eqn d)) (args : List Arg)
    (params : List Param) (ha : callArgs E EI eqs = some args) (hp : headerParams E EI eqs = some params) (g : String) (r : Expr d)
    (hg : Eqn.assign ⟨.glob g, r⟩ ∈ eqs) :
    Arg.glob g .read ∈ args ∧ Arg.glob g .write ∉ args ∧ Param.glob g true ∈ params := by
  have hm : g ∈ (globalVariables eqs).1 := by
    rw [globalVariables]
    exact (mem_unionAll _ _ _).2 ⟨_, hg, by simp [Eqn.globs, Lhs.globs]⟩
  have h0 : E.list (globalVariables eqs).2 = [] := enum_empty E rfl
  rw [mem_args ha, mem_params hp, h0]
  refine ⟨?_, ?_, ?_⟩
  · simp [E.mem, hm]
  · cases gridIndicesUsed eqs <;> simp
  · simp [E.mem, hm]

/-- A Runge-Kutta update kernel used as an example: `q[0] = rk[stage]*R[0] + old[0]; R[0] = 0`. -/
def updateKernel : List (Eqn 2) :=
  [.assign ⟨.data "q" 0, .bin "+" (.bin "*" (.iconst "rk" (.sym "stage")) (.data "R" 0)) (.data "old" 0)⟩,
   .assign ⟨.data "R" 0, .num 0⟩]

/-- The hypotheses of the theorems are met: `q` is write-only, `R` is read-write, `old` is read-only. -/
example (E : Enum String) (EI : Enum (String × IIdx)) : ∃ args, callArgs E EI updateKernel = some args ∧
    Arg.dat "q" .write ∈ args ∧ Arg.dat "R" .rw ∈ args ∧ Arg.dat "old" .read ∈ args := by
  obtain ⟨args, -, h, -, -⟩ := C32_match_iff E EI updateKernel (by simp [updateKernel])
  refine ⟨args, h, ?_, ?_, ?_⟩ <;> rw [mem_args h] <;> simp only [List.mem_append, List.mem_map, E.mem]
  · exact Or.inl (Or.inl (Or.inl (Or.inl (Or.inl (Or.inr ⟨"q", by decide +kernel, rfl⟩)))))
  · exact Or.inl (Or.inl (Or.inl (Or.inl (Or.inr ⟨"R", by decide +kernel, rfl⟩))))
  · exact Or.inl (Or.inl (Or.inl (Or.inl (Or.inl (Or.inl ⟨"old", by decide +kernel, rfl⟩)))))

/-- An enumeration of sets exists. -/
noncomputable example : Enum String := ⟨Finset.toList, fun _ _ => Finset.mem_toList, Finset.nodup_toList⟩

end OpenSBLI.Ker
