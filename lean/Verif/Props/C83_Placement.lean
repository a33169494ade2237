import Verif.Model.Placement
import Mathlib.Data.List.Forall2

/-!
# C83: equations placed on a block

Setting equations on a block turns every data object into the array of that name on this block at the current point, in every equation; the equations keep their number, order and grouping; every
constant in them is registered for declaration.
-/
namespace OpenSBLI.Place

/-! ## What is meant -/

/-- The values: of the arrays of all blocks at relative locations, of constants, of other symbols and of functions. -/
structure Env (R : Type*) where
  array : String → ℕ → List ℤ → R
  const : String → R
  sym : String → R
  fn : String → R → R → R

/-- The value of an expression for a block: a data object has the value of the array of its name on this block at the point itself. -/
def Env.value {R : Type*} (E : Env R) (b : Block) : Node → R
  | .obj n => E.array n b.number (List.replicate b.ndim 0)
  | .dset n k l => E.array n k l
  | .const c => E.const c
  | .sym s => E.sym s
  | .app f x y => E.fn f (E.value b x) (E.value b y)

/-- Two expressions are the same on a block, the second without data objects. -/
def SameOn (b : Block) (x y : Node) : Prop := y.objs = [] ∧ ∀ {R : Type} (E : Env R) (b' : Block), E.value b' y = E.value b x

/-- An item and its form on a block: sides of equations and conditions, one by one. Expressions that are no equations are kept. -/
inductive PlacedOn (b : Block) : Item → Item → Prop where
  | eq {l r l' r'} : SameOn b l l' → SameOn b r r' → PlacedOn b (.eq l r) (.eq l' r')
  | equality {l r l' r'} : SameOn b l l' → SameOn b r r' → PlacedOn b (.equality l r) (.eq l' r')
  | grouped {ps ps'} : List.Forall₂ (fun p p' => List.Forall₂ (fun e e' => SameOn b e.1 e'.1 ∧ SameOn b e.2 e'.2) p.1 p'.1 ∧ SameOn b p.2 p'.2) ps ps' → PlacedOn b (.grouped ps) (.grouped ps')
  | obj {n e} : SameOn b (.obj n) e → PlacedOn b (.obj n) (.other e)
  | other (e) : PlacedOn b (.other e) (.other e)

/-- Elements of a list of equations and their forms: an item for an item, a list of items for a list of items. -/
inductive EntryOn (b : Block) : Entry → Item ⊕ List Item → Prop where
  | item {i i'} : PlacedOn b i i' → EntryOn b (.item i) (.inl i')
  | list {is is' : List Item} : List.Forall₂ (PlacedOn b) is is' → EntryOn b (.list (is.map .item)) (.inr is')

/-- Lists of equations as used: items and lists of items. -/
def Entry.Simple : Entry → Prop
  | .item _ => True
  | .list es => ∃ is : List Item, es = is.map .item
  | .tuple _ => False

/-- A constant occurs in an equation of the list. -/
def Item.Mentions (c : String) : Item → Prop
  | .eq l r | .equality l r => c ∈ l.consts ∨ c ∈ r.consts
  | .grouped ps => ∃ p ∈ ps, c ∈ p.2.consts ∨ ∃ e ∈ p.1, c ∈ e.1.consts ∨ c ∈ e.2.consts
  | _ => False

/-! ## Lemmas -/

theorem replace_value {R : Type*} (E : Env R) (b b' : Block) (n : String) (e : Node) (h : b = b') : E.value b (e.replace n (b'.locationDataset n)) = E.value b e := by
  subst h
  induction e with
  | obj m => simp only [Node.replace]; split <;> simp_all [Env.value, Block.locationDataset]
  | app f x y ihx ihy => simp [Node.replace, Env.value, ihx, ihy]
  | _ => rfl

theorem replace_objs (b : Block) (n : String) (e : Node) : (e.replace n (b.locationDataset n)).objs = e.objs.filter (· ≠ n) := by
  induction e with
  | obj m => by_cases h : m = n <;> simp [Node.replace, h, Node.objs, Block.locationDataset]
  | app f x y ihx ihy => simp [Node.replace, Node.objs, ihx, ihy]
  | _ => simp [Node.replace, Node.objs]

theorem subs_value {R : Type*} (E : Env R) (b : Block) (ns : List String) (e : Node) : E.value b (e.subs b ns) = E.value b e := by
  induction ns generalizing e with
  | nil => rfl
  | cons n ns ih => exact (ih _).trans (replace_value E b b n e rfl)

theorem subs_objs (b : Block) (ns : List String) (e : Node) : (e.subs b ns).objs = e.objs.filter (· ∉ ns) := by
  induction ns generalizing e with
  | nil => simp [Node.subs]
  | cons n ns ih =>
    have := ih (e.replace n (b.locationDataset n))
    rw [Node.subs, List.foldl_cons]
    change (Node.subs b ns _).objs = _
    rw [this, replace_objs, List.filter_filter]
    congr 1
    funext m
    simp [not_or, Bool.and_comm]

theorem value_of_no_objs {R : Type*} (E : Env R) (b b' : Block) {e : Node} (h : e.objs = []) : E.value b e = E.value b' e := by
  induction e with
  | obj n => simp [Node.objs] at h
  | app f x y ihx ihy => simp [Node.objs] at h; simp [Env.value, ihx h.1, ihy h.2]
  | _ => rfl

theorem subs_sameOn (b : Block) (ns : List String) (e : Node) (h : ∀ n ∈ e.objs, n ∈ ns) : SameOn b e (e.subs b ns) := by
  have h0 : (e.subs b ns).objs = [] := by
    rw [subs_objs, List.filter_eq_nil_iff]
    intro n hn
    simpa using h n hn
  exact ⟨h0, fun E b' => (value_of_no_objs E b' b h0).trans (subs_value E b ns e)⟩

theorem subs_of_no_objs (b : Block) (ns : List String) {e : Node} (h : e.objs = []) : e.subs b ns = e := by
  induction ns with
  | nil => rfl
  | cons n ns ih =>
    have : e.replace n (b.locationDataset n) = e := by
      clear ih
      induction e with
      | obj m => simp [Node.objs] at h
      | app f x y ihx ihy => simp [Node.objs] at h; simp [Node.replace, ihx h.1, ihy h.2]
      | _ => rfl
    rw [Node.subs, List.foldl_cons, this]
    exact ih

theorem convert_placedOn (b : Block) (i : Item) : PlacedOn b i (i.convert b) := by
  cases i with
  | eq l r => exact .eq (subs_sameOn b _ l (by simp +contextual)) (subs_sameOn b _ r (by simp +contextual))
  | equality l r => exact .equality (subs_sameOn b _ l (by simp +contextual)) (subs_sameOn b _ r (by simp +contextual))
  | grouped ps =>
    refine .grouped ?_
    rw [List.forall₂_map_right_iff, List.forall₂_same]
    intro p hp
    refine ⟨?_, subs_sameOn b _ _ ?_⟩
    · rw [List.forall₂_map_right_iff, List.forall₂_same]
      intro e he
      refine ⟨subs_sameOn b _ _ ?_, subs_sameOn b _ _ ?_⟩ <;> intro n hn
      · exact List.mem_flatMap.2 ⟨p, hp, List.mem_append_left _ (List.mem_flatMap.2 ⟨e, he, List.mem_append_left _ hn⟩)⟩
      · exact List.mem_flatMap.2 ⟨p, hp, List.mem_append_left _ (List.mem_flatMap.2 ⟨e, he, List.mem_append_right _ hn⟩)⟩
    · intro n hn
      exact List.mem_flatMap.2 ⟨p, hp, List.mem_append_right _ hn⟩
  | obj n => exact .obj ⟨rfl, fun E b' => rfl⟩
  | other e => exact .other e

theorem flatten_list (is : List Item) : (Entry.list (is.map .item)).flatten = is := by
  rw [Entry.flatten]
  induction is with
  | nil => rfl
  | cons i is ih => simp [flattenAll, Entry.flatten, ih]

theorem mem_flattenAll (eqs : List Entry) (i : Item) : i ∈ flattenAll eqs ↔ ∃ e ∈ eqs, i ∈ e.flatten := by
  induction eqs with
  | nil => simp [flattenAll]
  | cons e es ih => simp [flattenAll, ih]

/-! ## The properties -/

/-- Equations in a list, single or in lists: the result has the same shape, and every item is replaced by its form on the block. -/
theorem C83_placed_partial (b : Block) (eqs : List Entry) (h : ∀ e ∈ eqs, e.Simple) :
    ∃ out consts, place b eqs = some (out, consts) ∧ List.Forall₂ (EntryOn b) eqs out := by
  suffices ∀ suffix, ∃ out, regroup eqs ((flattenAll eqs).map (Item.convert b) ++ suffix) = some out ∧ List.Forall₂ (EntryOn b) eqs out by
    obtain ⟨out, h1, h2⟩ := this []
    rw [List.append_nil] at h1
    exact ⟨out, _, by rw [place, h1]; rfl, h2⟩
  intro suffix
  induction eqs with
  | nil => exact ⟨[], rfl, .nil⟩
  | cons e eqs ih =>
    obtain ⟨out, h1, h2⟩ := ih fun e' he' => h e' (List.mem_cons_of_mem _ he')
    cases e with
    | item i =>
      refine ⟨.inl (i.convert b) :: out, ?_, .cons (.item (convert_placedOn b i)) h2⟩
      simp [flattenAll, Entry.flatten, regroup, h1]
    | list es =>
      obtain ⟨is, rfl⟩ := h _ List.mem_cons_self
      refine ⟨.inr (is.map (Item.convert b)) :: out, ?_, .cons (.list ?_) h2⟩
      · simp only [flattenAll, flatten_list, List.map_append, List.append_assoc, regroup, List.length_map]
        have hd : (List.map (Item.convert b) is ++ (List.map (Item.convert b) (flattenAll eqs) ++ suffix)).drop is.length
            = List.map (Item.convert b) (flattenAll eqs) ++ suffix := List.drop_left' (by simp)
        have ht : (List.map (Item.convert b) is ++ (List.map (Item.convert b) (flattenAll eqs) ++ suffix)).take is.length
            = List.map (Item.convert b) is := List.take_left' (by simp)
        rw [hd, ht, h1]; rfl
      · rw [List.forall₂_map_right_iff, List.forall₂_same]
        exact fun i _ => convert_placedOn b i
    | tuple es => exact (h _ List.mem_cons_self).elim

/-- The constants registered are those that occur in the equations. -/
theorem C83_constants_partial (b : Block) (eqs : List Entry) (out consts) (h : place b eqs = some (out, consts)) (c : String) :
    c ∈ consts ↔ ∃ e ∈ eqs, ∃ i ∈ e.flatten, i.Mentions c := by
  rw [place, Option.map_eq_some_iff] at h
  obtain ⟨_, -, h⟩ := h
  obtain rfl : _ = consts := congrArg Prod.snd h
  have : ∀ i : Item, c ∈ i.consts ↔ i.Mentions c := by
    intro i
    cases i <;> simp [Item.consts, Item.Mentions, or_comm]
  simp only [List.mem_flatMap, mem_flattenAll, this]
  exact ⟨fun ⟨i, ⟨e, he, hi⟩, hc⟩ => ⟨e, he, i, hi, hc⟩, fun ⟨e, he, i, hi, hc⟩ => ⟨i, ⟨e, he, hi⟩, hc⟩⟩

/-- Placing once more, on whichever block, changes nothing (`add_io` places the arrays of all files again whenever a file is added). -/
theorem C83_again (b b' : Block) (i : Item) : (i.convert b).convert b' = i.convert b := by
  cases i with
  | eq l r =>
    have hl := (subs_sameOn b (l.objs ++ r.objs) l (by simp +contextual)).1
    have hr := (subs_sameOn b (l.objs ++ r.objs) r (by simp +contextual)).1
    simp [Item.convert, subs_of_no_objs _ _ hl, subs_of_no_objs _ _ hr]
  | equality l r =>
    have hl := (subs_sameOn b (l.objs ++ r.objs) l (by simp +contextual)).1
    have hr := (subs_sameOn b (l.objs ++ r.objs) r (by simp +contextual)).1
    simp [Item.convert, subs_of_no_objs _ _ hl, subs_of_no_objs _ _ hr]
  | grouped ps =>
    have h := convert_placedOn b (.grouped ps)
    generalize hq : (Item.grouped ps).convert b = q at h ⊢
    cases h with
    | grouped h =>
      rename_i ps'
      simp only [Item.convert, Item.grouped.injEq]
      clear hq
      have : ∀ ns : List String, ps'.map (fun p => (p.1.map (fun e => (e.1.subs b' ns, e.2.subs b' ns)), p.2.subs b' ns)) = ps' := by
        intro ns
        induction h with
        | nil => rfl
        | cons h1 _ ih =>
          rename_i p p' _ _ _
          rw [List.map_cons, ih, subs_of_no_objs _ _ h1.2.1]
          have : p'.1.map (fun e => (e.1.subs b' ns, e.2.subs b' ns)) = p'.1 := by
            have h2 := h1.1
            generalize p.1 = A at h2
            generalize p'.1 = B at h2 ⊢
            induction h2 with
            | nil => rfl
            | cons h3 _ ih3 => rw [List.map_cons, ih3, subs_of_no_objs _ _ h3.1.1, subs_of_no_objs _ _ h3.2.1]
          rw [this]
      exact this _
  | obj n => rfl
  | other e => rfl

/-- The equations of different blocks use different arrays. -/
theorem C83_blocks (b b' : Block) (hb : b.number ≠ b'.number) (n m : String) : b.locationDataset n ≠ b'.locationDataset m := by
  simp [Block.locationDataset, hb]

/-! ## What is lost -/

/-- Lists inside lists: the cutting counts the elements of the outer list only. Equations are moved to other places, and the last ones are lost. -/
theorem C83_nested_lost (b : Block) (i j k : Item) :
    (place b [.list [.list [.item i, .item j], .item k]]).map Prod.fst = some [.inr [i.convert b, j.convert b]]
      ∧ (place b [.list [.list [.item i, .item j]], .item k]).map Prod.fst = some [.inr [i.convert b], .inl (j.convert b)] := by
  constructor <;> simp [place, flattenAll, Entry.flatten, regroup]

/-- A tuple of equations keeps only its first. -/
theorem C83_tuple_lost (b : Block) (i j : Item) : (place b [.tuple [.item i, .item j]]).map Prod.fst = some [.inl (i.convert b)] := by
  simp [place, flattenAll, Entry.flatten, regroup]

/-- An empty list inside a list shortens the flat list: with an equation behind it the code stops with an `IndexError`. -/
theorem C83_nested_empty (b : Block) (i : Item) : place b [.list [.list []], .item i] = none := by
  simp [place, flattenAll, Entry.flatten, regroup]

/-- An expression that is no equation is not placed: its data objects stay data objects, and its constants are not registered. -/
theorem C83_expression (b : Block) (e : Node) : place b [.item (.other e)] = some ([.inl (.other e)], []) := by
  simp [place, flattenAll, Entry.flatten, regroup, Item.convert, Item.consts]

/-! ## Examples -/

/-- A momentum equation and a list with the equation of state, on block 1 in two dimensions. -/
def sample : List Entry :=
  [.item (.eq (.obj "rhou0_residual") (.app "mul" (.const "Re") (.obj "p"))), .list [.item (.equality (.obj "p") (.app "mul" (.const "gama") (.obj "rhoE"))), .item (.obj "rho")]]

example : ∀ e ∈ sample, e.Simple := by
  intro e he
  simp only [sample, List.mem_cons, List.not_mem_nil, or_false] at he
  rcases he with rfl | rfl
  · trivial
  · exact ⟨[_, _], rfl⟩

example : place ⟨1, 2⟩ sample = some ([.inl (.eq (.dset "rhou0_residual" 1 [0, 0]) (.app "mul" (.const "Re") (.dset "p" 1 [0, 0]))),
    .inr [.eq (.dset "p" 1 [0, 0]) (.app "mul" (.const "gama") (.dset "rhoE" 1 [0, 0])), .other (.dset "rho" 1 [0, 0])]], ["Re", "gama"]) := by
  simp [place, sample, flattenAll, Entry.flatten, regroup, Item.convert, Item.consts, Node.subs, Node.objs, Node.replace, Node.consts, Block.locationDataset]

end OpenSBLI.Place
