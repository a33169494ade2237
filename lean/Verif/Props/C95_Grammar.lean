import Verif.Spec.Grammar

/-!
# C95: the parser decides the grammar
-/
namespace OpenSBLI.Source

theorem Says.mono {k k' : ℕ} {e : Syn} {ts : List Tok} (h : Says (.expr k e) ts) (hk : k' ≤ k) : Says (.expr k' e) ts := by
  cases h with
  | num q => exact .num q
  | name s => exact .name s
  | kw s => exact .kw s
  | paren h => exact .paren h
  | neg h1 h => exact .neg (hk.trans h1) h
  | bin h1 h h' => exact .bin (hk.trans h1) h h'
  | call h => exact .call h

/-! ## Every derivation is found -/

/-- The waiting operator comes after operators of level `k`. -/
def Holds (k : ℕ) (s : List Frame) : Prop := ∀ f ∈ s.head?, ∀ o : Bin, k ≤ o.prec → f.yields o = false

/-- Waiting operators of level `k` come before what follows. -/
def Closes (k : ℕ) (ts : List Tok) : Prop := ∀ o us, ts = .op o :: us → ∀ f : Frame, ∀ p ∈ f.prec, k ≤ p → f.yields o = true

theorem parse_frame {f : Frame} {p : ℕ} (hp : f.prec = some p) (s : List Frame) (e : Syn) (ts : List Tok) (h : ∀ o us, ts = .op o :: us → f.yields o = true) :
    parse (f :: s) (some e) ts = parse s (some (f.apply e)) ts := by
  have hs : f.prec.isSome = true := by rw [hp]; rfl
  cases ts with
  | nil => simp only [parse, reduceAll, if_pos hs]
  | cons t ts =>
    cases t with
    | op o => simp only [parse, reduceOn, if_pos (h o ts rfl)]
    | comma => simp only [parse, reduceAll, if_pos hs]
    | rpar => simp only [parse, reduceAll, if_pos hs]
    | _ => simp only [parse]

theorem parse_op {k : ℕ} {o : Bin} (hk : k ≤ o.prec) {s : List Frame} (hs : Holds k s) (e : Syn) (ts : List Tok) : parse s (some e) (.op o :: ts) = parse (.bin o e :: s) none ts := by
  have : reduceOn o s e = (s, e) := by
    cases s with
    | nil => rfl
    | cons f s => simp only [reduceOn, hs f rfl o hk, Bool.false_eq_true, if_false]
  simp only [parse, this]

theorem says_parse {i : Item} {ts : List Tok} (h : Says i ts) :
    match i with
    | .expr k e => ∀ s rest, Holds k s → Closes k rest → parse s none (ts ++ rest) = parse s (some e) rest
    | .args es => ∃ init last, es = init ++ [last] ∧ ∀ f s rest, (∀ o us, rest ≠ .op o :: us) → parse (.call f [] :: s) none (ts ++ rest) = parse (.call f init.reverse :: s) (some last) rest := by
  induction h with
  | num q => intro s rest _ _; rfl
  | name n => intro s rest _ _; rfl
  | kw n => intro s rest _ _; rfl
  | @paren k e ts _ ih =>
    intro s rest _ _
    have h := ih (.paren :: s) (.rpar :: rest) (fun f hf o _ => by cases hf; rfl) (fun o us h => by cases h)
    simp only [List.cons_append, List.append_assoc, List.nil_append, parse]
    rw [h]
    simp only [parse, reduceAll, Frame.prec, Option.isSome_none, Bool.false_eq_true, if_false]
  | @neg k a ts hk _ ih =>
    intro s rest _ hr
    have h := ih (.neg :: s) rest (fun f hf o ho => by cases hf; cases o <;> simp_all [Bin.prec, Frame.yields, Frame.prec]) (fun o us he f p hp h => hr o us he f p hp (hk.trans h))
    simp only [List.cons_append, parse]
    rw [h]
    exact parse_frame rfl s a rest fun o us he => hr o us he .neg 3 rfl hk
  | @bin k o a b ts us hk _ _ iha ihb =>
    intro s rest hs hr
    have hl : k ≤ o.prec := hk.trans (by cases o <;> decide)
    have h1 := iha s (.op o :: us ++ rest) (fun f hf o' ho' => hs f hf o' (hk.trans ((show o.level ≤ o.left by cases o <;> decide).trans ho'))) (fun o' us' he f p hp h => by
      have he' : o = o' := by injection he with h1 h2; injection h1
      subst he'
      cases f with
      | paren => cases hp
      | call => cases hp
      | neg => cases hp; cases o <;> simp_all [Bin.prec, Bin.left, Frame.yields, Frame.prec]
      | bin o2 a2 => cases hp; cases o <;> cases o2 <;> simp_all [Bin.prec, Bin.left, Frame.yields, Frame.prec])
    have h2 := ihb (.bin o a :: s) rest (fun f hf o' ho' => by cases hf; cases o <;> cases o' <;> simp_all [Bin.prec, Bin.right, Frame.yields, Frame.prec])
      (fun o' us' he f p hp h => hr o' us' he f p hp ((hk.trans (show o.level ≤ o.right by cases o <;> decide)).trans h))
    rw [List.append_assoc, h1]
    rw [List.cons_append, parse_op hl hs, h2]
    exact parse_frame rfl s b rest fun o' us' he => hr o' us' he (.bin o a) o.prec rfl hl
  | @call k f es ts _ ih =>
    intro s rest _ _
    obtain ⟨init, last, rfl, h⟩ := ih
    have h' := h f s (.rpar :: rest) (fun o us he => by cases he)
    simp only [List.cons_append, List.append_assoc, List.nil_append, parse]
    rw [h']
    simp only [parse, reduceAll, Frame.prec, Option.isSome_none, Bool.false_eq_true, if_false, List.reverse_cons, List.reverse_reverse]
  | @one e ts _ ih =>
    exact ⟨[], e, rfl, fun f s rest hr => ih (.call f [] :: s) rest (fun g hg o _ => by cases hg; rfl) fun o us he => absurd he (hr o us)⟩
  | @more es e us ts _ _ ih ih' =>
    obtain ⟨init, last, rfl, h⟩ := ih
    refine ⟨init ++ [last], e, rfl, fun f s rest hr => ?_⟩
    have h1 := h f s (.comma :: ts ++ rest) (fun o us he => by cases he)
    rw [List.append_assoc, h1]
    simp only [List.cons_append, parse, reduceAll, Frame.prec, Option.isSome_none, Bool.false_eq_true, if_false]
    rw [ih' (.call f (last :: init.reverse) :: s) rest (fun g hg o _ => by cases hg; rfl) fun o us he => absurd he (hr o us)]
    simp

/-! ## Everything found is derived -/

/-- The level at which an operand is expected. -/
def need : List Frame → ℕ
  | .bin o _ :: _ => o.right
  | .neg :: _ => 3
  | _ => 1

/-- The tokens from which the waiting operators were read. -/
inductive Built : List Frame → List Tok → Prop
  | nil : Built [] []
  | paren {s us} : Built s us → Built (.paren :: s) (us ++ [.lpar])
  | neg {s us} : Built s us → Built (.neg :: s) (us ++ [.op .sub])
  | bin {s us o a ts} : Built s us → Says (.expr o.left a) ts → need s ≤ o.level → Built (.bin o a :: s) (us ++ ts ++ [.op o])
  | first {s us f} : Built s us → Built (.call f [] :: s) (us ++ [.call f])
  | further {s us f es ts} : Built s us → Says (.args es) ts → Built (.call f es.reverse :: s) (us ++ .call f :: ts ++ [.comma])

theorem need_le (s : List Frame) : need s ≤ 3 := by
  cases s with
  | nil => decide
  | cons f s =>
    cases f with
    | bin o a => cases o <;> simp [need, Bin.right]
    | _ => simp [need]

theorem apply_built {f : Frame} {p : ℕ} (hp : f.prec = some p) {s : List Frame} {us ts : List Tok} {k : ℕ} {e : Syn} (h : Built (f :: s) us) (he : Says (.expr k e) ts) (hk : need (f :: s) ≤ k) :
    ∃ k' us' ts', us ++ ts = us' ++ ts' ∧ Built s us' ∧ Says (.expr k' (f.apply e)) ts' ∧ need s ≤ k' ∧ ∀ o, f.yields o = true → o.left ≤ k' := by
  cases h with
  | paren => cases hp
  | first => cases hp
  | further => cases hp
  | @neg _ us h => clear hp; exact ⟨3, us, .op .sub :: ts, by simp, h, .neg le_rfl (he.mono hk), need_le s, fun o ho => by cases o <;> simp_all [Frame.yields, Frame.prec, Bin.prec, Bin.left]⟩
  | @bin _ us o a as h ha hn =>
    refine ⟨o.level, us, as ++ .op o :: ts, by simp, h, .bin le_rfl ha (he.mono hk), hn, fun o' ho => ?_⟩
    clear hp ha hn hk
    cases o <;> cases o' <;> simp_all [Frame.yields, Frame.prec, Bin.prec, Bin.left, Bin.level]

theorem reduceOn_built (o : Bin) {s : List Frame} {us ts : List Tok} {k : ℕ} {e : Syn} (h : Built s us) (he : Says (.expr k e) ts) (hk : need s ≤ k) (ho : o.left ≤ k) :
    ∃ us' ts', us ++ ts = us' ++ ts' ∧ Built (reduceOn o s e).1 us' ∧ Says (.expr o.left (reduceOn o s e).2) ts' ∧ need (reduceOn o s e).1 ≤ o.level := by
  induction s generalizing us ts k e with
  | nil => exact ⟨us, ts, rfl, h, he.mono ho, by cases o <;> simp [reduceOn, need, Bin.level]⟩
  | cons f s ih =>
    by_cases hy : f.yields o = true
    · simp only [reduceOn, if_pos hy]
      obtain ⟨p, hp⟩ : ∃ p, f.prec = some p := by
        cases hf : f.prec with
        | none => simp [Frame.yields, hf] at hy
        | some p => exact ⟨p, rfl⟩
      obtain ⟨k', us', ts', e1, e2, e3, e4, e5⟩ := apply_built hp h he hk
      obtain ⟨us2, ts2, f1, f2, f3, f4⟩ := ih e2 e3 e4 (e5 o hy)
      exact ⟨us2, ts2, e1.trans f1, f2, f3, f4⟩
    · simp only [reduceOn, if_neg hy]
      refine ⟨us, ts, rfl, h, he.mono ho, ?_⟩
      clear h he hk ho ih
      cases f with
      | paren => cases o <;> simp [need, Bin.level]
      | call => cases o <;> simp [need, Bin.level]
      | neg => cases o <;> simp_all [need, Bin.level, Frame.yields, Frame.prec, Bin.prec]
      | bin o' a => cases o <;> cases o' <;> simp_all [need, Bin.level, Bin.right, Frame.yields, Frame.prec, Bin.prec]

theorem reduceAll_built {s : List Frame} {us ts : List Tok} {k : ℕ} {e : Syn} (h : Built s us) (he : Says (.expr k e) ts) (hk : need s ≤ k) :
    ∃ us' ts', us ++ ts = us' ++ ts' ∧ Built (reduceAll s e).1 us' ∧ Says (.expr 1 (reduceAll s e).2) ts' := by
  induction s generalizing us ts k e with
  | nil => exact ⟨us, ts, rfl, h, he.mono hk⟩
  | cons f s ih =>
    by_cases hy : f.prec.isSome = true
    · simp only [reduceAll, if_pos hy]
      obtain ⟨p, hp⟩ := Option.isSome_iff_exists.1 hy
      obtain ⟨k', us', ts', e1, e2, e3, e4, _⟩ := apply_built hp h he hk
      obtain ⟨us2, ts2, f1, f2, f3⟩ := ih e2 e3 e4
      exact ⟨us2, ts2, e1.trans f1, f2, f3⟩
    · simp only [reduceAll, if_neg hy]
      refine ⟨us, ts, rfl, h, he.mono ?_⟩
      refine le_trans ?_ hk
      cases f with
      | bin o a => cases o <;> simp [need, Bin.right]
      | _ => simp [need]

theorem parse_says (ts : List Tok) : ∀ (s : List Frame) (us : List Tok) (e : Syn), Built s us →
    (parse s none ts = some e → Says (.expr 1 e) (us ++ ts)) ∧ ∀ c cs, Says (.expr 5 c) cs → parse s (some c) ts = some e → Says (.expr 1 e) (us ++ cs ++ ts) := by
  induction ts with
  | nil =>
    intro s us e h
    refine ⟨fun hp => by simp [parse] at hp, fun c cs hc hp => ?_⟩
    obtain ⟨us', ts', e1, e2, e3⟩ := reduceAll_built h hc ((need_le s).trans (by decide))
    simp only [parse] at hp
    rcases hr : reduceAll s c with ⟨s', c'⟩
    rw [hr] at hp e2 e3
    cases s' with
    | cons => simp at hp
    | nil =>
      simp only [Option.some.injEq] at hp
      subst hp
      cases e2
      simpa [e1] using e3
  | cons t ts ih =>
    intro s us e h
    refine ⟨fun hp => ?_, fun c cs hc hp => ?_⟩
    · cases t with
      | num q =>
        have := (ih s us e h).2 _ _ (Says.num q) hp
        simpa using this
      | name n =>
        have := (ih s us e h).2 _ _ (Says.name n) hp
        simpa using this
      | kw n =>
        have := (ih s us e h).2 _ _ (Says.kw n) hp
        simpa using this
      | call f =>
        have := (ih _ _ e (Built.first (f := f) h)).1 hp
        simpa using this
      | lpar =>
        have := (ih _ _ e (Built.paren h)).1 hp
        simpa using this
      | op o =>
        cases o with
        | sub =>
          have := (ih _ _ e (Built.neg h)).1 hp
          simpa using this
        | _ => simp [parse] at hp
      | rpar => simp [parse] at hp
      | comma => simp [parse] at hp
    · cases t with
      | op o =>
        obtain ⟨us', ts', e1, e2, e3, e4⟩ := reduceOn_built o h hc ((need_le s).trans (by decide)) (by cases o <;> decide)
        simp only [parse] at hp
        have := (ih _ _ e (Built.bin e2 e3 e4)).1 hp
        rw [← e1] at this
        simpa using this
      | comma =>
        obtain ⟨us', ts', e1, e2, e3⟩ := reduceAll_built h hc ((need_le s).trans (by decide))
        simp only [parse] at hp
        rcases hr : reduceAll s c with ⟨s', c'⟩
        rw [hr] at hp e2 e3
        cases s' with
        | nil => simp at hp
        | cons f s' =>
          cases f with
          | call f args =>
            cases e2 with
            | @first _ us0 _ h0 =>
              have := (ih _ _ e (Built.further (f := f) h0 (Says.one e3))).1 hp
              rw [e1]
              simpa using this
            | @further _ us0 _ es as h0 ha =>
              have hb := Built.further (f := f) h0 (Says.more ha e3)
              rw [List.reverse_append] at hb
              have := (ih _ _ e hb).1 hp
              rw [e1]
              simpa using this
          | _ => simp at hp
      | rpar =>
        obtain ⟨us', ts', e1, e2, e3⟩ := reduceAll_built h hc ((need_le s).trans (by decide))
        simp only [parse] at hp
        rcases hr : reduceAll s c with ⟨s', c'⟩
        rw [hr] at hp e2 e3
        cases s' with
        | nil => simp at hp
        | cons f s' =>
          cases f with
          | call f args =>
            cases e2 with
            | @first _ us0 _ h0 =>
              have := (ih _ _ e h0).2 _ _ (Says.call (f := f) (Says.one e3)) hp
              rw [e1]
              simpa using this
            | @further _ us0 _ es as h0 ha =>
              have hs := Says.call (k := 5) (f := f) (Says.more ha e3)
              have := (ih _ _ e h0).2 _ _ hs (by simpa using hp)
              rw [e1]
              simpa using this
          | paren =>
            cases e2 with
            | @paren _ us0 h0 =>
              have := (ih _ _ e h0).2 _ _ (Says.paren e3) hp
              rw [e1]
              simpa using this
          | _ => simp at hp
      | _ => simp [parse] at hp

/-- C95: the parser finds exactly what the rules of the grammar derive. -/
theorem C95_grammar (ts : List Tok) (e : Syn) : parse [] none ts = some e ↔ Says (.expr 1 e) ts := by
  constructor
  · intro h
    have := (parse_says ts [] [] e .nil).1 h
    simpa using this
  · intro h
    have := says_parse h [] [] (fun f hf => by simp at hf) (fun o us h => by cases h)
    rw [List.append_nil] at this
    rw [this]
    rfl

/-- C95: no text has two meanings. -/
theorem C95_unambiguous {ts : List Tok} {e e' : Syn} (h : Says (.expr 1 e) ts) (h' : Says (.expr 1 e') ts) : e = e' := by
  have h1 := (C95_grammar ts e).2 h
  rw [(C95_grammar ts e').2 h'] at h1
  exact (Option.some.inj h1).symm

/-! ## Tokens -/

theorem lex_next {st : Lex} {c : Char} (h : (∃ s, st = .name s ∨ st = .num s ∨ st = .brace s) ∨ st = .star ∨ c ≠ '*') (cs : List Char) :
    lex st (c :: cs) = (next st c).bind fun p => (lex p.1 cs).bind fun ts => some (p.2 ++ ts) := by
  rw [lex]
  · rfl
  · rintro cs' rfl rfl
    simp at h

theorem lex_name {w : List Char} (hw : ∀ x ∈ w, (x.isAlphanum || x = '_') = true) (s rest : List Char) : lex (.name s) (w ++ rest) = lex (.name (w.reverse ++ s)) rest := by
  induction w generalizing s with
  | nil => rfl
  | cons c w ih =>
    have hc := hw c (by simp)
    rw [List.cons_append, lex_next (.inl ⟨s, .inl rfl⟩)]
    simp only [next, hc, if_true, Option.bind_some, List.nil_append]
    rw [ih (fun x hx => hw x (by simp [hx]))]
    rw [List.reverse_cons, List.append_assoc, List.singleton_append]
    cases lex (.name (w.reverse ++ c :: s)) rest <;> rfl

theorem lex_num {w : List Char} (hw : ∀ x ∈ w, (x.isDigit || x = '.') = true) (s rest : List Char) : lex (.num s) (w ++ rest) = lex (.num (w.reverse ++ s)) rest := by
  induction w generalizing s with
  | nil => rfl
  | cons c w ih =>
    have hc := hw c (by simp)
    rw [List.cons_append, lex_next (.inl ⟨s, .inr (.inl rfl)⟩)]
    simp only [next, hc, if_true, Option.bind_some, List.nil_append]
    rw [ih (fun x hx => hw x (by simp [hx]))]
    rw [List.reverse_cons, List.append_assoc, List.singleton_append]
    cases lex (.num (w.reverse ++ c :: s)) rest <;> rfl

theorem lex_brace {w : List Char} (hw : '}' ∉ w) (s rest : List Char) : lex (.brace s) (w ++ rest) = lex (.brace (w.reverse ++ s)) rest := by
  induction w generalizing s with
  | nil => rfl
  | cons c w ih =>
    have hc : c ≠ '}' := fun h => hw (by simp [h])
    rw [List.cons_append, lex_next (.inl ⟨s, .inr (.inr rfl)⟩)]
    simp only [next, hc, if_false, Option.bind_some, List.nil_append]
    rw [ih (fun hx => hw (by simp [hx]))]
    rw [List.reverse_cons, List.append_assoc, List.singleton_append]
    cases lex (.brace (w.reverse ++ c :: s)) rest <;> rfl

theorem bind_id {α : Type} (o : Option (List α)) : (o.bind fun ts => some ([] ++ ts)) = o := by cases o <;> rfl

theorem between_alpha {c : Char} (hc : (c.isAlpha || c = '_') = true) : between c = some (.name [c], []) ∧ c ≠ '*' := by
  refine ⟨?_, by rintro rfl; simp_all [Char.isAlpha, Char.isUpper, Char.isLower]⟩
  have : c ≠ ' ' := by rintro rfl; simp_all [Char.isAlpha, Char.isUpper, Char.isLower]
  simp only [between, if_neg this, hc, if_true]

theorem between_digit {c : Char} (hc : c.isDigit = true) : between c = some (.num [c], []) ∧ c ≠ '*' := by
  refine ⟨?_, by rintro rfl; simp [Char.isDigit] at hc⟩
  have h1 : c ≠ ' ' := by rintro rfl; simp [Char.isDigit] at hc
  have h2 : (c.isAlpha || decide (c = '_')) = false := by
    rw [Bool.or_eq_false_iff]
    refine ⟨?_, decide_eq_false (by rintro rfl; simp [Char.isDigit] at hc)⟩
    simp only [Char.isDigit, Bool.and_eq_true, decide_eq_true_eq] at hc
    simp only [Char.isAlpha, Char.isUpper, Char.isLower, Bool.or_eq_false_iff, Bool.and_eq_false_iff, decide_eq_false_iff_not]
    simp only [ge_iff_le, UInt32.le_iff_toNat_le] at hc ⊢
    have h0 : ('0' : Char).val.toNat = 48 := rfl
    have h9 : ('9' : Char).val.toNat = 57 := rfl
    have hA : ('A' : Char).val.toNat = 65 := rfl
    have ha : ('a' : Char).val.toNat = 97 := rfl
    rw [h0, h9] at hc
    rw [hA, ha]
    omega
  simp only [between, if_neg h1, h2, hc, if_true, Bool.false_eq_true, if_false]

theorem lex_token {t : Tok} {w : List Char} (h : Written t w) (rest : List Char) : lex .start (w ++ ' ' :: rest) = (lex .start rest).bind fun ts => some (t :: ts) := by
  cases h with
  | @name c s hc hs =>
    obtain ⟨h1, h2⟩ := between_alpha hc
    rw [List.cons_append, lex_next (.inr (.inr h2))]
    simp only [next, h1, Option.bind_some, bind_id]
    rw [lex_name hs, lex_next (.inl ⟨_, .inl rfl⟩)]
    simp [next, between, Char.isAlphanum, Char.isAlpha, Char.isDigit, Char.isUpper, Char.isLower]
  | @call c s hc hs =>
    obtain ⟨h1, h2⟩ := between_alpha hc
    rw [List.append_assoc, List.cons_append, lex_next (.inr (.inr h2))]
    simp only [next, h1, Option.bind_some, bind_id]
    rw [lex_name hs, List.singleton_append, lex_next (.inl ⟨_, .inl rfl⟩)]
    simp only [next, show (('('.isAlphanum || decide ('(' = '_')) = false) from rfl, Bool.false_eq_true, if_false, if_true, Option.bind_some]
    rw [lex_next (.inr (.inr (by decide)))]
    simp [next, between]
  | @num c s q hc hs hq =>
    obtain ⟨h1, h2⟩ := between_digit hc
    rw [List.cons_append, lex_next (.inr (.inr h2))]
    simp only [next, h1, Option.bind_some, bind_id]
    rw [lex_num hs, lex_next (.inl ⟨_, .inr (.inl rfl)⟩)]
    simp [next, between, Char.isDigit, hq]
  | @kw s hs =>
    have h0 : lex .start (('*' :: '*' :: '{' :: s ++ ['}']) ++ ' ' :: rest) = lex (.brace []) (s ++ '}' :: ' ' :: rest) := by
      simp only [List.cons_append, List.append_assoc, List.nil_append, lex]
    rw [h0, lex_brace hs, lex_next (.inl ⟨_, .inr (.inr rfl)⟩)]
    simp only [next, if_true, Option.bind_some]
    rw [lex_next (.inr (.inr (by decide)))]
    simp [next, between]
  | mul =>
    have h0 : lex .start (['*'] ++ ' ' :: rest) = lex .star (' ' :: rest) := by
      rw [List.singleton_append, lex]
      · simp [next, between]
      · rintro cs' _ _ h; simp at h
    rw [h0, lex_next (.inr (.inl rfl))]
    simp [next, between]
  | pow =>
    have h0 : lex .start (['*', '*'] ++ ' ' :: rest) = lex .star ('*' :: ' ' :: rest) := by
      rw [List.cons_append, lex]
      · simp [next, between]
      · rintro cs' _ _ h; simp at h
    rw [h0, lex_next (.inr (.inl rfl))]
    simp only [next, if_true, Option.bind_some]
    rw [lex_next (.inr (.inr (by decide)))]
    simp [next, between]
  | _ =>
    rw [List.singleton_append, lex_next (.inr (.inr (by decide)))]
    rw [next]
    have hb : ∀ c t, between c = some (.start, [t]) → (between c).bind (fun p => (lex p.1 (' ' :: rest)).bind fun ts => some (p.2 ++ ts)) = (lex .start rest).bind fun ts => some (t :: ts) := by
      intro c t h
      rw [h, Option.bind_some, show lex .start (' ' :: rest) = lex .start rest by rw [lex_next (.inr (.inr (by decide)))]; simp [next, between]]
      rfl
    exact hb _ _ rfl

theorem lex_spaced {ts : List Tok} {s : List Char} (h : Spaced ts s) : lex .start s = some ts := by
  induction h with
  | nil => rfl
  | space _ ih =>
    rw [lex_next (.inr (.inr (by decide)))]
    simp [next, between, ih]
  | token hw _ ih => rw [lex_token hw, ih]; rfl

/-- C95: a text that writes tokens derived by the grammar is read as the grammar says. -/
theorem C95_read {text : String} {ts : List Tok} {e : Syn} (ht : Spaced ts text.toList) (h : Says (.expr 1 e) ts) : read text = some e := by
  rw [read, lex_spaced ht]
  exact (C95_grammar ts e).2 h

end OpenSBLI.Source
