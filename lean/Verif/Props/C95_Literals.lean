import Mathlib.Data.Nat.Digits.Defs
import Mathlib.Tactic.FieldSimp
import Mathlib.Tactic.Ring
import Verif.Model.Source

/-!
# C95: numbers and the schemes of derivatives as they are written
-/
namespace OpenSBLI.Source
open OpenSBLI.Parse (Expr)

/-- The character of a digit. -/
def digitChar (d : Fin 10) : Char := Char.ofNat ('0'.toNat + d)

theorem digitChar_val (d : Fin 10) : (digitChar d).toNat - '0'.toNat = d := by revert d; decide

theorem digitChar_ne (d : Fin 10) : digitChar d ≠ '.' := by revert d; decide

theorem digits_value (l : List (Fin 10)) (a : ℕ) : (l.map digitChar).foldl (fun n c => 10 * n + (c.toNat - '0'.toNat)) a = a * 10 ^ l.length + Nat.ofDigits 10 (l.map Fin.val).reverse := by
  induction l generalizing a with
  | nil => simp
  | cons d l ih =>
    simp only [List.map_cons, List.foldl_cons, ih, digitChar_val, List.reverse_cons, Nat.ofDigits_append, List.length_reverse, List.length_map, Nat.ofDigits_singleton, List.length_cons]
    ring

theorem takeWhile_digits (l : List (Fin 10)) (rest : List Char) :
    ((l.map digitChar) ++ rest).takeWhile (· ≠ '.') = l.map digitChar ++ rest.takeWhile (· ≠ '.') ∧ ((l.map digitChar) ++ rest).dropWhile (· ≠ '.') = rest.dropWhile (· ≠ '.') := by
  induction l with
  | nil => simp
  | cons d l ih => simp [digitChar_ne]

/-- C95: a text of digits is the natural number it writes. -/
theorem C95_whole_number (w : List (Fin 10)) : decimal (w.map digitChar) = some ((Nat.ofDigits 10 (w.map Fin.val).reverse : ℕ) : ℚ) := by
  have h := takeWhile_digits w []
  simp only [List.append_nil, List.takeWhile_nil, List.dropWhile_nil] at h
  unfold decimal
  dsimp only
  rw [h.1, h.2]
  simp only [digits_value, zero_mul, zero_add]

/-- C95: digits with a point are the number they are without it divided by the power of ten of the digits behind it: `1.25` is `125/100`. -/
theorem C95_decimal (w f : List (Fin 10)) : decimal (w.map digitChar ++ '.' :: f.map digitChar) = some (((Nat.ofDigits 10 ((w ++ f).map Fin.val).reverse : ℕ) : ℚ) / 10 ^ f.length) := by
  have h := takeWhile_digits w ('.' :: f.map digitChar)
  have h0 : ('.' :: f.map digitChar).takeWhile (· ≠ '.') = [] ∧ ('.' :: f.map digitChar).dropWhile (· ≠ '.') = '.' :: f.map digitChar := by simp
  rw [h0.1, h0.2, List.append_nil] at h
  have hf : '.' ∉ f.map digitChar := by
    rw [List.mem_map]
    rintro ⟨d, _, hd⟩
    exact digitChar_ne d hd
  unfold decimal
  dsimp only
  rw [h.1, h.2]
  simp only [hf, if_false, digits_value, zero_mul, zero_add, List.length_map, List.map_append, List.reverse_append, Option.some.injEq]
  rw [Nat.ofDigits_append]
  simp only [List.length_reverse, List.length_map]
  push_cast
  field_simp
  ring

example : decimal "12.075".toList = some (12075 / 1000) := by
  have := C95_decimal [1, 2] [0, 7, 5]
  rw [show "12.075".toList = [1, 2].map digitChar ++ '.' :: [0, 7, 5].map digitChar from by decide, this]
  norm_num [Nat.ofDigits]

theorem coordinates_names (N : Names) (xs : List String) (hc : ∀ x ∈ xs, ∃ v, Parse.classify N.coordinate N.time N.loc N.glob x = .coordinate v) (last : List Syn) (scheme : Option String)
    (hl : coordinates N last = some ([], scheme)) : coordinates N (xs.map Syn.name ++ last) = some (xs, scheme) := by
  induction xs with
  | nil => exact hl
  | cons x xs ih =>
    obtain ⟨v, hv⟩ := hc x (by simp)
    rw [List.map_cons, List.cons_append, coordinates.eq_3, hv]
    simp only [ih fun y hy => hc y (by simp [hy]), bind, Option.bind]

theorem coordinates_kw (N : Names) (scheme : String) (hq : '\'' ∉ scheme.toList) : coordinates N [.kw ("'scheme':'" ++ scheme ++ "'")] = some ([], some scheme) := by
  have h1 : ("'scheme':'" ++ scheme ++ "'").toList = "'scheme'".toList ++ ':' :: '\'' :: (scheme.toList ++ ['\'']) := by
    simp only [String.toList_append]
    rfl
  have hp : ':' ∉ "'scheme'".toList := by decide
  have ht : ∀ (a : List Char) (c : Char) (r : List Char), c ∉ a → (a ++ c :: r).takeWhile (· ≠ c) = a ∧ (a ++ c :: r).dropWhile (· ≠ c) = c :: r := by
    intro a c r h
    induction a with
    | nil => simp
    | cons b a ih =>
      simp only [List.mem_cons, not_or] at h
      have hb : b ≠ c := fun e => h.1 e.symm
      have := ih h.2
      simpa [List.takeWhile_cons, List.dropWhile_cons, hb] using this
  rw [coordinates.eq_2]
  have h2 := ht _ ':' ('\'' :: (scheme.toList ++ ['\''])) hp
  simp only [h1, h2.1, h2.2, if_true, (ht _ '\'' [] hq).1, String.ofList_toList]

/-- C95: a derivative with a scheme has the coordinates in the order in which they are written and the scheme behind them; without one it has the scheme for time or space. -/
theorem C95_derivative (N : Names) {f : String} (hf : f = "Der" ∨ f = "Conservative") {a : Syn} {e : Expr} (ha : meaning N a = some e) {xs : List String} (hx : xs ≠ [])
    (hc : ∀ x ∈ xs, ∃ v, Parse.classify N.coordinate N.time N.loc N.glob x = .coordinate v) :
    (∀ scheme : String, '\'' ∉ scheme.toList → scheme ∉ xs → meaning N (.call f (a :: xs.map Syn.name ++ [.kw ("'scheme':'" ++ scheme ++ "'")])) = some (.user (if f = "Der" then .der else .conservative) e (xs ++ [scheme]))) ∧
    ("Temporal" ∉ xs → "Central" ∉ xs →
      meaning N (.call f (a :: xs.map Syn.name)) = some (.user (if f = "Der" then .der else .conservative) e (xs ++ [if xs.head? = some N.time then "Temporal" else "Central"]))) := by
  have hk : ¬ (f = "KD" ∨ f = "LC") := by rcases hf with rfl | rfl <;> decide
  have hs : f ≠ "Skew" := by rcases hf with rfl | rfl <;> decide
  have hd : f = "Der" ∨ f = "Conservative" ∨ f = "Skew" := by tauto
  have last : ∀ s, s ∉ xs → xs.getLast? ≠ some s := fun s h h' => h (List.mem_of_getLast? h')
  refine ⟨fun scheme hq hn => ?_, fun h1 h2 => ?_⟩
  · rw [List.cons_append, meaning, if_neg hk, if_pos hd, ha, coordinates_names N xs hc _ _ (coordinates_kw N scheme hq)]
    simp [bind, hx, hs, Parse.setArgs, last scheme hn]
  · have := coordinates_names N xs hc [] none rfl
    rw [List.append_nil] at this
    rw [meaning, if_neg hk, if_pos hd, ha, this]
    have hl : xs.getLast? ≠ some (if xs.head? = some N.time then "Temporal" else "Central") := by
      apply last
      split <;> assumption
    simp only [bind, Option.bind, hx, hs, if_false, Parse.setArgs, Option.getD_none, hl]

example : meaning ⟨"x", "t", [], []⟩ (.call "Conservative" [.name "p", .name "x_i", .name "x_j", .kw "'scheme':'Weno'"]) = some (.user .conservative (.data "p") ["x_i", "x_j", "Weno"]) :=
  (C95_derivative ⟨"x", "t", [], []⟩ (.inr rfl) (a := .name "p") (e := .data "p") (by decide +kernel) (xs := ["x_i", "x_j"]) (by simp) (by
    intro x hx
    simp only [List.mem_cons, List.not_mem_nil, or_false] at hx
    rcases hx with rfl | rfl <;> exact ⟨_, by with_unfolding_all rfl⟩)).1 "Weno" (by decide) (by decide)

end OpenSBLI.Source
