import Verif.Model.MultiBlock
import Mathlib.Data.Fin.VecNotation
import Mathlib.Tactic.FinCases
import Mathlib.Tactic.NormNum
import Mathlib.Data.Fintype.Basic

/-!
# C30 multi-block interface exchange
-/
namespace OpenSBLI.MultiBlock
open Ranges

variable {n : ℕ} {α : Type}

/-- Halo points of a side of a block with `np` points and halos of depths `lo` below and `hi` above, transverse halos included. -/
def InHalo (np : Fin n → ℤ) (lo hi : ℤ) (direction : Fin n) (side : Bool) (x : Fin n → ℤ) : Prop :=
  (∀ d, -lo ≤ x d ∧ x d < np d + hi) ∧ (if side then np direction ≤ x direction else x direction < 0)

/-- Distance of a halo point from the grid: 0 for the first layer. -/
def layer (np : ℤ) (side : Bool) (x : ℤ) : ℤ := if side then x - np else -1 - x

/-- The point of the first block at the given layer inside from a side; with a shared interface point the first layer is one further inside. -/
def inside (shared : Bool) (np : ℤ) (side : Bool) (l : ℤ) : ℤ :=
  let l' := if shared then l + 1 else l
  if side then np - 1 - l' else l'

/-- What the interface should do: layer `l` of the receiving halo gets layer `l` of points inside the donor, everything else is kept. -/
def Exchanged (shared : Bool) (np1 np2 : Fin n → ℤ) (lo hi : ℤ) (direction : Fin n) (side1 side2 : Bool) (a b c : (Fin n → ℤ) → α) : Prop :=
  (∀ x, InHalo np2 lo hi direction side2 x →
    c x = a (Function.update x direction (inside shared (np1 direction) side1 (layer (np2 direction) side2 (x direction))))) ∧
  ∀ x, ¬ InHalo np2 lo hi direction side2 x → c x = b x

/-- The general fact for interfaces between blocks whose directions are aligned. -/
theorem aligned (shared : Bool) (np1 np2 : Fin n → ℤ) (lo hi : ℤ) (hlo : 0 ≤ lo) (hhi : 0 ≤ hi) (direction : Fin n) (hnp : 0 ≤ np2 direction)
    (side1 side2 : Bool)
    (extra : Option Bool) (hflip : (Match.mk direction side2 extra).flip = decide (side1 = side2)) (hdeep : side1 = true → side2 = true → lo = hi)
    (a b : (Fin n → ℤ) → α) :
    Exchanged shared np1 np2 lo hi direction side1 side2 a b
      (transfer (interface shared np1 np2 (fun _ => (-lo, hi)) direction side1 ⟨direction, side2, extra⟩) ⟨direction, side2, extra⟩ a b) := by
  have hbox : ∀ x, (∀ d, (interface shared np1 np2 (fun _ => (-lo, hi)) direction side1 ⟨direction, side2, extra⟩).dst d ≤ x d ∧
      x d < (interface shared np1 np2 (fun _ => (-lo, hi)) direction side1 ⟨direction, side2, extra⟩).dst d +
        (interface shared np1 np2 (fun _ => (-lo, hi)) direction side1 ⟨direction, side2, extra⟩).size d) ↔ InHalo np2 lo hi direction side2 x := by
    intro x
    unfold InHalo interface
    constructor
    · intro h
      have hd := h direction
      refine ⟨fun d => ?_, ?_⟩
      · by_cases e : d = direction
        · subst e
          cases side2 <;> simp [abs_of_nonneg, hlo, hhi] at hd <;> omega
        · have := h d
          cases side2 <;> simp [Function.update_of_ne e, abs_of_nonneg, hlo, hhi] at this <;> omega
      · cases side2 <;> simp [abs_of_nonneg, hlo, hhi] at hd <;> simp <;> omega
    · rintro ⟨h, hs⟩ d
      have := h d
      by_cases e : d = direction
      · subst e
        cases side2 <;> simp [abs_of_nonneg, hlo, hhi] at hs ⊢ <;> omega
      · cases side2 <;> simp [Function.update_of_ne e, abs_of_nonneg, hlo, hhi] <;> omega
  refine ⟨fun x hx => ?_, fun x hx => ?_⟩
  · rw [transfer, if_pos ((hbox x).2 hx), hflip]
    congr 1
    funext d
    by_cases e : d = direction
    · subst e
      rw [Function.update_self]
      cases shared <;> cases side1 <;> cases side2 <;>
        simp [interface, inside, layer, abs_of_nonneg, hlo, hhi] at hdeep ⊢ <;> omega
    · rw [Function.update_of_ne e, if_neg (fun h => e h.1)]
      cases side2 <;> simp [interface, Function.update_of_ne e]
  · rw [transfer, if_neg (fun h => hx ((hbox x).1 h))]

/-- C30: an interface between two blocks aligned in the direction, with the orientation given in the match as a fourth entry: for every
combination of sides, grid sizes, halo depths and dimensions the halo of the receiving block is filled with the points of the donor next to
the interface, transverse halos included, and nothing else is changed. -/
theorem C30_interface_partial (shared : Bool) (np1 np2 : Fin n → ℤ) (lo hi : ℤ) (hlo : 0 ≤ lo) (hhi : 0 ≤ hi) (direction : Fin n)
    (hnp : 0 ≤ np2 direction) (side1 side2 : Bool) (hdeep : side1 = true → side2 = true → lo = hi) (a b : (Fin n → ℤ) → α) :
    Exchanged shared np1 np2 lo hi direction side1 side2 a b
      (transfer (interface shared np1 np2 (fun _ => (-lo, hi)) direction side1 ⟨direction, side2, some (decide (side1 = side2))⟩)
        ⟨direction, side2, some (decide (side1 = side2))⟩ a b) :=
  aligned shared np1 np2 lo hi hlo hhi direction hnp side1 side2 _ rfl hdeep a b

/-- C30: with the documented three-entry match it works when the donor side is the upper one. -/
theorem C30_three_entries_upper_partial (shared : Bool) (np1 np2 : Fin n → ℤ) (lo hi : ℤ) (hlo : 0 ≤ lo) (hhi : 0 ≤ hi) (direction : Fin n)
    (hnp : 0 ≤ np2 direction) (side2 : Bool) (hdeep : side2 = true → lo = hi) (a b : (Fin n → ℤ) → α) :
    Exchanged shared np1 np2 lo hi direction true side2 a b
      (transfer (interface shared np1 np2 (fun _ => (-lo, hi)) direction true ⟨direction, side2, none⟩) ⟨direction, side2, none⟩ a b) :=
  aligned shared np1 np2 lo hi hlo hhi direction hnp true side2 none (by cases side2 <;> rfl) (fun _ => hdeep) a b

/-- With the three-entry match and the donor side the lower one, the layers arrive in reverse order: the last entry of the match is taken as
the orientation although it is the side. For every grid with halos of at least two points, in every dimension. -/
theorem C30_three_entries_lower_reversed (np1 np2 : Fin n → ℤ) (h : ℤ) (hh : 2 ≤ h) (direction : Fin n) (hnp : ∀ d, 0 ≤ np2 d)
    (side2 : Bool) :
    ∃ a b : (Fin n → ℤ) → ℤ, ¬ Exchanged false np1 np2 h h direction false side2 a b
      (transfer (interface false np1 np2 (fun _ => (-h, h)) direction false ⟨direction, side2, none⟩) ⟨direction, side2, none⟩ a b) := by
  refine ⟨fun x => x direction, fun _ => 0, fun hex => ?_⟩
  -- the first halo layer
  let x : Fin n → ℤ := Function.update (fun _ => 0) direction (if side2 then np2 direction else -1)
  have hx : InHalo np2 h h direction side2 x := by
    refine ⟨fun d => ?_, ?_⟩
    · have := hnp d
      by_cases e : d = direction
      · subst e
        cases side2 <;> simp [x] <;> omega
      · simp [x, Function.update_of_ne e]; omega
    · cases side2 <;> simp [x]
  have hc := hex.1 x hx
  have h0 : 0 ≤ h := by omega
  have hbox : ∀ d, (interface false np1 np2 (fun _ => (-h, h)) direction false ⟨direction, side2, none⟩).dst d ≤ x d ∧
      x d < (interface false np1 np2 (fun _ => (-h, h)) direction false ⟨direction, side2, none⟩).dst d +
        (interface false np1 np2 (fun _ => (-h, h)) direction false ⟨direction, side2, none⟩).size d := by
    intro d
    have := hnp d
    by_cases e : d = direction
    · subst e
      cases side2 <;> simp [interface, x, abs_of_nonneg, h0] <;> omega
    · cases side2 <;> simp [interface, x, Function.update_of_ne e, abs_of_nonneg, h0] <;> omega
  rw [transfer, if_pos hbox] at hc
  cases side2 <;> simp [interface, inside, layer, x, Match.flip, abs_of_nonneg, h0] at hc <;> omega

/-- Blocks meeting in different directions: nothing is written to the halo of the receiving block in its own direction away from the corners
(the size of the transfer is reduced in the direction of the donor). -/
theorem C30_rotated_not_filled (shared : Bool) (np1 np2 : Fin n → ℤ) (hnp : ∀ d, 1 ≤ np2 d) (lo hi : ℤ) (hlo : 1 ≤ lo) (hhi : 0 ≤ hi)
    (direction : Fin n) (side1 : Bool) (m : Match n) (hm : m.direction ≠ direction) (hs : m.side = false) :
    ∃ x, InHalo np2 lo hi m.direction m.side x ∧
      ∀ a b : (Fin n → ℤ) → α, transfer (interface shared np1 np2 (fun _ => (-lo, hi)) direction side1 m) m a b x = b x := by
  refine ⟨Function.update (fun _ => 0) m.direction (-1), ⟨fun d => ?_, by simp [hs]⟩, fun a b => ?_⟩
  · have := hnp d
    by_cases e : d = m.direction
    · subst e; simp; omega
    · simp [Function.update_of_ne e]; omega
  · rw [transfer, if_neg]
    intro h
    have := h direction
    simp [interface, hs, abs_of_nonneg (show 0 ≤ lo by omega), Function.update_of_ne hm.symm] at this

/-- With asymmetric halos, as WENO requests, an upper-to-upper interface reads the halo of the donor. -/
theorem C30_asymmetric_upper_wrong : ∃ a b : (Fin 1 → ℤ) → ℤ, ¬ Exchanged false ![10] ![10] 3 4 0 true true a b
    (transfer (interface false ![10] ![10] (fun _ => (-3, 4)) 0 true ⟨0, true, some true⟩) ⟨0, true, some true⟩ a b) := by
  refine ⟨fun x => x 0, fun _ => 0, fun hex => ?_⟩
  have := hex.1 ![10] (by
    refine ⟨fun d => ?_, ?_⟩
    · fin_cases d; simp
    · simp)
  simp [transfer, interface, inside, layer, Match.flip] at this

/-- Two blocks of a two-dimensional channel side by side: the receiving halo point `(10, -1)` gets the donor's `(0, -1)`. -/
example (a b : (Fin 2 → ℤ) → ℤ) :
    transfer (interface false ![8, 5] ![10, 5] (fun _ => (-2, 2)) 0 false ⟨0, true, some false⟩) ⟨0, true, some false⟩ a b ![10, -1] = a ![0, -1] := by
  have h := (C30_interface_partial false ![8, 5] ![10, 5] 2 2 (by norm_num) (by norm_num) (0 : Fin 2) (by norm_num) false true (by simp) a b).1 ![10, -1] (by
    refine ⟨fun d => ?_, by simp⟩
    fin_cases d <;> simp)
  have e : Function.update ![(10 : ℤ), -1] (0 : Fin 2) 0 = ![0, -1] := by
    funext d; fin_cases d <;> simp
  simpa [inside, layer, e] using h

end OpenSBLI.MultiBlock
