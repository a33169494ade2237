import Verif.Model.Registry
import Mathlib.Data.List.Nodup

/-!
# C46 kernel names are unique
-/
namespace OpenSBLI.Reg

theorem padded_toList (w n : ℕ) :
    (padded w n).toList = List.replicate (w - (Nat.toDigits 10 n).length) '0' ++ Nat.toDigits 10 n := by
  simp [padded]

theorem value_padded (w n : ℕ) : Nat.ofDigitChars 10 (padded w n).toList 0 = n := by
  rw [padded_toList, Nat.ofDigitChars_append, Nat.ofDigitChars_replicate_zero, Nat.mul_zero,
    Nat.ofDigitChars_toDigits (by decide) (by decide)]

theorem padded_injective (w : ℕ) : Function.Injective (padded w) := by
  intro a b h
  rw [← value_padded w a, ← value_padded w b, h]

theorem padded_isDigit (w n : ℕ) : ∀ c ∈ (padded w n).toList, c.isDigit = true := by
  intro c hc
  rw [padded_toList, List.mem_append] at hc
  rcases hc with h | h
  · rw [List.eq_of_mem_replicate h]; decide
  · exact Nat.isDigit_of_mem_toDigits (by decide) (by decide) h

/-- Text ending in a non-digit followed by digits determines both parts. -/
theorem split_digits {p q x y : List Char} (hx : ∀ c ∈ x, c.isDigit = true) (hy : ∀ c ∈ y, c.isDigit = true) (c c' : Char)
    (hc : c.isDigit = false) (hc' : c'.isDigit = false) (h : p ++ [c] ++ x = q ++ [c'] ++ y) : p ++ [c] = q ++ [c'] ∧ x = y := by
  have key : ∀ (p x : List Char) (c : Char), (∀ c ∈ x, c.isDigit = true) → c.isDigit = false →
      (p ++ [c] ++ x).reverse.takeWhile Char.isDigit = x.reverse := by
    intro p x c hx hc
    rw [List.reverse_append, List.takeWhile_append_of_pos (by simpa using hx)]
    simp [hc]
  have h1 := key p x c hx hc
  rw [h, key q y c' hy hc'] at h1
  have h2 : x = y := (List.reverse_injective h1).symm
  subst h2
  exact ⟨List.append_cancel_right h, rfl⟩

theorem kernelName_toList (b k : ℕ) :
    (kernelName b k).toList = ("opensbliblock".toList ++ (padded 2 b).toList ++ "Kerne".toList) ++ ['l'] ++ (padded 3 k).toList := by
  have : "Kernel".toList = "Kerne".toList ++ ['l'] := by decide
  simp [kernelName, blockName, String.toList_append, this]

/-- The name of a kernel determines its block number and its number on the block, for all numbers (also beyond three digits). -/
theorem kernelName_injective {b b' k k' : ℕ} (h : kernelName b k = kernelName b' k') : b = b' ∧ k = k' := by
  have h := congrArg String.toList h
  rw [kernelName_toList, kernelName_toList] at h
  obtain ⟨h1, h2⟩ := split_digits (padded_isDigit 3 k) (padded_isDigit 3 k') 'l' 'l' (by decide) (by decide) h
  constructor
  · apply padded_injective 2
    apply String.toList_injective
    have := List.append_cancel_right h1
    have := List.append_cancel_right this
    exact List.append_cancel_left this
  · exact padded_injective 3 (String.toList_injective h2)

/-- The operation does not set the counter back. -/
def CounterOp.forward : CounterOp → Bool
  | .reset => false
  | .resetToStored => false
  | _ => true

theorem kernelNames_bound (h : List (ℕ × CounterOp)) (hf : ∀ x ∈ h, x.2.forward = true) (s : ℕ → Counter) :
    (∀ n ∈ kernelNames s h, ∃ b k, n = kernelName b k ∧ (s b).counter ≤ k) ∧ (kernelNames s h).Nodup := by
  induction h generalizing s with
  | nil => simp [kernelNames]
  | cons x h ih =>
    obtain ⟨b, op⟩ := x
    have hx := hf (b, op) (List.mem_cons_self ..)
    obtain ⟨h1, h2⟩ := ih (fun x hx => hf x (List.mem_cons_of_mem _ hx)) (Function.update s b ((s b).step b op).1)
    have mono : (s b).counter ≤ ((s b).step b op).1.counter := by
      cases op <;> simp [Counter.step, CounterOp.forward] at hx ⊢
    have h1' : ∀ n ∈ kernelNames (Function.update s b ((s b).step b op).1) h, ∃ b k, n = kernelName b k ∧ (s b).counter ≤ k := by
      intro n hn
      obtain ⟨b', k, e, hk⟩ := h1 n hn
      refine ⟨b', k, e, ?_⟩
      by_cases hb : b' = b
      · subst hb; simp only [Function.update_self] at hk; exact mono.trans hk
      · simpa [hb] using hk
    simp only [kernelNames]
    cases op with
    | create =>
      simp only [Counter.step, Option.toList_some, List.singleton_append, List.mem_cons, List.nodup_cons] at h1 h2 h1' ⊢
      refine ⟨?_, ?_, h2⟩
      · rintro n (rfl | hn)
        · exact ⟨b, _, rfl, le_rfl⟩
        · exact h1' n hn
      · intro hmem
        obtain ⟨b', k, e, hk⟩ := h1 _ hmem
        obtain ⟨rfl, rfl⟩ := kernelName_injective e
        simp at hk; omega
    | increase => exact ⟨by simpa [Counter.step] using h1', by simpa [Counter.step] using h2⟩
    | store => exact ⟨by simpa [Counter.step] using h1', by simpa [Counter.step] using h2⟩
    | reset => simp [CounterOp.forward] at hx
    | resetToStored => simp [CounterOp.forward] at hx

/-- C46: for every history of kernel creations on any number of (distinctly numbered) blocks, interleaved in any way, in which the counter is
not set back, no two kernels get the same name. -/
theorem C46_kernel_names_unique (h : List (ℕ × CounterOp)) (hf : ∀ x ∈ h, x.2.forward = true) :
    (kernelNames (fun _ => {}) h).Nodup :=
  (kernelNames_bound h hf _).2

/-- As many names as created kernels. -/
theorem C46_one_name_per_kernel (h : List (ℕ × CounterOp)) (s : ℕ → Counter) :
    (kernelNames s h).length = h.countP fun x => match x.2 with | .create => true | _ => false := by
  induction h generalizing s with
  | nil => rfl
  | cons x h ih =>
    obtain ⟨b, op⟩ := x
    simp only [kernelNames, List.length_append, ih, List.countP_cons]
    cases op <;> simp [Counter.step, Nat.add_comm]

/-- Setting the counter back, as the counter class offers, produces duplicate names: the hypothesis of `C46_kernel_names_unique` is needed. -/
theorem C46_reset_duplicates (b : ℕ) :
    ¬ (kernelNames (fun _ => {}) [(b, .create), (b, .reset), (b, .create)]).Nodup ∧
    ¬ (kernelNames (fun _ => {}) [(b, .store), (b, .create), (b, .resetToStored), (b, .create)]).Nodup := by
  simp [kernelNames, Counter.step]

/-- The names of the second kernel of block 1 and of kernel 1000 of block 0. -/
example : kernelName 1 1 = "opensbliblock01Kernel001" ∧ kernelName 0 1000 = "opensbliblock00Kernel1000" := by decide +kernel

/-- A history meeting the hypothesis. -/
example : kernelNames (fun _ => {}) [(0, .create), (1, .create), (0, .increase), (0, .create)] =
    ["opensbliblock00Kernel000", "opensbliblock01Kernel000", "opensbliblock00Kernel002"] := by decide +kernel

end OpenSBLI.Reg
