import Verif.Model.Monitor
import Verif.Props.C46_Names
import Mathlib.Tactic.NormNum
import Mathlib.Tactic.Ring
import Mathlib.Algebra.BigOperators.Group.Finset.Piecewise
import Mathlib.Data.Fin.VecNotation
import Mathlib.Tactic.FinCases

/-!
# C68 simulation monitors

A line of the monitor's output is a list of columns separated by commas; `columns` counts them.
-/
namespace OpenSBLI.Mon

/-- Number of columns of a comma separated line. -/
def columns (s : String) : ℕ := s.toList.count ',' + 1

/-! ## Values -/

/-- The loop over the range of a probe visits the probe and no other point. -/
theorem inRange_iff (p x : List ℤ) : inRange (rangeOf p) x ↔ x = p := by
  unfold inRange rangeOf
  induction p generalizing x with
  | nil => simp
  | cons i p ih =>
    cases x with
    | nil => simp
    | cons j x =>
      rw [List.map_cons, List.forall₂_cons, ih, List.cons.injEq]
      have : (i ≤ j ∧ j < i + 1) ↔ j = i := by omega
      exact and_congr_left' this

/-- **C68, value.** However the grid points are distributed over processes and in whatever order each process visits its
points, the reduction returns the value of the array at the probe. -/
theorem C68_probe_value {n : ℕ} (a : List ℤ → ℝ) (p : List ℤ) (owner : List ℤ → Fin n) (pts : Fin n → List (List ℤ))
    (hnd : ∀ r, (pts r).Nodup) (hmem : ∀ r x, x ∈ pts r ↔ inRange (rangeOf p) x ∧ owner x = r) : reductionResult a pts = a p := by
  have h1 : pts (owner p) = [p] := by
    have hp : p ∈ pts (owner p) := (hmem _ _).2 ⟨(inRange_iff p p).2 rfl, rfl⟩
    have hall : ∀ x ∈ pts (owner p), x = p := fun x hx => (inRange_iff p x).1 ((hmem _ _).1 hx).1
    have hn := hnd (owner p)
    match hl : pts (owner p), hp, hall, hn with
    | [x], _, hall, _ => rw [hall x (by simp)]
    | x :: y :: l, _, hall, hn =>
      have e1 := hall x (by simp)
      have e2 := hall y (by simp)
      rw [e1, e2] at hn
      exact absurd hn (by simp)
  have h2 : ∀ r, r ≠ owner p → pts r = [] := by
    intro r hr
    rw [List.eq_nil_iff_forall_not_mem]
    intro x hx
    obtain ⟨h3, h4⟩ := (hmem r x).1 hx
    rw [(inRange_iff p x).1 h3] at h4
    exact hr h4.symm
  rw [reductionResult, Finset.sum_eq_single (owner p)]
  · rw [h1]; rfl
  · intro r _ hr; rw [h2 r hr]; rfl
  · simp

/-- **C68, printed row.** Column 0 is the number of the finished iteration, column 1 the time, column `2 + k` the value of monitor
`k`, divided by the number of iterations exactly for arrays with "mean" in their name. -/
theorem C68_printed_row (iter : ℕ) (dt : ℝ) (arrays : List String) (locs : List Loc) (ms : List Monitor)
    (h : monitors arrays locs = some ms) (result : Monitor → ℝ) :
    (printedValues iter dt ms result)[0]? = some (iter + 1 : ℝ) ∧
    (printedValues iter dt ms result)[1]? = some ((iter + 1 : ℝ) * dt) ∧
    (printedValues iter dt ms result).length = 2 + arrays.length ∧
    ∀ k (a : String) (l : Loc), arrays[k]? = some a → locs[k]? = some l →
      (printedValues iter dt ms result)[2 + k]? = some
        (if "mean".toList <:+: (a ++ "_" ++ toString k ++ "_output").toList then result ⟨a, l, k⟩ / (iter + 1) else result ⟨a, l, k⟩) := by
  unfold monitors at h
  split at h
  · cases h
  · rename_i hlen
    push Not at hlen
    simp only [Option.some.injEq] at h
    subst h
    refine ⟨by simp [printedValues], by simp [printedValues], ?_, ?_⟩
    · simp [printedValues, hlen]; omega
    · intro k a l ha hl
      have hz : ((arrays.zip locs).mapIdx fun i x => (⟨x.1, x.2, i⟩ : Monitor))[k]? = some ⟨a, l, k⟩ := by
        rw [List.getElem?_mapIdx, List.getElem?_zip_eq_some (z := (a, l)) |>.2 ⟨ha, hl⟩]; rfl
      simp only [printedValues, List.cons_append, List.nil_append]
      rw [show 2 + k = k + 1 + 1 by omega, List.getElem?_cons_succ, List.getElem?_cons_succ, List.getElem?_map, hz]
      simp [isMean, outputName]

/-- **C68, placeholders.** The format has one placeholder for every printed argument. -/
theorem C68_placeholders_match (prec : ℕ) (ms : List Monitor) :
    (placeholders prec ms).length = (printArgs ms).length ∧ (printArgs ms).length = 2 + ms.length := by
  simp [placeholders, printArgs]; omega

/-- **C68, printed expressions.** After iteration and time, argument by argument, the reduction result of the monitor is printed as it is, and divided by the number of iterations exactly if its name mentions a mean. -/
theorem C68_printed_expressions (ms : List Monitor) (k : ℕ) (m : Monitor) (hk : ms[k]? = some m) :
    (printArgs ms)[0]? = some "iter+1" ∧ (printArgs ms)[1]? = some "(iter+1)*dt" ∧
    ("mean".toList <:+: (outputName m).toList → (printArgs ms)[2 + k]? = some (outputName m ++ "/(iter+1)")) ∧
    (¬ "mean".toList <:+: (outputName m).toList → (printArgs ms)[2 + k]? = some (outputName m)) := by
  have e : (printArgs ms)[2 + k]? = some (if isMean m then outputName m ++ "/(iter+1)" else outputName m) := by
    simp only [printArgs, List.cons_append, List.nil_append]
    rw [show 2 + k = k + 1 + 1 by omega, List.getElem?_cons_succ, List.getElem?_cons_succ, List.getElem?_map, hk]; rfl
  refine ⟨rfl, rfl, fun h => ?_, fun h => ?_⟩
  · rw [e, if_pos (by simpa [isMean] using h)]
  · rw [e, if_neg (by simpa [isMean] using h)]

/-- **C68, mismatched input is rejected**, and exactly that. -/
theorem C68_mismatch_rejected (arrays : List String) (locs : List Loc) :
    monitors arrays locs = none ↔ arrays.length ≠ locs.length := by
  unfold monitors; split <;> simp_all

/-! ## Names -/

theorem digits_toString (n : ℕ) : ∀ c ∈ (toString n).toList, c.isDigit = true := by
  have := Reg.padded_isDigit 0 n
  rw [Reg.padded_toList] at this
  simpa using this

theorem digits_prefix {x y p q : List Char} (hx : ∀ c ∈ x, c.isDigit = true) (hy : ∀ c ∈ y, c.isDigit = true) (c c' : Char)
    (hc : c.isDigit = false) (hc' : c'.isDigit = false) (h : x ++ c :: p = y ++ c' :: q) : x = y := by
  have t : ∀ (x p : List Char) (c : Char), (∀ c ∈ x, c.isDigit = true) → c.isDigit = false →
      (x ++ c :: p).takeWhile Char.isDigit = x := by
    intro x p c hx hc
    rw [List.takeWhile_append_of_pos hx]
    simp [hc]
  rw [← t x p c hx hc, h, t y q c' hy hc']

theorem toString_injective : Function.Injective (toString : ℕ → String) := by
  intro i j h
  have h : (toString i).toList = (toString j).toList := by rw [h]
  simp only [Nat.toString_eq_repr, Nat.toList_repr] at h
  rw [← Nat.ofDigitChars_toDigits (b := 10) (n := i) (by decide) (by decide), h,
    Nat.ofDigitChars_toDigits (by decide) (by decide)]

theorem prefixed_no {pre : String} {m m' : Monitor}
    (h : pre ++ toString m.no ++ "_" ++ m.var = pre ++ toString m'.no ++ "_" ++ m'.var) : m.no = m'.no := by
  have h := congrArg String.toList h
  simp only [String.toList_append, List.append_assoc] at h
  have h := List.append_cancel_left h
  apply toString_injective
  apply String.toList_injective
  exact digits_prefix (digits_toString _) (digits_toString _) '_' '_' (by decide) (by decide) h

theorem monitors_no (arrays : List String) (locs : List Loc) (ms : List Monitor) (h : monitors arrays locs = some ms) :
    (ms.map Monitor.no).Nodup := by
  unfold monitors at h
  split at h
  · cases h
  · simp only [Option.some.injEq] at h
    subst h
    have hm : ((arrays.zip locs).mapIdx fun i x => (⟨x.1, x.2, i⟩ : Monitor)).map Monitor.no =
        List.mapIdx (fun i (_ : String × Loc) => i) (arrays.zip locs) := by
      apply List.ext_getElem?
      intro i
      rw [List.getElem?_map, List.getElem?_mapIdx, List.getElem?_mapIdx, Option.map_map]; rfl
    rw [hm]
    have : (List.mapIdx (fun i (_ : String × Loc) => i) (arrays.zip locs)) = List.range (arrays.zip locs).length := by
      apply List.ext_getElem?
      intro i
      rw [List.getElem?_mapIdx]
      by_cases hi : i < (arrays.zip locs).length
      · rw [List.getElem?_eq_getElem hi, List.getElem?_range hi]; rfl
      · rw [List.getElem?_eq_none (by omega), List.getElem?_eq_none (by rw [List.length_range]; omega)]; rfl
    exact this ▸ List.nodup_range

/-- **C68, names.** Reduction handles, ranges, kernels and output variables of different monitors have different names, even for the
same array at several probes. -/
theorem C68_names_unique (arrays : List String) (locs : List Loc) (ms : List Monitor) (h : monitors arrays locs = some ms) :
    (ms.map reductionName).Nodup ∧ (ms.map rangeName).Nodup ∧ (ms.map kernelName).Nodup ∧ (ms.map outputName).Nodup := by
  have hno := monitors_no arrays locs ms h
  have lift : ∀ f : Monitor → String, (∀ m m', f m = f m' → m.no = m'.no) → (ms.map f).Nodup := by
    intro f hf
    rw [List.Nodup, List.pairwise_map] at hno ⊢
    exact hno.imp fun hne e => hne (hf _ _ e)
  refine ⟨lift _ fun m m' e => prefixed_no e, lift _ fun m m' e => prefixed_no e, lift _ fun m m' e => prefixed_no e, lift _ ?_⟩
  intro m m' e
  have e := congrArg String.toList e
  simp only [outputName, String.toList_append] at e
  have e := List.append_cancel_right e
  rw [List.append_assoc, List.append_assoc] at e
  exact toString_injective (String.toList_injective
    (Reg.split_digits (digits_toString _) (digits_toString _) '_' '_' (by decide) (by decide) (by simpa using e)).2)

/-! ## Columns of the header -/

theorem count_join (l : List String) (hl : l ≠ []) :
    (join l).toList.count ',' + 1 = (l.map fun s => s.toList.count ',' + 1).sum := by
  unfold join
  rw [String.toList_intercalate]
  induction l with
  | nil => exact absurd rfl hl
  | cons a l ih =>
    cases l with
    | nil => simp [List.intercalate]
    | cons b l =>
      have ih := ih (by simp)
      rw [List.map_cons, List.map_cons, List.intercalate_cons_cons, List.count_append, List.count_append, List.map_cons, List.sum_cons]
      rw [List.map_cons] at ih
      have : List.count ',' (", " : String).toList = 1 := by decide
      omega

theorem count_toString_int (i : ℤ) : (toString i).toList.count ',' = 0 := by
  rw [List.count_eq_zero]
  have nat : ∀ n : ℕ, ',' ∉ (toString n).toList := by
    intro n h
    have := digits_toString n _ h
    exact absurd this (by decide)
  cases i with
  | ofNat n => exact nat n
  | negSucc n =>
    intro h
    have e : (toString (Int.negSucc n)).toList = '-' :: (toString (n + 1)).toList := by
      show ("-" ++ toString (n + 1)).toList = _
      simp [String.toList_append]
    rw [e, List.mem_cons] at h
    rcases h with h | h
    · exact absurd h (by decide)
    · exact nat _ h

/-- Commas printed for a location: none for an integer, one for a tuple with one entry, one between entries otherwise. -/
def commas : Loc → ℕ
  | .int _ => 0
  | .tuple [_] => 1
  | .tuple l => l.length - 1

theorem count_loc (l : Loc) : l.str.toList.count ',' = commas l := by
  match l with
  | .int i => exact count_toString_int i
  | .tuple [] => decide
  | .tuple [i] =>
    have e1 : List.count ',' ("(" : String).toList = 0 := by decide
    have e2 : List.count ',' (",)" : String).toList = 1 := by decide
    simp only [Loc.str, String.toList_append, List.count_append, count_toString_int, commas, e1, e2]
  | .tuple (i :: j :: l) =>
    have h := count_join ((i :: j :: l).map toString) (by simp)
    have s : (((i :: j :: l).map toString).map fun s => s.toList.count ',' + 1).sum = l.length + 2 := by
      rw [List.map_map]
      have : ((fun s : String => s.toList.count ',' + 1) ∘ (toString : ℤ → String)) = fun _ => 1 := by
        funext z; simp only [Function.comp, count_toString_int]
      rw [this]; simp; omega
    rw [s] at h
    simp only [Loc.str, String.toList_append, List.count_append, commas, List.length_cons]
    have e1 : List.count ',' ("(" : String).toList = 0 := by decide
    have e2 : List.count ',' (")" : String).toList = 0 := by decide
    omega

theorem sum_map_eq_zero (f : Monitor → ℕ) (l : List Monitor) : (l.map f).sum = 0 ↔ ∀ m ∈ l, f m = 0 := by
  induction l with
  | nil => simp
  | cons a l ih => simp [ih]

/-- **C68, header (partial).** Number of header columns: one per column of the rows plus the commas inside the printed probe
locations. The full claim, as many header columns as row columns, holds exactly when all locations print without a comma. -/
theorem C68_header_columns_partial (ms : List Monitor) (hvar : ∀ m ∈ ms, ',' ∉ m.var.toList) :
    columns (header ms) = (printArgs ms).length + (ms.map fun m => commas m.loc).sum ∧
    (columns (header ms) = (printArgs ms).length ↔ ∀ m ∈ ms, commas m.loc = 0) := by
  have key : columns (header ms) = (printArgs ms).length + (ms.map fun m => commas m.loc).sum := by
    rw [columns, header, count_join _ (by simp), (C68_placeholders_match 0 ms).2]
    have e1 : List.count ',' ("Iteration" : String).toList = 0 := by decide
    have e2 : List.count ',' ("Time" : String).toList = 0 := by decide
    simp only [List.cons_append, List.nil_append, List.map_cons, List.sum_cons, List.map_map, e1, e2]
    have : ∀ (l : List Monitor), (∀ m ∈ l, ',' ∉ m.var.toList) →
        (l.map ((fun s : String => s.toList.count ',' + 1) ∘ fun m => m.var ++ m.loc.str)).sum =
          l.length + (l.map fun m => commas m.loc).sum := by
      intro l hl
      induction l with
      | nil => rfl
      | cons m l ih =>
        rw [List.map_cons, List.sum_cons, ih fun m hm => hl m (List.mem_cons_of_mem _ hm), List.map_cons, List.sum_cons, List.length_cons]
        simp only [Function.comp, String.toList_append, List.count_append, List.count_eq_zero.2 (hl m (by simp)), count_loc]
        omega
    rw [this ms hvar]; omega
  refine ⟨key, ?_⟩
  rw [key]
  rw [← sum_map_eq_zero]
  omega

/-- **C68, finding: misaligned header.** In two or more dimensions every monitor adds columns to the header that the rows do not
have. -/
theorem C68_header_misaligned (m : Monitor) (ms : List Monitor) (hm : m ∈ ms) (l : List ℤ) (hl : m.loc = .tuple l) (h2 : 2 ≤ l.length)
    (hvar : ∀ m ∈ ms, ',' ∉ m.var.toList) : (printArgs ms).length < columns (header ms) := by
  rw [(C68_header_columns_partial ms hvar).1]
  have : 1 ≤ commas m.loc := by
    rw [hl]; match l, h2 with
    | i :: j :: l, _ => simp [commas]
  have h0 : (ms.map fun m => commas m.loc).sum ≠ 0 := fun h => by
    have := (sum_map_eq_zero _ ms).1 h m hm
    omega
  omega

/-- **C68, finding: one dimension.** A one dimensional probe given as a tuple, as documented, is printed into the program as a tuple;
an integer is printed as itself. -/
theorem C68_one_dimensional_tuple (i : ℤ) :
    rangeTexts 1 (.tuple [i]) = some ["(" ++ toString i ++ ",)"] ∧ rangeTexts 1 (.int i) = some [toString i] := ⟨rfl, rfl⟩

/-- **C68, probe locations in two and three dimensions** are printed component by component; a location of the wrong length is
rejected. -/
theorem C68_probe_location (l : List ℤ) : (rangeTexts 2 (.tuple l) = if l.length = 2 then some (l.map toString) else none) ∧
    (rangeTexts 3 (.tuple l) = if l.length = 3 then some (l.map toString) else none) := by
  constructor
  · match l with
    | [] => rfl
    | [_] => rfl
    | [_, _] => rfl
    | _ :: _ :: _ :: l => simp [rangeTexts]
  · match l with
    | [] => rfl
    | [_] => rfl
    | [_, _] => rfl
    | [_, _, _] => rfl
    | _ :: _ :: _ :: _ :: l => simp [rangeTexts]

/-! ## Generating the program -/

/-- **C68, finding: monitoring to the screen.** With a monitor that has no output file, documented to print to the screen, the
program cannot be generated; with an output file the file is closed exactly once, without a monitor it is not mentioned. -/
theorem C68_output_to_screen_fails (diagnostics : ℕ) :
    opsExit diagnostics (some none) = none ∧
    (∀ file, ∃ l, opsExit diagnostics (some (some file)) = some l ∧ l.count "fclose(f);" = 1) ∧
    (∃ l, opsExit diagnostics none = some l ∧ l.count "fclose(f);" = 0) := by
  refine ⟨rfl, fun file => ⟨_, rfl, ?_⟩, ⟨_, rfl, ?_⟩⟩
  · by_cases h : diagnostics > 1 <;> simp [h]
  · by_cases h : diagnostics > 1 <;> simp [h]

/-- A case: two monitors of one array in two dimensions; the rows have four columns, the header has six. -/
example : ∃ ms, monitors ["p_B0", "p_B0"] [.tuple [5, 3], .tuple [7, 3]] = some ms ∧ (printArgs ms).length = 4 ∧
    columns (header ms) = 6 := by
  refine ⟨_, rfl, rfl, ?_⟩
  rw [(C68_header_columns_partial _ (by intro m hm; simp at hm; rcases hm with rfl | rfl <;> decide)).1]
  rfl

/-- A case for `C68_probe_value`: two processes. -/
example (a : List ℤ → ℝ) : reductionResult a (![[[5, 3]], []] : Fin 2 → List (List ℤ)) = a [5, 3] :=
  C68_probe_value a [5, 3] (fun _ => 0) _ (by intro r; fin_cases r <;> simp) (by
    intro r x; rw [inRange_iff]; fin_cases r <;> simp)

end OpenSBLI.Mon
