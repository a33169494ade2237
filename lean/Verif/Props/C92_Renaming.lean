import Verif.Props.C92_Notation
import Verif.Props.C82_Parsing
import Mathlib.Logic.Function.Basic

/-!
# C92: the letters of indices

The values of equations do not depend on the letters chosen for the indices. What the names in them stand for does: a constant is known by its name with the letters it was declared with.
-/
namespace OpenSBLI.Ein

/-- Other letters for all indices. -/
def Expr.rename (ρ : String → String) : Expr → Expr
  | .term b idx => .term b (idx.map ρ)
  | .add a b => .add (a.rename ρ) (b.rename ρ)
  | .mul a b => .mul (a.rename ρ) (b.rename ρ)
  | .fn f a b => .fn f (a.rename ρ) (b.rename ρ)
  | .fn3 f a b c => .fn3 f (a.rename ρ) (b.rename ρ) (c.rename ρ)

variable {R : Type} [AddCommMonoid R] {m : Meaning R} {n : ℕ} {ρ : String → String}

theorem isFree_rename (hρ : Function.Injective ρ) (k : String) (e : Expr) : IsFree (ρ k) (e.rename ρ) ↔ IsFree k e := by
  induction e with
  | term b idx => simp [IsFree, Expr.rename, List.count_map_of_injective _ _ hρ]
  | _ => simp_all [IsFree, Expr.rename]

theorem isFree_range {j : String} {e : Expr} (h : IsFree j (e.rename ρ)) : ∃ k, ρ k = j := by
  induction e with
  | term b idx =>
    have : j ∈ idx.map ρ := List.count_pos_iff.1 (by rw [show (idx.map ρ).count j = 1 from h]; decide)
    obtain ⟨k, -, rfl⟩ := List.mem_map.1 this
    exact ⟨k, rfl⟩
  | add a b iha ihb => exact h.elim iha ihb
  | mul a b iha ihb => exact h.elim (fun h => iha h.1) fun h => ihb h.2
  | fn f a b iha ihb => exact h.elim (fun h => iha h.1) fun h => ihb h.2
  | fn3 f a b c iha ihb ihc => exact h.elim (fun h => iha h.1) fun h => h.elim (fun h => ihb h.2.1) fun h => ihc h.2.2

theorem isDummy_rename (hρ : Function.Injective ρ) (k : String) (e : Expr) : IsDummy (ρ k) (e.rename ρ) ↔ IsDummy k e := by
  cases e <;> simp [IsDummy, Expr.rename, isFree_rename hρ, List.count_map_of_injective _ _ hρ]

theorem isDummy_range {j : String} {e : Expr} (h : IsDummy j (e.rename ρ)) : ∃ k, ρ k = j := by
  cases e with
  | term b idx =>
    have : j ∈ idx.map ρ := List.count_pos_iff.1 (Nat.zero_lt_one.trans h)
    obtain ⟨k, -, rfl⟩ := List.mem_map.1 this
    exact ⟨k, rfl⟩
  | add a b => exact h.elim
  | mul a b => exact isFree_range h.1
  | fn f a b => exact isFree_range h.1
  | fn3 f a b c => exact h.elim (fun h => isFree_range h.1) fun h => h.elim (fun h => isFree_range h.1) fun h => isFree_range h.1

theorem dummies_rename (hρ : Function.Injective ρ) {e : Expr} {ks : List String} (hk : ks.Nodup ∧ ∀ k, k ∈ ks ↔ IsDummy k e) : (ks.map ρ).Nodup ∧ ∀ j, j ∈ ks.map ρ ↔ IsDummy j (e.rename ρ) := by
  refine ⟨hk.1.map hρ, fun j => ⟨fun h => ?_, fun h => ?_⟩⟩
  · obtain ⟨k, h', rfl⟩ := List.mem_map.1 h
    exact (isDummy_rename hρ k e).2 ((hk.2 k).1 h')
  · obtain ⟨k, rfl⟩ := isDummy_range h
    exact List.mem_map_of_mem ((hk.2 k).2 ((isDummy_rename hρ k e).1 h))

theorem sumOver_rename (hρ : Function.Injective ρ) (ks : List String) (f : (String → ℕ) → R) (env : String → ℕ) : sumOver n (ks.map ρ) (fun env => f (env ∘ ρ)) env = sumOver n ks f (env ∘ ρ) := by
  induction ks generalizing env with
  | nil => rfl
  | cons k ks ih => simp only [List.map_cons, sumOver, ih, Function.update_comp_eq_of_injective _ hρ]

/-- C92: with other letters for the indices, different ones for different ones, an expression has the same value. -/
theorem C92_renaming (hρ : Function.Injective ρ) {e : Expr} {x : (String → ℕ) → R} (h : Value m n e x) : Value m n (e.rename ρ) fun env => x (env ∘ ρ) := by
  have key : ∀ {e : Expr} {f g : (String → ℕ) → R}, f = g → Value m n e f → Value m n e g := fun h hv => h ▸ hv
  induction h with
  | term b idx ks hk =>
    refine key (funext fun env => ?_) (Value.term (m := m) (n := n) b (idx.map ρ) (ks.map ρ) (dummies_rename hρ hk))
    rw [← sumOver_rename hρ]
    simp only [List.map_map]
  | add _ _ iha ihb => exact .add iha ihb
  | mul ks hk _ _ iha ihb => exact key (funext fun env => sumOver_rename hρ ks _ env) (.mul (ks.map ρ) (dummies_rename hρ hk) iha ihb)
  | fn ks hk _ _ iha ihb => exact key (funext fun env => sumOver_rename hρ ks _ env) (.fn (ks.map ρ) (dummies_rename hρ hk) iha ihb)
  | fn3 ks hk _ _ _ iha ihb ihc => exact key (funext fun env => sumOver_rename hρ ks _ env) (.fn3 (ks.map ρ) (dummies_rename hρ hk) iha ihb ihc)

end OpenSBLI.Ein

namespace OpenSBLI.Note
open OpenSBLI.Ein OpenSBLI.Sim

variable {D n : ℕ} {ρ : String → String}

/-- C92: the right hand sides of a system of equations do not depend on the letters of the indices. -/
theorem C92_letters (hρ : Function.Injective ρ) {r : Reading} {I : Interp D} {m : Mem D} {eqs : List (Expr × Expr)} {sol : Fin n → String} {F : Fin n → P D → ℝ} (h : RightSides r I m eqs sol F) :
    RightSides r I m (eqs.map fun eq => (eq.1.rename ρ, eq.2.rename ρ)) sol F := by
  refine ⟨fun eq heq => ?_, fun i => ?_⟩
  · obtain ⟨eq, heq', rfl⟩ := List.mem_map.1 heq
    obtain ⟨b, idx, e1, y, hy, hc⟩ := h.1 eq heq'
    refine ⟨b, idx.map ρ, by simp only [e1, Expr.rename, List.map_nil], _, C92_renaming hρ hy, fun env henv => ?_⟩
    rw [List.map_map]
    exact hc (env ∘ ρ) fun k => henv _
  · obtain ⟨eq, heq, b, idx, y, env, e1, hy, e2, e3, e4⟩ := h.2 i
    have hinv : (env ∘ Function.invFun ρ) ∘ ρ = env := funext fun k => congrArg env (Function.leftInverse_invFun hρ k)
    refine ⟨_, List.mem_map.2 ⟨eq, heq, rfl⟩, b, idx.map ρ, _, env ∘ Function.invFun ρ, by simp only [e1, Expr.rename, List.map_nil], C92_renaming hρ hy, fun k => e2 _, ?_, ?_⟩
    · rw [List.map_map, hinv, e3]
    · rw [hinv, e4]

/-- A rotation of the letters. -/
def rotate (s : String) : String := if s = "i" then "j" else if s = "j" then "k" else if s = "k" then "i" else s

/-- It gives different letters for different ones. -/
theorem rotate_injective : Function.Injective rotate := by
  intro a b h
  unfold rotate at h
  split_ifs at h <;> simp_all

/-- The divergence, with another letter. -/
example : (Expr.fn "Der" (.term "rhou" ["j"]) (.term "x" ["j"])).rename rotate = .fn "Der" (.term "rhou" ["k"]) (.term "x" ["k"]) := rfl

/-- C92: the names of constants do depend on them. A constant declared as `c_j`, as in apps/wave, is a constant in `c_j*Der(phi,x_j)`, but in `c_k*Der(phi,x_k)` it is read as data. -/
theorem C92_constant_letters_not_free : ¬ ∀ (coordinate time : String) (loc glob : List String) (b i j : String), Parse.classify coordinate time ((b ++ "_" ++ j) :: loc) glob (b ++ "_" ++ i) = Parse.classify coordinate time ((b ++ "_" ++ j) :: loc) glob (b ++ "_" ++ j) := by
  intro h
  exact absurd (h "x" "t" [] [] "c" "k" "j") (by decide +kernel)

end OpenSBLI.Note
