/-!
# Specification: evaluation orders and resolvability (independent of the model)
-/
namespace OpenSBLI.Spec

variable {α : Type}

/-- `order` evaluates relations so that each only reads known quantities or quantities evaluated
strictly earlier. -/
def RespectsDeps (known : List α) (rels : List (α × List α)) (order : List α) : Prop :=
  ∀ pre x post, order = pre ++ x :: post →
    ∀ reqs, (x, reqs) ∈ rels → ∀ r ∈ reqs, r ∈ known ∨ r ∈ pre

/-- `x` can be computed from the known quantities through at most `n` layers of relations. -/
inductive ComputableIn (known : List α) (rels : List (α × List α)) : Nat → α → Prop where
  | known {n x} : x ∈ known → ComputableIn known rels n x
  | step {n x reqs} : (x, reqs) ∈ rels → (∀ r ∈ reqs, ComputableIn known rels n r) →
      ComputableIn known rels (n + 1) x

/-- `x` can be computed from the known quantities at all. -/
inductive Computable (known : List α) (rels : List (α × List α)) : α → Prop where
  | known {x} : x ∈ known → Computable known rels x
  | step {x reqs} : (x, reqs) ∈ rels → (∀ r ∈ reqs, Computable known rels r) →
      Computable known rels x

end OpenSBLI.Spec
