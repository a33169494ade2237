import Mathlib.Algebra.Module.Basic
import Mathlib.Algebra.Field.Basic
import Mathlib.Algebra.BigOperators.Fin

/-!
# Specification: explicit Runge-Kutta methods in Butcher form and their order conditions
-/
namespace OpenSBLI.Spec

variable {K : Type} [Field K] {V : Type} [AddCommGroup V] [Module K V]

/-- A Butcher tableau with `s` stages. -/
structure Tableau (K : Type) (s : Nat) where
  A : Fin s → Fin s → K
  b : Fin s → K

namespace Tableau
variable {s : Nat} (T : Tableau K s)

def explicit : Prop := ∀ i j, i ≤ j → T.A i j = 0

/-- `k` are the stage slopes of the method for `u' = F u` from `u`, where stage values are
post-processed by `bc` (the identity for a plain ODE). -/
def IsSlopes (F bc : V → V) (dt : K) (u : V) (k : Fin s → V) : Prop :=
  ∀ i, k i = F (bc (u + dt • ∑ j, T.A i j • k j))

/-- Result of one step. -/
def result (bc : V → V) (dt : K) (u : V) (k : Fin s → V) : V :=
  bc (u + dt • ∑ i, T.b i • k i)

def c (i : Fin s) : K := ∑ j, T.A i j
def Ac (i : Fin s) : K := ∑ j, T.A i j * T.c j
def Ac2 (i : Fin s) : K := ∑ j, T.A i j * T.c j ^ 2
def AAc (i : Fin s) : K := ∑ j, T.A i j * T.Ac j

/-- The order-condition residuals, one for every rooted tree with at most four vertices. -/
def t1 : K := (∑ i, T.b i) - 1
def t2 : K := (∑ i, T.b i * T.c i) - 1/2
def t31 : K := (∑ i, T.b i * T.c i ^ 2) - 1/3
def t32 : K := (∑ i, T.b i * T.Ac i) - 1/6
def t41 : K := (∑ i, T.b i * T.c i ^ 3) - 1/4
def t42 : K := (∑ i, T.b i * T.c i * T.Ac i) - 1/8
def t43 : K := (∑ i, T.b i * T.Ac2 i) - 1/12
def t44 : K := (∑ i, T.b i * T.AAc i) - 1/24

/-- Order three. -/
def Order3 : Prop := T.t1 = 0 ∧ T.t2 = 0 ∧ T.t31 = 0 ∧ T.t32 = 0

end Tableau
end OpenSBLI.Spec
