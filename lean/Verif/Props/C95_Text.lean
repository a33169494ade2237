import Verif.Props.C94_TaylorGreen
import Verif.Props.C95_Grammar

/-!
# C95: the texts of the application files
-/
namespace OpenSBLI.Source

/-- What names mean in an application with these constants, parsing.py 389-401. -/
def namesOf (constants : List String) : Names := ⟨"x", "t", constants ++ ["Der", "Conservative", "Skew", "KD", "LC", "Dot", "Eq"], []⟩

namespace Tgv

/-- Lines 18-19 of apps/taylor_green_vortex/taylor_green_vortex.py. -/
def substitutions : List String :=
  ["Eq(tau_i_j, (1.0/Re)*(Der(u_i,x_j)+ Der(u_j,x_i)- (2/3)* KD(_i,_j)* Der(u_k,x_k)))",
   "Eq(q_j, (1.0/((gama-1)*Minf*Minf*Pr*Re))*Der(T,x_j))"]

/-- Lines 13-15. -/
def conservation : List String :=
  ["Eq(Der(rho,t), - Skew(rho*u_j,x_j))",
   "Eq(Der(rhou_i,t) , - Skew(rhou_i*u_j, x_j) - Der(p,x_i)  + Der(tau_i_j,x_j))",
   "Eq(Der(rhoE,t), - Skew(rhoE*u_j,x_j) - Conservative(p*u_j,x_j) + Der(q_j,x_j) + Der(u_i*tau_i_j ,x_j))"]

/-- Lines 30-32. -/
def relations : List String :=
  ["Eq(u_i, rhou_i/rho)",
   "Eq(p, (gama-1)*(rhoE - rho*(1/2)*(KD(_i,_j)*u_i*u_j)))",
   "Eq(T, p*gama*Minf*Minf/(rho))"]

/-- Line 24. -/
def names : Names := namesOf ["Re", "Pr", "gama", "Minf", "mu"]

/-- C95: the texts of the file are read as the equations whose program C94 is about. -/
theorem C95_equations : (equations names id substitutions conservation).bind (Note.equations OpenSBLI.Tgv.rd id Note.advanced) = some (List.ofFn fun i => (OpenSBLI.Tgv.sol i, OpenSBLI.Tgv.rhs i)) := by decide +kernel

/-- C95: and the texts of the relations. -/
theorem C95_relations : (equations names id substitutions relations).bind (Note.equations OpenSBLI.Tgv.rd id Note.defined) = some OpenSBLI.Tgv.rel := by decide +kernel

end Tgv

/-- C95: the text of apps/wave/wave.py, line 11, with its constant `c_j`, is the equation whose program C92_wave is about. -/
theorem C95_wave : equations (namesOf ["c_j"]) id [] ["Eq(Der(phi,t), -c_j*Der(phi,x_j))"] = some [Note.waveEquation] := by with_unfolding_all rfl

/-- What stands behind the minus sign: the arguments after the first of `Conservative`. -/
def conservativeArgs : Parse.Expr → Option (List String)
  | .mul (.num q) (.user .conservative _ v) => if q = -1 then some v else none
  | _ => none

/-- The Euler equations of apps/euler_wave/euler_wave.py, lines 9-16: each text is an equation, and its derivative is that along `x_j` with the scheme that is written. -/
example : ∀ text ∈ ["Eq(Der(rho,t), - Conservative(rhou_j,x_j,**{'scheme':'Weno'}))", "Eq(Der(rhou_i,t) , -Conservative(rhou_i*u_j + KD(_i,_j)*p,x_j , **{'scheme':'Weno'})  )",
    "Eq(Der(rhoE,t), - Conservative((p+rhoE)*u_j,x_j, **{'scheme':'Weno'})  )"], (equation (namesOf ["gama"]) text).bind (conservativeArgs ·.2) = some ["x_j", "Weno"] := by
  decide +kernel

/-- Differences group to the left, powers to the right; a minus sign comes after a power; calls and parentheses are closed. -/
example : read "a - b - c" = some (.bin .sub (.bin .sub (.name "a") (.name "b")) (.name "c")) ∧ read "-a**2" = some (.neg (.bin .pow (.name "a") (.num 2))) ∧
    read "a**-b**c" = some (.bin .pow (.name "a") (.neg (.bin .pow (.name "b") (.name "c")))) ∧ read "p/(2*q)*r" = some (.bin .mul (.bin .div (.name "p") (.bin .mul (.num 2) (.name "q"))) (.name "r")) ∧
    read "f(a, (b)" = none ∧ read "a b" = none ∧ read "a + * b" = none := by
  refine ⟨?_, ?_, ?_, ?_, ?_, ?_, ?_⟩ <;> with_unfolding_all rfl

/-- A text as C95_read wants it, with a decimal number and a power: `T ** 0.5 * ( a + b )`. -/
example : read "T ** 0.5 * ( a + b ) " = some (.bin .mul (.bin .pow (.name "T") (.num (1/2))) (.bin .add (.name "a") (.name "b"))) := by
  refine C95_read (ts := [.name "T", .op .pow, .num (1/2), .op .mul, .lpar, .name "a", .op .add, .name "b", .rpar]) ?_ ?_
  · have name : ∀ c : Char, (c.isAlpha || c = '_') = true → Written (.name (String.ofList [c])) [c] := fun c hc => .name hc (by simp)
    exact .token (name 'T' rfl) (.token .pow (.token (.num (c := '0') (s := ['.', '5']) rfl (by decide) (by decide +kernel)) (.token .mul (.token .lpar (.token (name 'a' rfl) (.token .add (.token (name 'b' rfl) (.token .rpar .nil))))))))
  · exact .bin (ts := [_, _, _]) (by decide) (.bin (ts := [_]) (by decide) (.name _) (.num _)) (.paren (.bin (ts := [_]) (by decide) (.name _) (.name _)))

end OpenSBLI.Source
