import Mathlib.Analysis.Real.Sqrt
import Mathlib.LinearAlgebra.Matrix.Notation
import Mathlib.Data.Matrix.Mul
import Mathlib.Data.Matrix.Diagonal

/-!
# Eigensystems of the Euler equations

Model of `/repo/opensbli/physical_models/euler_eigensystem.py`, `EulerEquations.generate_eig_system`
(44-131) followed by `apply_direction` (18-42).  The strings parsed by SymPy are transcribed entry by
entry; the substitution dictionaries (`subs_dict`, `subs_dict2`) are `let` bound abbreviations.
`k0, k1, k2` are the metric terms of the chosen direction (rows of the identity for a grid without
cross metrics, lines 52-56), `k` their Euclidean norm (line 31).  `sqrt(2.0)` is the real `√2`.
-/
namespace OpenSBLI.Euler

noncomputable section

/-! ### One dimension, lines 59-76 -/

/-- `H`, line 61. -/
def H1 (g a u0 : ℝ) : ℝ := a^2/(g-1) + u0^2/2

/-- `ev`, line 64. -/
def ev1 (a u0 : ℝ) : Fin 3 → ℝ := ![u0-a, u0, u0+a]

/-- `REV`, line 65. -/
def rev1 (g a u0 : ℝ) : Matrix (Fin 3) (Fin 3) ℝ :=
  let H := H1 g a u0
  !![1, 1, 1; u0-a, u0, u0+a; H-u0*a, u0^2/2, H+u0*a]

/-- `LEV`, line 66. -/
def lev1 (g a u0 : ℝ) : Matrix (Fin 3) (Fin 3) ℝ :=
  let H := H1 g a u0
  !![u0*(2*H + a*u0 - u0^2)/(2*a*(2*H - u0^2)), (-H - a*u0 + u0^2/2)/(a*(2*H - u0^2)), 1/(2*H - u0^2);
     2*(H - u0^2)/(2*H - u0^2), 2*u0/(2*H - u0^2), 2/(-2*H + u0^2);
     u0*(-2*H + a*u0 + u0^2)/(2*a*(2*H - u0^2)), (H - a*u0 - u0^2/2)/(a*(2*H - u0^2)), 1/(2*H - u0^2)]

/-! ### Two dimensions, lines 78-104 -/

/-- `k`, line 80 and line 31. -/
def norm2 (k0 k1 : ℝ) : ℝ := Real.sqrt (k0^2 + k1^2)

/-- `ev`, line 91. -/
def ev2 (a u0 u1 k0 k1 : ℝ) : Fin 4 → ℝ :=
  let k := norm2 k0 k1
  let U := k0*u0 + k1*u1
  ![U, U, U + a*k, U - a*k]

/-- `REV`, line 92. -/
def rev2 (g rho a u0 u1 k0 k1 : ℝ) : Matrix (Fin 4) (Fin 4) ℝ :=
  let alpha := rho/(a*Real.sqrt 2)
  let phi_sq := (g-1)*((u0^2 + u1^2)/2)
  let k := norm2 k0 k1
  let k0_t := k0/k
  let k1_t := k1/k
  let theta_t := k0_t*u0 + k1_t*u1
  !![1, 0, alpha, alpha;
     u0, k1_t*rho, alpha*(u0+k0_t*a), alpha*(u0-k0_t*a);
     u1, -k0_t*rho, alpha*(u1+k1_t*a), alpha*(u1-k1_t*a);
     phi_sq/(g-1), rho*(k1_t*u0-k0_t*u1), alpha*((phi_sq+a^2)/(g-1) + a*theta_t),
       alpha*((phi_sq+a^2)/(g-1) - a*theta_t)]

/-- `LEV`, line 93. -/
def lev2 (g rho a u0 u1 k0 k1 : ℝ) : Matrix (Fin 4) (Fin 4) ℝ :=
  let bta := 1/(rho*a*Real.sqrt 2)
  let phi_sq := (g-1)*((u0^2 + u1^2)/2)
  let k := norm2 k0 k1
  let k0_t := k0/k
  let k1_t := k1/k
  let theta_t := k0_t*u0 + k1_t*u1
  !![1-phi_sq/a^2, (g-1)*u0/a^2, (g-1)*u1/a^2, -(g-1)/a^2;
     -(k1_t*u0-k0_t*u1)/rho, k1_t/rho, -k0_t/rho, 0;
     bta*(phi_sq-a*theta_t), bta*(k0_t*a-(g-1)*u0), bta*(k1_t*a-(g-1)*u1), bta*(g-1);
     bta*(phi_sq+a*theta_t), -bta*(k0_t*a+(g-1)*u0), -bta*(k1_t*a+(g-1)*u1), bta*(g-1)]

/-! ### Three dimensions, lines 106-130 -/

/-- `k`, line 108 and line 31. -/
def norm3 (k0 k1 k2 : ℝ) : ℝ := Real.sqrt (k0^2 + k1^2 + k2^2)

/-- `ev`, line 119. -/
def ev3 (a u0 u1 u2 k0 k1 k2 : ℝ) : Fin 5 → ℝ :=
  let k := norm3 k0 k1 k2
  let U := k0*u0 + k1*u1 + k2*u2
  ![U, U, U, U + a*k, U - a*k]

/-- `REV`, line 120. -/
def rev3 (g rho a u0 u1 u2 k0 k1 k2 : ℝ) : Matrix (Fin 5) (Fin 5) ℝ :=
  let alpha := rho/(a*Real.sqrt 2)
  let phi_sq := (g-1)*((u0^2 + u1^2 + u2^2)/2)
  let k := norm3 k0 k1 k2
  let k0_t := k0/k
  let k1_t := k1/k
  let k2_t := k2/k
  let theta_t := k0_t*u0 + k1_t*u1 + k2_t*u2
  !![k0_t, k1_t, k2_t, alpha, alpha;
     k0_t*u0, k1_t*u0-k2_t*rho, k2_t*u0+k1_t*rho, alpha*(u0+k0_t*a), alpha*(u0-k0_t*a);
     k0_t*u1+k2_t*rho, k1_t*u1, k2_t*u1-k0_t*rho, alpha*(u1+k1_t*a), alpha*(u1-k1_t*a);
     k0_t*u2-k1_t*rho, k1_t*u2+k0_t*rho, k2_t*u2, alpha*(u2+k2_t*a), alpha*(u2-k2_t*a);
     k0_t*phi_sq/(g-1) + rho*(k2_t*u1-k1_t*u2), k1_t*phi_sq/(g-1) + rho*(k0_t*u2-k2_t*u0),
       k2_t*phi_sq/(g-1) + rho*(k1_t*u0-k0_t*u1), alpha*((phi_sq+a^2)/(g-1) + theta_t*a),
       alpha*((phi_sq+a^2)/(g-1) - theta_t*a)]

/-- `LEV`, line 121. -/
def lev3 (g rho a u0 u1 u2 k0 k1 k2 : ℝ) : Matrix (Fin 5) (Fin 5) ℝ :=
  let bta := 1/(rho*a*Real.sqrt 2)
  let phi_sq := (g-1)*((u0^2 + u1^2 + u2^2)/2)
  let k := norm3 k0 k1 k2
  let k0_t := k0/k
  let k1_t := k1/k
  let k2_t := k2/k
  let theta_t := k0_t*u0 + k1_t*u1 + k2_t*u2
  !![k0_t*(1-phi_sq/a^2)-(k2_t*u1-k1_t*u2)/rho, k0_t*(g-1)*u0/a^2, k0_t*(g-1)*u1/a^2 + k2_t/rho,
       k0_t*(g-1)*u2/a^2 - k1_t/rho, -k0_t*(g-1)/a^2;
     k1_t*(1-phi_sq/a^2)-(k0_t*u2-k2_t*u0)/rho, k1_t*(g-1)*u0/a^2 - k2_t/rho, k1_t*(g-1)*u1/a^2,
       k1_t*(g-1)*u2/a^2 + k0_t/rho, -k1_t*(g-1)/a^2;
     k2_t*(1-phi_sq/a^2) - (k1_t*u0-k0_t*u1)/rho, k2_t*(g-1)*u0/a^2 + k1_t/rho,
       k2_t*(g-1)*u1/a^2 - k0_t/rho, k2_t*(g-1)*u2/a^2, -k2_t*(g-1)/a^2;
     bta*(phi_sq-theta_t*a), -bta*((g-1)*u0-k0_t*a), -bta*((g-1)*u1-k1_t*a), -bta*((g-1)*u2 - k2_t*a),
       bta*(g-1);
     bta*(phi_sq+theta_t*a), -bta*((g-1)*u0+k0_t*a), -bta*((g-1)*u1+k1_t*a), -bta*((g-1)*u2+k2_t*a),
       bta*(g-1)]

end

end OpenSBLI.Euler
