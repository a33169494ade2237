import Verif.Props.C94_Skew
import Verif.Props.C92_Apps
import Verif.Model.FrontEnd
import Verif.Lemmas.Listing
import Verif.Spec.NavierStokes

/-!
# C94: the equations of the Taylor-Green vortex

`apps/taylor_green_vortex/taylor_green_vortex.py`, from its equations as strings to the right hand sides of the simulation: substitution of stresses and heat flux, differentiation of the products, expansion of the indices, and what the result means.
-/
namespace OpenSBLI.Tgv
open OpenSBLI OpenSBLI.Sim OpenSBLI.Note

/-! ## The equations as written -/

abbrev Written := Parse.Expr

def d (s : String) : Written := .data s
def c (s : String) : Written := .const s
def minus (e : Written) : Written := .mul (.num (-1)) e
/-- `1/e`. -/
def inv (e : Written) : Written := .app "**-1" e
def der (e : Written) (v : List String) : Written := .user .der e (Parse.setArgs "t" none v)
def cons (e : Written) (v : List String) : Written := .user .conservative e (Parse.setArgs "t" none v)
/-- `Skew` writes its three parts when it is constructed. -/
def skw (e : Written) (v : List String) : Written := match Parse.skew "t" none e v with | .ok r => r | .error _ => .bad

/-- `Eq(tau_i_j, (1.0/Re)*(Der(u_i,x_j)+ Der(u_j,x_i)- (2/3)* KD(_i,_j)* Der(u_k,x_k)))`, line 18. -/
def stress : String × Written :=
  ("tau_i_j", .mul (inv (c "Re")) (.add (.add (der (d "u_i") ["x_j"]) (der (d "u_j") ["x_i"])) (minus (.mul (.mul (.num (2/3)) (c "KD(_i,_j)")) (der (d "u_k") ["x_k"])))))

/-- `Eq(q_j, (1.0/((gama-1)*Minf*Minf*Pr*Re))*Der(T,x_j))`, line 19. -/
def heat : String × Written :=
  ("q_j", .mul (inv (.mul (.mul (.mul (.mul (.add (c "gama") (.num (-1))) (c "Minf")) (c "Minf")) (c "Pr")) (c "Re"))) (der (d "T") ["x_j"]))

/-- `Eq(Der(rho,t), - Skew(rho*u_j,x_j))`, line 13. -/
def mass : Written × Written := (der (d "rho") ["t"], minus (skw (.mul (d "rho") (d "u_j")) ["x_j"]))

/-- `Eq(Der(rhou_i,t) , - Skew(rhou_i*u_j, x_j) - Der(p,x_i)  + Der(tau_i_j,x_j))`, line 14. -/
def momentum : Written × Written :=
  (der (d "rhou_i") ["t"], .add (.add (minus (skw (.mul (d "rhou_i") (d "u_j")) ["x_j"])) (minus (der (d "p") ["x_i"]))) (der (d "tau_i_j") ["x_j"]))

/-- `Eq(Der(rhoE,t), - Skew(rhoE*u_j,x_j) - Conservative(p*u_j,x_j) + Der(q_j,x_j) + Der(u_i*tau_i_j ,x_j))`, line 15. -/
def energy : Written × Written :=
  (der (d "rhoE") ["t"], .add (.add (.add (minus (skw (.mul (d "rhoE") (d "u_j")) ["x_j"])) (minus (cons (.mul (d "p") (d "u_j")) ["x_j"]))) (der (d "q_j") ["x_j"])) (der (.mul (d "u_i") (d "tau_i_j")) ["x_j"]))

/-- `Eq(u_i, rhou_i/rho)`, line 30. -/
def velocity : Written × Written := (d "u_i", .mul (d "rhou_i") (inv (d "rho")))

/-- `Eq(p, (gama-1)*(rhoE - rho*(1/2)*(KD(_i,_j)*u_i*u_j)))`, line 31. -/
def pressure : Written × Written :=
  (d "p", .mul (.add (c "gama") (.num (-1))) (.add (d "rhoE") (minus (.mul (.mul (d "rho") (.num (1/2))) (.mul (.mul (c "KD(_i,_j)") (d "u_i")) (d "u_j"))))))

/-- `Eq(T, p*gama*Minf*Minf/(rho))`, line 32. -/
def temperature : Written × Written := (d "T", .mul (.mul (.mul (.mul (d "p") (c "gama")) (c "Minf")) (c "Minf")) (inv (d "rho")))

/-- The equations, lines 40-50. -/
def system : List (Written × Written) := [mass, momentum, energy]

/-- The relations, lines 52-65. -/
def gasLaws : List (Written × Written) := [velocity, pressure, temperature]

/-- Lines 24 and 27. -/
def rd : Reading := reading ["Re", "Pr", "gama", "Minf", "mu"]

/-! ## The equations of the simulation -/

abbrev E := Ex 3

def dat (s : String) : E := .arr (.data s)
def u (i : Fin 3) : E := dat (![ "u0", "u1", "u2" ] i)
def rhou (i : Fin 3) : E := dat (![ "rhou0", "rhou1", "rhou2" ] i)
def sum3 (f : Fin 3 → E) : E := .add (.add (f 0) (f 1)) (f 2)

/-- Minus the three parts of `Skew`. -/
def convection (a : E) : E :=
  .add (sum3 fun j => .mul (.num (-1/2)) (.cd j 1 (.mul a (u j))))
    (.add (sum3 fun j => .mul (.num (-1/2)) (.mul (u j) (.cd j 1 a))) (.mul (.num (-1/2)) (.mul a (sum3 fun j => .cd j 1 (u j)))))

def mixed (i j : Fin 3) (e : E) : E := if i = j then .cd i 2 e else .cd (max i j) 1 (.cd (min i j) 1 e)
def invRe : E := .pow (.const "Re") (.num (-1))

/-- The derivatives of the stresses. -/
def friction (i : Fin 3) : E :=
  .mul invRe (.add (.add (sum3 fun j => mixed j j (u i)) (sum3 fun j => mixed i j (u j))) (sum3 fun k => .mul (.num (-2/3)) (mixed k i (u k))))

def tau (i j : Fin 3) : E :=
  .mul invRe (if i = j then .add (.add (.cd j 1 (u i)) (.cd i 1 (u j))) (sum3 fun k => .mul (.num (-2/3)) (.cd k 1 (u k))) else .add (.cd j 1 (u i)) (.cd i 1 (u j)))

def invHeat : E := .pow (.mul (.mul (.mul (.mul (.add (.const "gama") (.num (-1))) (.const "Minf")) (.const "Minf")) (.const "Pr")) (.const "Re")) (.num (-1))

/-- The right hand side for the momentum. -/
def momentumRhs (i : Fin 3) : E := .add (.add (convection (rhou i)) (.mul (.num (-1)) (.cd i 1 (dat "p")))) (friction i)

/-- The right hand side for the energy. -/
def energyRhs : E :=
  .add (.add (.add (convection (dat "rhoE")) (sum3 fun j => .mul (.num (-1)) (.cd j 1 (.mul (dat "p") (u j))))) (.mul invHeat (sum3 fun j => .cd j 2 (dat "T"))))
    (.add (sum3 fun j => sum3 fun i => .mul (.cd j 1 (u i)) (tau i j)) (sum3 fun i => .mul (u i) (friction i)))

def sol : Fin 5 → String := ![ "rho", "rhou0", "rhou1", "rhou2", "rhoE" ]

def rhs : Fin 5 → E := ![convection (dat "rho"), momentumRhs 0, momentumRhs 1, momentumRhs 2, energyRhs]

def relVelocity (i : Fin 3) : E := .mul (rhou i) (.pow (dat "rho") (.num (-1)))
def relPressure : E := .mul (.add (.const "gama") (.num (-1))) (.add (dat "rhoE") (.mul (.num (-1)) (.mul (.mul (.num (1/2)) (dat "rho")) (sum3 fun i => .mul (u i) (u i)))))
def relTemperature : E := .mul (.mul (.mul (.mul (dat "p") (.const "gama")) (.const "Minf")) (.const "Minf")) (.pow (dat "rho") (.num (-1)))

def rel : List (String × E) := [("u0", relVelocity 0), ("u1", relVelocity 1), ("u2", relVelocity 2), ("p", relPressure), ("T", relTemperature)]

/-- The equations of the file with indices. -/
def eqs : Option (List (Ein.Expr × Ein.Expr)) := Front.equations "t" id [stress, heat] system

/-- The relations of the file with indices. -/
def rels : Option (List (Ein.Expr × Ein.Expr)) := Front.equations "t" id [stress, heat] gasLaws

/-- C94: the five equations into which the three equations of the file are expanded. -/
theorem C94_equations : eqs.bind (Note.equations rd id Note.advanced) = some (List.ofFn fun i => (sol i, rhs i)) := by decide +kernel

/-- C94: and the five relations. -/
theorem C94_relations : rels.bind (Note.equations rd id Note.defined) = some rel := by decide +kernel

/-! ## The simulation -/

/-- The simulation of the file with `N d` points in direction `d`. -/
def tgv (N : Fin 3 → ℤ) : Setup 3 5 := listing N 4 sol rhs rel 0 ["rho", "rhou0", "rhou1", "rhou2", "rhoE"]

theorem tgv_valid (N : Fin 3 → ℤ) : (tgv N).Valid :=
  (checks_listing (np := fun _ => 0) (by decide +kernel)).valid (listing_listed _ _ _ _ _ _ _)

/-- The order of the relations. -/
theorem tgv_order (N : Fin 3 → ℤ) : ∃ order, (tgv N).relOrder = .ok order := by
  have h : ((tgv fun _ => 0).relOrder).isOk = true := by decide +kernel
  have e : (tgv N).relOrder = (tgv fun _ => 0).relOrder := rfl
  rw [e]
  cases h' : (tgv fun _ => 0).relOrder with
  | ok o => exact ⟨o, rfl⟩
  | error _ => rw [h'] at h; cases h

theorem tgv_spatial (N : Fin 3 → ℤ) : ∃ ks, (tgv N).spatial = .ok ks := by
  obtain ⟨order, h⟩ := tgv_order N
  unfold Setup.spatial Setup.relKernels
  rw [h]
  exact ⟨_, rfl⟩

theorem tgv_closed (N : Fin 3 → ℤ) : Closed (tgv N) := by
  have h1 : ∀ i, ∀ s ∈ (rhs i).datas, s ∈ rel.map Prod.fst ++ List.ofFn sol := by decide +kernel
  have h2 : ∀ r ∈ rel, ∀ s ∈ r.2.datas, s ∈ rel.map Prod.fst ++ List.ofFn sol := by decide +kernel
  have h3 : ∀ s ∈ rel.map Prod.fst, ((tgv fun _ => 0).relation s).isSome := by decide +kernel
  have key : ∀ s, s ∈ rel.map Prod.fst ++ List.ofFn sol → ((tgv N).relation s).isSome ∨ ∃ i, s = (tgv N).sol i := by
    intro s hs
    rcases List.mem_append.1 hs with h | h
    · exact .inl (h3 s h)
    · obtain ⟨i, rfl⟩ := (List.mem_ofFn' _ _).1 h
      exact .inr ⟨i, rfl⟩
  rintro s (⟨i, hi⟩ | ⟨t, e, ht, hs⟩)
  · exact key s (h1 i s hi)
  · exact key s (h2 (t, e) ((relation_iff (tgv_valid N).relNodup t e).1 ht) s hs)

theorem tgv_required (N : Fin 3 → ℤ) : ∀ s ∈ rel.map Prod.fst, (tgv N).required s := by
  intro s hs
  refine ((tgv_valid N).listed.keysMem s).1 ?_
  have h : ∀ s ∈ rel.map Prod.fst, s ∈ requiredKeys rhs := by decide +kernel
  rw [tgv, listing_keys]
  exact h s hs

/-! ## What the right hand sides mean -/

open Polynomial in
/-- Order 4, second derivative: the textbook weights `-1/12, 4/3, -5/2, 4/3, -1/12`. -/
theorem second_weights : Central.weight ℝ 4 2 0 = -5/2 ∧ Central.weight ℝ 4 2 1 = 4/3 ∧ Central.weight ℝ 4 2 2 = -1/12 ∧ Central.weight ℝ 4 2 (-1) = 4/3 ∧ Central.weight ℝ 4 2 (-2) = -1/12 := by
  have hpts : Central.points 4 = {-2, -1, 0, 1, 2} := by decide
  have h0 := Central.weights_exact (K := ℝ) 4 2 (C 1) (by simp)
  have h2 := Central.weights_exact (K := ℝ) 4 2 (X^2) (by simp)
  have h4 := Central.weights_exact (K := ℝ) 4 2 (X^4) (by simp)
  have a1 := Central.C18_parity (K := ℝ) 4 2 1 (by decide)
  have a2 := Central.C18_parity (K := ℝ) 4 2 2 (by decide)
  rw [hpts] at h0 h2 h4
  simp [Finset.sum_insert] at h0 h2 h4
  norm_num at a1 a2
  rw [a1, a2] at h0 h2 h4
  norm_num at h0 h2 h4
  have e1 : Central.weight ℝ 4 2 1 = 4/3 := by linarith
  have e2 : Central.weight ℝ 4 2 2 = -1/12 := by linarith
  refine ⟨by linarith, e1, e2, ?_, ?_⟩
  · rw [a1, e1]
  · rw [a2, e2]

/-- The parameters among the constants of a program. -/
def gasOf (I : Interp 3) : Flow.Gas := ⟨I.const "Re", I.const "Pr", I.const "gama", I.const "Minf"⟩

section
variable {N : Fin 3 → ℤ} {I : Interp 3} {delta : Fin 3 → ℝ}

theorem cd_first (hI : IsCentral (tgv N) I delta) (d : Fin 3) : I.cd d 1 = Flow.first delta d := by
  funext f x
  obtain ⟨w1, w2, w3, w4, w5⟩ := Central.C18_fourth_order_weights (K := ℝ)
  have hpts : Central.points 4 = {-2, -1, 0, 1, 2} := by decide
  rw [central_eval hI]
  change (∑ p ∈ Central.points 4, Central.weight ℝ 4 1 p * f (shift x d p)) * _ = _
  rw [hpts]
  simp only [Flow.first, Flow.step, shift]
  rw [Finset.sum_insert (by decide), Finset.sum_insert (by decide), Finset.sum_insert (by decide), Finset.sum_insert (by decide), Finset.sum_singleton, w1, w2, w3, w4, w5, pow_one]
  by_cases h : delta d = 0
  · simp [h]
  · field_simp
    ring

theorem cd_second (hI : IsCentral (tgv N) I delta) (d : Fin 3) : I.cd d 2 = Flow.second delta d := by
  funext f x
  obtain ⟨w1, w2, w3, w4, w5⟩ := second_weights
  have hpts : Central.points 4 = {-2, -1, 0, 1, 2} := by decide
  rw [central_eval hI]
  change (∑ p ∈ Central.points 4, Central.weight ℝ 4 2 p * f (shift x d p)) * _ = _
  rw [hpts]
  have h0 : shift x d 0 = x := by simp [shift]
  rw [Finset.sum_insert (by decide), Finset.sum_insert (by decide), Finset.sum_insert (by decide), Finset.sum_insert (by decide), Finset.sum_singleton, w1, w2, w3, w4, w5, h0]
  simp only [Flow.second, Flow.step, shift]
  by_cases h : delta d = 0
  · simp [h]
  · field_simp
    ring

variable {init : String → P 3 → ℝ} {q : Sol 3 5} {f : String → P 3 → ℝ}

/-- The datasets of a solution. -/
structure Primitive (I : Interp 3) (q : Sol 3 5) (f : String → P 3 → ℝ) : Prop where
  rho : f "rho" = (Flow.state q).rho
  rhou0 : f "rhou0" = (Flow.state q).mom 0
  rhou1 : f "rhou1" = (Flow.state q).mom 1
  rhou2 : f "rhou2" = (Flow.state q).mom 2
  rhoE : f "rhoE" = (Flow.state q).energy
  u0 : f "u0" = Flow.velocity (Flow.state q) 0
  u1 : f "u1" = Flow.velocity (Flow.state q) 1
  u2 : f "u2" = Flow.velocity (Flow.state q) 2
  p : f "p" = Flow.pressure (gasOf I) (Flow.state q)
  T : f "T" = Flow.temperature (gasOf I) (Flow.state q)

theorem primitive (hpow : ∀ x, I.pow x (-1) = x⁻¹) (hf : Consistent (tgv N) I init q f) : Primitive I q f := by
  have r0 : f "rho" = q 0 := hf.sol 0
  have r1 : f "rhou0" = q 1 := hf.sol 1
  have r2 : f "rhou1" = q 2 := hf.sol 2
  have r3 : f "rhou2" = q 3 := hf.sol 3
  have r4 : f "rhoE" = q 4 := hf.sol 4
  have hr : ∀ s e, (s, e) ∈ rel → ∀ x, f s x = e.eval I (memOf f) x := fun s e h x => hf.rel s e (tgv_required N s (List.mem_map.2 ⟨_, h, rfl⟩)) h x
  have v : ∀ (i : Fin 3) (s : String) (m : P 3 → ℝ), f (![ "rhou0", "rhou1", "rhou2" ] i) = m → (s, relVelocity i) ∈ rel → ∀ x, f s x = m x / q 0 x := by
    intro i s m hm hs x
    rw [hr s _ hs]
    simp only [relVelocity, rhou, dat, Ex.eval, memOf, hm, r0]
    push_cast
    rw [hpow, div_eq_mul_inv]
  have v0 : f "u0" = Flow.velocity (Flow.state q) 0 := funext (v 0 "u0" (q 1) r1 (by simp [rel]))
  have v1 : f "u1" = Flow.velocity (Flow.state q) 1 := funext (v 1 "u1" (q 2) r2 (by simp [rel]))
  have v2 : f "u2" = Flow.velocity (Flow.state q) 2 := funext (v 2 "u2" (q 3) r3 (by simp [rel]))
  have vp : f "p" = Flow.pressure (gasOf I) (Flow.state q) := by
    funext x
    rw [hr "p" relPressure (by simp [rel])]
    simp only [relPressure, dat, u, sum3, Ex.eval, memOf, Matrix.cons_val_zero, Matrix.cons_val_one, Matrix.cons_val, r0, r4, v0, v1, v2, Flow.pressure, Fin.sum_univ_three, gasOf]
    simp only [Flow.state]
    push_cast
    ring
  have vT : f "T" = Flow.temperature (gasOf I) (Flow.state q) := by
    funext x
    rw [hr "T" relTemperature (by simp [rel])]
    simp only [relTemperature, dat, Ex.eval, memOf, r0, vp, Flow.temperature, gasOf]
    simp only [Flow.state]
    push_cast
    rw [hpow]
    ring
  exact ⟨r0, r1, r2, r3, r4, v0, v1, v2, vp, vT⟩

theorem eval_convection (hI : IsCentral (tgv N) I delta) (hf : Primitive I q f) (s : String) (x : P 3) : (convection (dat s)).eval I (memOf f) x = -Flow.skew delta (Flow.state q) (f s) x := by
  simp only [convection, dat, u, sum3, Ex.eval, cd_first hI, Matrix.cons_val_zero, Matrix.cons_val_one, Matrix.cons_val, Flow.skew, Fin.sum_univ_three]
  have m : ∀ t, memOf f (.data t) = f t := fun t => rfl
  simp only [m, hf.u0, hf.u1, hf.u2]
  push_cast
  ring

theorem eval_friction (hI : IsCentral (tgv N) I delta) (hpow : ∀ x, I.pow x (-1) = x⁻¹) (hf : Primitive I q f) (i : Fin 3) (x : P 3) :
    (friction i).eval I (memOf f) x = Flow.friction (gasOf I) delta (Flow.state q) i x := by
  have m : ∀ t, memOf f (.data t) = f t := fun t => rfl
  fin_cases i <;>
  · simp only [friction, invRe, mixed, dat, u, sum3, Fin.isValue, Fin.mk_zero, Fin.mk_one, Fin.reduceFinMk, reduceIte, Fin.reduceEq, max_comm (1 : Fin 3) 0, max_comm (2 : Fin 3) 0, max_comm (2 : Fin 3) 1, min_comm (1 : Fin 3) 0, min_comm (2 : Fin 3) 0, min_comm (2 : Fin 3) 1,
      Ex.eval, cd_first hI, cd_second hI, Matrix.cons_val_zero, Matrix.cons_val_one, Matrix.cons_val, Flow.friction, Flow.mixed, Fin.sum_univ_three, m, hf.u0, hf.u1, hf.u2, gasOf]
    push_cast
    rw [hpow]
    ring

/-- C94: the right hand sides of the simulation, with the values its relations give, are those of the compressible Navier-Stokes equations, written out. -/
theorem C94_navier_stokes (hI : IsCentral (tgv N) I delta) (hpow : ∀ x, I.pow x (-1) = x⁻¹) (hf : Consistent (tgv N) I init q f) (i : Fin 5) (x : P 3) :
    ((tgv N).rhs i).eval I (memOf f) x = Flow.navierStokes (gasOf I) delta q i x := by
  have hF := primitive hpow hf
  have m : ∀ t, memOf f (.data t) = f t := fun t => rfl
  have mom : ∀ k : Fin 3, (momentumRhs k).eval I (memOf f) x = Flow.momentum (gasOf I) delta (Flow.state q) k x := by
    intro k
    have hk : f (![ "rhou0", "rhou1", "rhou2" ] k) = (Flow.state q).mom k := by
      fin_cases k
      exacts [hF.rhou0, hF.rhou1, hF.rhou2]
    simp only [momentumRhs, rhou, Ex.eval, eval_friction hI hpow hF, eval_convection hI hF, hk, Flow.momentum, cd_first hI]
    simp only [dat, Ex.eval, m, hF.p]
    push_cast
    ring
  change (rhs i).eval I (memOf f) x = _
  fin_cases i
  · change (convection (dat "rho")).eval I (memOf f) x = Flow.mass delta (Flow.state q) x
    rw [eval_convection hI hF, hF.rho, Flow.mass]
  · exact mom 0
  · exact mom 1
  · exact mom 2
  · change energyRhs.eval I (memOf f) x = Flow.energy (gasOf I) delta (Flow.state q) x
    simp only [energyRhs, sum3, Ex.eval, eval_friction hI hpow hF, eval_convection hI hF, hF.rhoE, Flow.energy, cd_first hI, cd_second hI, tau, invRe, invHeat, reduceIte, Fin.isValue, Fin.reduceEq, Fin.sum_univ_three, Flow.stress]
    simp only [dat, u, Ex.eval, m, hF.p, hF.T, hF.u0, hF.u1, hF.u2, Matrix.cons_val_zero, Matrix.cons_val_one, Matrix.cons_val]
    push_cast
    simp only [hpow, gasOf]
    ring

end

/-! ## Conservation -/

theorem balanced_convection (s : String) : SkewBalanced (convection (dat s)) := by
  have h : SkewBalanced (Ex.add (sum3 fun j => .mul (.num (-1/2)) (.cd j 1 (.mul (dat s) (u j)))) (sum3 fun j => .mul (.num (-1/2)) (.add (.mul (u j) (.cd j 1 (dat s))) (.mul (dat s) (.cd j 1 (u j)))))) :=
    .add (.flux rfl) (.add (.add (.mul rfl (.skew 0 _ _ rfl rfl)) (.mul rfl (.skew 1 _ _ rfl rfl))) (.mul rfl (.skew 2 _ _ rfl rfl)))
  refine .rearranged ?_ ?_ h
  · simp only [mem_datas, convection, dat, u, sum3, Ex.arrs, List.mem_append, List.mem_singleton]
    tauto
  · intro I m x
    simp only [convection, sum3, Ex.eval]
    push_cast
    ring

theorem balanced_momentum (i : Fin 3) : SkewBalanced (momentumRhs i) := by
  refine .add (.add (balanced_convection _) (.flux rfl)) (.flux ?_)
  fin_cases i <;> rfl

theorem balanced (i : Fin 5) (hi : i ≠ 4) : SkewBalanced (rhs i) := by
  fin_cases i
  · exact balanced_convection "rho"
  · exact balanced_momentum 0
  · exact balanced_momentum 1
  · exact balanced_momentum 2
  · exact absurd rfl hi

end OpenSBLI.Tgv
