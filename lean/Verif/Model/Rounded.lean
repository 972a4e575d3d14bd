import Verif.Model.TimeLoop

/-!
# The update of the magnetization in rounded arithmetic

The other models compute with exact reals. Here every arithmetic operation of `Node::setBasis`, `Node::make_evol` (src/node.h:73-122) and
of the end of `LinAlgebra::solve` (src/solver.cpp:74-88) has a relative error: `Rnd ε x y` says that `y` is an acceptable result of an
operation whose exact result is `x` (standard model of floating-point arithmetic; `ε = 2⁻⁵³` for `double`). The models are relations: they
contain every result allowed, with or without fused multiplications and additions (an intermediate result may be exact) and for every order of
the sums of three terms. Not modelled: overflow, underflow, NaN.
-/

namespace Verif.Rounded

/-- `y` is a rounded result of an operation of exact result `x` -/
def Rnd (ε x y : ℝ) : Prop := |y - x| ≤ ε * |x|

/-- the same for each component of a vector -/
def Rnd3 (ε : ℝ) (u v : V3) : Prop := Rnd ε u.x v.x ∧ Rnd ε u.y v.y ∧ Rnd ε u.z v.z

/-- a sum of three numbers, in any order -/
def Sum3 (ε a b c z : ℝ) : Prop :=
  ∃ s, (Rnd ε (a + b) s ∧ Rnd ε (s + c) z) ∨ (Rnd ε (b + c) s ∧ Rnd ε (a + s) z) ∨ (Rnd ε (a + c) s ∧ Rnd ε (s + b) z)

/-- Eigen `dot` -/
def Dot (ε : ℝ) (u v : V3) (z : ℝ) : Prop :=
  ∃ p : V3, Rnd3 ε ⟨u.x * v.x, u.y * v.y, u.z * v.z⟩ p ∧ Sum3 ε p.x p.y p.z z

/-- Eigen `normalize`: `z = squaredNorm(); if (z > 0) *this /= sqrt(z);` -/
def Normalize (ε : ℝ) (v v' : V3) : Prop :=
  ∃ z, Dot ε v v z ∧ ((0 < z ∧ ∃ r, Rnd ε (Real.sqrt z) r ∧ Rnd3 ε ⟨v.x / r, v.y / r, v.z / r⟩ v') ∨ (¬ 0 < z ∧ v' = v))

/-- `a * u + b * v` -/
def Comb (ε a : ℝ) (u : V3) (b : ℝ) (v w : V3) : Prop :=
  ∃ p q : V3, Rnd3 ε (a * u) p ∧ Rnd3 ε (b * v) q ∧ Rnd3 ε (p + q) w

/-- Eigen `cross` -/
def Cross (ε : ℝ) (u v w : V3) : Prop :=
  ∃ p q : V3, Rnd3 ε ⟨u.y * v.z, u.z * v.x, u.x * v.y⟩ p ∧ Rnd3 ε ⟨u.z * v.y, u.x * v.z, u.y * v.x⟩ q ∧ Rnd3 ε (p - q) w

/-- `Node::setBasis(r)`, node.h:73-102 with `PARANOID_ORTHONORMALIZATION` false -/
def SetBasis (ε r : ℝ) (a b : Node) : Prop :=
  let e := V3.unit (Node.minIdx a.cur.u)
  ∃ (d : ℝ) (p t ep eq : V3) (c s : ℝ) (ep' eq' : V3),
    -- lines 80-81
    Dot ε e a.cur.u d ∧ Rnd3 ε (d * a.cur.u) p ∧ Rnd3 ε (e - p) t ∧ Normalize ε t ep ∧
    -- line 84
    Cross ε a.cur.u ep eq ∧
    -- lines 87-89
    Rnd ε (Real.cos r) c ∧ Rnd ε (Real.sin r) s ∧ Comb ε c ep (-s) eq ep' ∧ Comb ε s ep c eq eq' ∧
    b = { a with ep := ep', eq := eq' }

/-- `Node::make_evol(vp, vq, dt)`, node.h:116-122 -/
def MakeEvol (ε vp vq dt : ℝ) (a b : Node) : Prop :=
  ∃ v w m u : V3, Comb ε vp a.ep vq a.eq v ∧ Rnd3 ε (dt * v) w ∧ Rnd3 ε (a.cur.u + w) m ∧ Normalize ε m u ∧
    b = { a with next := { a.next with v := v, u := u } }

variable {n : ℕ}

/-- `updateNode(i, vp, vq, dt)` for the magnetic nodes, solver.cpp:76-87, mesh.h:185-186 -/
def Update (ε gamma0 : ℝ) (mag : Fin n → Bool) (X : Fin n → ℝ × ℝ) (dt : ℝ) (a b : Fin n → Node) : Prop :=
  ∀ i, if mag i = true then
      ∃ vp vq, Rnd ε ((X i).1 * gamma0) vp ∧ Rnd ε ((X i).2 * gamma0) vq ∧ MakeEvol ε vp vq dt (a i) (b i)
    else b i = a i

/-- `v_max`, solver.cpp:74-88, and `dumax = dt * vmax`, time_integration.cpp:216: `v2max` is not below any of the `v2` -/
def DuMax (ε gamma0 : ℝ) (mag : Fin n → Bool) (X : Fin n → ℝ × ℝ) (dt dumax : ℝ) : Prop :=
  ∃ v2max root vmax : ℝ,
    (∀ i, mag i = true → ∃ p q v2, Rnd ε ((X i).1 * (X i).1) p ∧ Rnd ε ((X i).2 * (X i).2) q ∧ Rnd ε (p + q) v2 ∧ v2 ≤ v2max) ∧
    Rnd ε (Real.sqrt v2max) root ∧ Rnd ε (gamma0 * root) vmax ∧ Rnd ε (dt * vmax) dumax

/-- an attempt that fails, or is rejected: `CURRENT` is kept, time_integration.cpp:193-229 -/
def Rejected (ε gamma0 : ℝ) (mag : Fin n → Bool) (a b : Fin n → Node) : Prop :=
  ∃ (r : ℝ) (c : Fin n → Node), (∀ i, mag i = true → SetBasis ε r (a i) (c i)) ∧
    (b = c ∨ ∃ X dt, Update ε gamma0 mag X dt c b)

/-- an attempt that is accepted, time_integration.cpp:193-241: the potentials are set, `NEXT` is copied to `CURRENT`; recentering
(recentering.cpp:122) copies to `CURRENT` the magnetization of other magnetic nodes. -/
def Accepted (ε gamma0 DUMAX : ℝ) (mag : Fin n → Bool) (a b : Fin n → Node) : Prop :=
  ∃ (r : ℝ) (c d : Fin n → Node) (X : Fin n → ℝ × ℝ) (dt dumax : ℝ), (∀ i, mag i = true → SetBasis ε r (a i) (c i)) ∧
    0 < dt ∧ Update ε gamma0 mag X dt c d ∧ DuMax ε gamma0 mag X dt dumax ∧ ¬ DUMAX < dumax ∧
    ∀ i, mag i = true → (b i).next.u = (d i).next.u ∧ ∃ j, mag j = true ∧ (b i).cur.u = (d j).next.u

end Verif.Rounded
