import Verif.Model.V3

/-!
# Nodes (`src/node.h`)
-/

namespace Verif

/-- `Nodes::dataNode`, node.h:47-53. -/
structure DataNode where
  u : V3
  v : V3
  phi : ℝ
  phiv : ℝ

/-- `Nodes::Node`, node.h:59-70. `cur`, `next` are `d[CURRENT]`, `d[NEXT]` (node.h:25-29). -/
structure Node where
  p : V3
  ep : V3
  eq : V3
  cur : DataNode
  next : DataNode

namespace Node

open Classical in
/-- `d[CURRENT].u.cwiseAbs().minCoeff(&minIdx)`, node.h:77 (first index of the smallest modulus). -/
noncomputable def minIdx (u : V3) : Fin 3 :=
  if |u.x| ≤ |u.y| ∧ |u.x| ≤ |u.z| then 0
  else if |u.y| ≤ |u.z| then 1 else 2

/-- The vector `ep` before the random rotation, node.h:78-81. -/
noncomputable def basisEp (u : V3) : V3 :=
  let e := V3.unit (minIdx u)
  (e - (e.dot u) * u).normalize

/-- `Node::setBasis(r)`, node.h:73-102 with `PARANOID_ORTHONORMALIZATION` false
(config.h.in:56). -/
noncomputable def setBasis (r : ℝ) (n : Node) : Node :=
  let ep := basisEp n.cur.u
  let eq := n.cur.u.cross ep
  let newEp := Real.cos r * ep - Real.sin r * eq
  let newEq := Real.sin r * ep + Real.cos r * eq
  { n with ep := newEp, eq := newEq }

/-- `Node::setBasis(r)` when compiled with `PARANOID_ORTHONORMALIZATION` true: the same followed by
the modified Gram-Schmidt orthonormalization of node.h:93-101. -/
noncomputable def setBasisParanoid (r : ℝ) (n : Node) : Node :=
  let m := n.setBasis r
  let u := n.cur.u
  let ep := (m.ep - (m.ep.dot u) * u).normalize
  let eq1 := m.eq - (m.eq.dot u) * u
  let eq2 := (eq1 - (eq1.dot ep) * ep).normalize
  { m with ep := ep, eq := eq2 }

/-- `Node::evolution`, node.h:107. -/
def evolution (n : Node) : Node := { n with cur := n.next }

/-- `Node::make_evol(vp, vq, dt)`, node.h:116-122. -/
noncomputable def makeEvol (vp vq dt : ℝ) (n : Node) : Node :=
  let v := vp * n.ep + vq * n.eq
  let u := (n.cur.u + dt * v).normalize
  { n with next := { n.next with v := v, u := u } }

/-- `proj_ep`, node.h:125 -/
def projEp (n : Node) : ℝ := n.next.v.dot n.ep

/-- `proj_eq`, node.h:128 -/
def projEq (n : Node) : ℝ := n.next.v.dot n.eq

end Node
end Verif
