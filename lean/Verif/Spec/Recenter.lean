import Verif.Model.Recenter
import Verif.Spec.Geometry

/-!
# Specification of recentering
-/

namespace Verif.Recenter

/-- the node search returns a nearest node -/
def NearestOk {n : ℕ} (g : Geo n) (nd : Fin n → Node) : Prop :=
  ∀ q i, edist q (nd (g.nearest q)).p ≤ edist q (nd i).p

/-- axis number of the letter -/
inductive Axis : Text.Str → Fin 3 → Prop
  | x : Axis ['X'] 0
  | y : Axis ['Y'] 1
  | z : Axis ['Z'] 2

/-- node `j` is a nearest one to the point `q` -/
def IsNearest {n : ℕ} (nd : Fin n → Node) (q : V3) (j : Fin n) : Prop := ∀ j', edist q (nd j).p ≤ edist q (nd j').p

/-- end points of the axis `k` of the bounding box -/
noncomputable def leftEnd {n : ℕ} (g : Geo n) (k : Fin 3) : V3 := g.c - (1 / 2 * g.l.comp k) * V3.unit k
noncomputable def rightEnd {n : ℕ} (g : Geo n) (k : Fin 3) : V3 := g.c + (1 / 2 * g.l.comp k) * V3.unit k

/-- the magnetization was moved along axis `k` by the distance `D`: every node received the magnetization of a node
nearest to its position shifted along `k`, or to the end of the axis if the shifted position is beyond that end;
positions did not change -/
def MovedAlong {n : ℕ} (g : Geo n) (k : Fin 3) (D : ℝ) (nd nd' : Fin n → Node) : Prop :=
  ∀ i, (nd' i).p = (nd i).p ∧
    (|(nd i).p.comp k + D - g.c.comp k| ≤ 1 / 2 * g.l.comp k →
      ∃ j, IsNearest nd ((nd i).p + D * V3.unit k) j ∧ (nd' i).cur.u = (nd j).next.u) ∧
    ((nd i).p.comp k + D - g.c.comp k > 1 / 2 * g.l.comp k →
      ∃ j, IsNearest nd (rightEnd g k) j ∧ (nd' i).cur.u = (nd j).next.u) ∧
    ((nd i).p.comp k + D - g.c.comp k < -(1 / 2 * g.l.comp k) →
      ∃ j, IsNearest nd (leftEnd g k) j ∧ (nd' i).cur.u = (nd j).next.u)

/-- A recentering along axis `k`: nothing if the average along `k` is below the threshold; otherwise an error if both
ends of the axis have magnetizations of the same sign; otherwise the magnetization is moved along `k` by the distance
that belongs to the average, towards the side given by the sign at the left end. -/
def RecentersAlong {n : ℕ} (g : Geo n) (thres : ℝ) (k : Fin 3) (nd : Fin n → Node) (r : Result n) : Prop :=
  let m := ∑ i, g.w i * (nd i).next.u.comp k
  (|m| < |thres| → r = .unchanged) ∧
  (¬ |m| < |thres| → ∃ jL jR, IsNearest nd (leftEnd g k) jL ∧ IsNearest nd (rightEnd g k) jR ∧
    (0 < (nd jL).next.u.comp k * (nd jR).next.u.comp k → r = .noWall) ∧
    (¬ 0 < (nd jL).next.u.comp k * (nd jR).next.u.comp k →
      ∃ nd', r = .shifted nd' ∧ MovedAlong g k (m * (1 / 2 * g.l.comp k) * (nd jL).next.u.comp k) nd nd'))

end Verif.Recenter
