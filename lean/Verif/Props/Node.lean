import Verif.Proofs.Node
import Verif.Spec.Geometry

/-! Property C37: the local basis of a node; and its consequences for the velocity. -/

namespace Verif.Node

theorem isUnit3_nsq {a : V3} (h : IsUnit3 a) : a.nsq = 1 := by
  unfold IsUnit3 at h; unfold V3.nsq; nlinarith

/-- For a unit magnetization `(u, ep, eq)` is a direct orthonormal basis, whatever the angle; nothing
but the basis changes. -/
theorem C37_tangent_basis (r : ℝ) (n : Node) (hu : IsUnit3 n.cur.u) :
    let m := n.setBasis r
    DirectOrthonormal n.cur.u m.ep m.eq ∧ m.p = n.p ∧ m.cur = n.cur ∧ m.next = n.next := by
  have h := isUnit3_nsq hu
  obtain ⟨h1, h2, h3, h4, h5, h6⟩ := setBasis_spec r n h
  exact ⟨⟨h, h1, h2, h3, h4, h5, h6⟩, rfl, rfl, rfl⟩

/-- The vector that is normalized in the construction has a squared norm of at least 2/3: no division
by zero, and no catastrophic cancellation. -/
theorem C37_no_division_by_zero (u : V3) (hu : IsUnit3 u) :
    let e := V3.unit (minIdx u)
    (2 : ℝ) / 3 ≤ (e - (e.dot u) * u).nsq := basisEp_arg_pos (isUnit3_nsq hu)

theorem normalize_of_unit {a : V3} (h : a.nsq = 1) : a.normalize = a := by
  rw [V3.normalize_of_pos (by rw [h]; norm_num), h]
  ext <;> simp

theorem sub_zero_smul {a b : V3} {k : ℝ} (h : k = 0) : a - k * b = a := by
  ext <;> simp [h]

/-- The optional second orthonormalization does not change the basis. -/
theorem C37_paranoid_same (r : ℝ) (n : Node) (hu : IsUnit3 n.cur.u) :
    n.setBasisParanoid r = n.setBasis r := by
  obtain ⟨h1, h2, h3, h4, h5, -⟩ := setBasis_spec r n (isUnit3_nsq hu)
  unfold setBasisParanoid
  simp only
  have e1 : (n.setBasis r).ep - ((n.setBasis r).ep.dot n.cur.u) * n.cur.u = (n.setBasis r).ep :=
    sub_zero_smul (by rw [V3.dot_comm]; exact h3)
  have e2 : (n.setBasis r).eq - ((n.setBasis r).eq.dot n.cur.u) * n.cur.u = (n.setBasis r).eq :=
    sub_zero_smul h5
  have e3 : (n.setBasis r).eq - ((n.setBasis r).eq.dot (n.setBasis r).ep) * (n.setBasis r).ep =
      (n.setBasis r).eq := sub_zero_smul (by rw [V3.dot_comm]; exact h4)
  rw [e1, normalize_of_unit h1, e2, e3, normalize_of_unit h2]

/-- The velocity built from its two components is tangent to the magnetization, and projecting it on
the basis gives back the components. -/
theorem C37_velocity_components (r vp vq dt : ℝ) (n : Node) (hu : IsUnit3 n.cur.u) :
    let m := (n.setBasis r).makeEvol vp vq dt
    m.next.v.dot n.cur.u = 0 ∧ m.projEp = vp ∧ m.projEq = vq ∧ IsUnit3 m.next.u := by
  obtain ⟨h1, h2, h3, h4, h5, -⟩ := setBasis_spec r n (isUnit3_nsq hu)
  set b := n.setBasis r with hb
  have hcur : b.cur = n.cur := rfl
  refine ⟨?_, ?_, ?_, ?_⟩
  · change (vp * b.ep + vq * b.eq).dot n.cur.u = 0
    rw [V3.dot_add_left, V3.dot_smul_left, V3.dot_smul_left, h5, V3.dot_comm, h3]; ring
  · change (vp * b.ep + vq * b.eq).dot b.ep = vp
    rw [V3.dot_add_left, V3.dot_smul_left, V3.dot_smul_left, ← V3.nsq_eq_dot, h1, V3.dot_comm b.eq, h4]; ring
  · change (vp * b.ep + vq * b.eq).dot b.eq = vq
    rw [V3.dot_add_left, V3.dot_smul_left, V3.dot_smul_left, h4, ← V3.nsq_eq_dot, h2]; ring
  · have hw : n.cur.u.dot (dt * (vp * b.ep + vq * b.eq)) = 0 := by
      rw [V3.dot_smul_right, V3.dot_add_right, V3.dot_smul_right, V3.dot_smul_right, h3, V3.dot_comm, h5]
      ring
    have := (normalize_step (isUnit3_nsq hu) hw).1
    change IsUnit3 (n.cur.u + dt * (vp * b.ep + vq * b.eq)).normalize
    unfold V3.nsq at this
    unfold IsUnit3
    nlinarith

/-- a unit vector with no zero component -/
example : IsUnit3 ⟨2 / 3, -1 / 3, 2 / 3⟩ := by norm_num [IsUnit3]

end Verif.Node
