import Verif.Model.Node
import Mathlib.Tactic.Positivity
import Mathlib.Tactic.LinearCombination

/-! Helper lemmas on vectors and nodes. -/

namespace Verif
namespace V3

theorem dot_comm (a b : V3) : a.dot b = b.dot a := by simp only [dot]; ring
theorem nsq_eq_dot (a : V3) : a.nsq = a.dot a := by simp only [dot, nsq]
theorem nsq_nonneg (a : V3) : 0 ≤ a.nsq := by simp only [nsq]; nlinarith [sq_nonneg a.x, sq_nonneg a.y, sq_nonneg a.z]
theorem nsq_smul (k : ℝ) (a : V3) : (k * a).nsq = k ^ 2 * a.nsq := by simp only [nsq, smul_x, smul_y, smul_z]; ring
theorem nsq_neg (a : V3) : (-a).nsq = a.nsq := by simp only [nsq, neg_x, neg_y, neg_z]; ring
theorem nsq_add (a b : V3) : (a + b).nsq = a.nsq + 2 * a.dot b + b.nsq := by
  simp only [nsq, dot, add_x, add_y, add_z]; ring
theorem nsq_sub (a b : V3) : (a - b).nsq = a.nsq - 2 * a.dot b + b.nsq := by
  simp only [nsq, dot, sub_x, sub_y, sub_z]; ring
theorem dot_smul_left (k : ℝ) (a b : V3) : (k * a).dot b = k * a.dot b := by
  simp only [dot, smul_x, smul_y, smul_z]; ring
theorem dot_smul_right (k : ℝ) (a b : V3) : a.dot (k * b) = k * a.dot b := by
  simp only [dot, smul_x, smul_y, smul_z]; ring
theorem dot_add_left (a b c : V3) : (a + b).dot c = a.dot c + b.dot c := by
  simp only [dot, add_x, add_y, add_z]; ring
theorem dot_add_right (a b c : V3) : a.dot (b + c) = a.dot b + a.dot c := by
  simp only [dot, add_x, add_y, add_z]; ring
theorem dot_sub_left (a b c : V3) : (a - b).dot c = a.dot c - b.dot c := by
  simp only [dot, sub_x, sub_y, sub_z]; ring
theorem dot_sub_right (a b c : V3) : a.dot (b - c) = a.dot b - a.dot c := by
  simp only [dot, sub_x, sub_y, sub_z]; ring
theorem dot_cross_self (a b : V3) : a.dot (a.cross b) = 0 := by simp only [dot, cross]; ring
theorem dot_cross_self' (a b : V3) : b.dot (a.cross b) = 0 := by simp only [dot, cross]; ring
theorem nsq_cross (a b : V3) : (a.cross b).nsq = a.nsq * b.nsq - (a.dot b) ^ 2 := by
  simp only [nsq, dot, cross]; ring
theorem cross_cross (a b : V3) : a.cross (a.cross b) = (a.dot b) * a - a.nsq * b := by
  ext <;> simp only [nsq, dot, cross, sub_x, sub_y, sub_z, smul_x, smul_y, smul_z] <;> ring

theorem norm_nonneg (a : V3) : 0 ≤ a.norm := Real.sqrt_nonneg _
theorem norm_sq (a : V3) : a.norm ^ 2 = a.nsq := by
  rw [norm, Real.sq_sqrt a.nsq_nonneg]

theorem normalize_of_pos {a : V3} (h : 0 < a.nsq) : a.normalize = (1 / Real.sqrt a.nsq) * a := by
  simp [normalize, h]

theorem nsq_normalize {a : V3} (h : 0 < a.nsq) : a.normalize.nsq = 1 := by
  rw [normalize_of_pos h, nsq_smul, div_pow, one_pow, Real.sq_sqrt h.le]
  field_simp

theorem normalize_dot {a : V3} (h : 0 < a.nsq) (b : V3) :
    a.normalize.dot b = a.dot b / Real.sqrt a.nsq := by
  rw [normalize_of_pos h, dot_smul_left]; ring

end V3

namespace Node

/-- the component chosen by `minIdx` is at most 1/3 of the squared norm -/
theorem minIdx_sq_le (u : V3) : 3 * ((V3.unit (minIdx u)).dot u) ^ 2 ≤ u.nsq := by
  unfold minIdx
  have key : ∀ a b : ℝ, |a| ≤ |b| → a ^ 2 ≤ b ^ 2 := fun a b h => sq_le_sq.mpr h
  split_ifs with h1 h2
  · have := key _ _ h1.1; have := key _ _ h1.2
    simp only [V3.unit, V3.dot, V3.nsq]; nlinarith
  · have hz := key _ _ h2
    have hx : u.y ^ 2 ≤ u.x ^ 2 := by
      apply key
      by_contra hc; push Not at hc
      exact h1 ⟨hc.le, hc.le.trans h2⟩
    simp only [V3.unit, V3.dot, V3.nsq]; nlinarith
  · push Not at h2
    have hy := key _ _ h2.le
    have hx : u.z ^ 2 ≤ u.x ^ 2 := by
      apply key
      by_contra hc; push Not at hc
      exact h1 ⟨(hc.trans h2).le, hc.le⟩
    simp only [V3.unit, V3.dot, V3.nsq]; nlinarith

theorem unit_nsq (i : Fin 3) : (V3.unit i).nsq = 1 := by
  fin_cases i <;> simp [V3.unit, V3.nsq]

theorem basisEp_arg_pos {u : V3} (hu : u.nsq = 1) :
    (2:ℝ) / 3 ≤ ((V3.unit (minIdx u)) - ((V3.unit (minIdx u)).dot u) * u).nsq := by
  rw [V3.nsq_sub, unit_nsq, V3.dot_smul_right, V3.nsq_smul, hu]
  have := minIdx_sq_le u
  rw [hu] at this
  nlinarith

theorem basisEp_nsq {u : V3} (hu : u.nsq = 1) : (basisEp u).nsq = 1 :=
  V3.nsq_normalize (by have := basisEp_arg_pos hu; linarith)

theorem basisEp_dot {u : V3} (hu : u.nsq = 1) : (basisEp u).dot u = 0 := by
  have hpos := basisEp_arg_pos hu
  rw [basisEp, V3.normalize_dot (by linarith), V3.dot_sub_left, V3.dot_smul_left,
    ← V3.nsq_eq_dot, hu]
  simp

end Node
end Verif

namespace Verif.Node

theorem rotate_orthonormal {u e : V3} (hu : u.nsq = 1) (he : e.nsq = 1) (hd : e.dot u = 0) (c s : ℝ)
    (hcs : c ^ 2 + s ^ 2 = 1) :
    let ep := c * e - s * (u.cross e)
    let eq := s * e + c * (u.cross e)
    ep.nsq = 1 ∧ eq.nsq = 1 ∧ u.dot ep = 0 ∧ ep.dot eq = 0 ∧ eq.dot u = 0 ∧ u.cross ep = eq := by
  have hd' : u.dot e = 0 := by rw [V3.dot_comm]; exact hd
  have hq : (u.cross e).nsq = 1 := by rw [V3.nsq_cross, hu, he, hd']; ring
  have heq : e.dot (u.cross e) = 0 := V3.dot_cross_self' _ _
  have huq : u.dot (u.cross e) = 0 := V3.dot_cross_self _ _
  have hqe : (u.cross e).dot e = 0 := by rw [V3.dot_comm]; exact heq
  have hqu : (u.cross e).dot u = 0 := by rw [V3.dot_comm]; exact huq
  have hcc : u.cross (u.cross e) = (-1 : ℝ) * e := by
    rw [V3.cross_cross, hd', hu]
    ext <;> simp
  refine ⟨?_, ?_, ?_, ?_, ?_, ?_⟩
  · rw [V3.nsq_sub, V3.nsq_smul, V3.nsq_smul, V3.dot_smul_left, V3.dot_smul_right, heq, hq, he]
    linarith
  · rw [V3.nsq_add, V3.nsq_smul, V3.nsq_smul, V3.dot_smul_left, V3.dot_smul_right, heq, hq, he]
    linarith
  · rw [V3.dot_sub_right, V3.dot_smul_right, V3.dot_smul_right, hd', huq]; ring
  · rw [V3.dot_add_right, V3.dot_sub_left, V3.dot_sub_left]
    simp only [V3.dot_smul_left, V3.dot_smul_right, heq, hqe, ← V3.nsq_eq_dot, hq, he]; ring
  · rw [V3.dot_add_left, V3.dot_smul_left, V3.dot_smul_left, hd, hqu]; ring
  · have hlin : u.cross (c * e - s * (u.cross e)) = c * (u.cross e) - s * (u.cross (u.cross e)) := by
      ext <;> simp only [V3.cross, V3.sub_x, V3.sub_y, V3.sub_z, V3.smul_x, V3.smul_y, V3.smul_z] <;>
        ring
    rw [hlin, hcc]
    ext <;> simp <;> ring

theorem setBasis_spec (r : ℝ) (n : Node) (hu : n.cur.u.nsq = 1) :
    let m := n.setBasis r
    m.ep.nsq = 1 ∧ m.eq.nsq = 1 ∧ n.cur.u.dot m.ep = 0 ∧ m.ep.dot m.eq = 0 ∧ m.eq.dot n.cur.u = 0 ∧
      n.cur.u.cross m.ep = m.eq := by
  have := rotate_orthonormal hu (basisEp_nsq hu) (basisEp_dot hu) (Real.cos r) (Real.sin r)
    (by rw [add_comm]; exact Real.sin_sq_add_cos_sq r)
  exact this

/-- squared norm of the velocity in an orthonormal tangent basis -/
theorem nsq_tangent {ep eq : V3} (h1 : ep.nsq = 1) (h2 : eq.nsq = 1) (h3 : ep.dot eq = 0) (a b : ℝ) :
    (a * ep + b * eq).nsq = a ^ 2 + b ^ 2 := by
  rw [V3.nsq_add, V3.nsq_smul, V3.nsq_smul, V3.dot_smul_left, V3.dot_smul_right, h1, h2, h3]; ring

theorem normalize_step {u w : V3} (hu : u.nsq = 1) (hw : u.dot w = 0) :
    (u + w).normalize.nsq = 1 ∧ ((u + w).normalize - u).nsq ≤ w.nsq := by
  have hn : (u + w).nsq = 1 + w.nsq := by rw [V3.nsq_add, hu, hw]; ring
  have hw0 := w.nsq_nonneg
  have hpos : 0 < (u + w).nsq := by rw [hn]; linarith
  refine ⟨V3.nsq_normalize hpos, ?_⟩
  rw [V3.nsq_sub, V3.nsq_normalize hpos, V3.normalize_dot hpos, hu, V3.dot_add_left, ← V3.nsq_eq_dot,
    hu, V3.dot_comm w u, hw]
  set s := Real.sqrt (u + w).nsq with hs
  have hs2 : s ^ 2 = 1 + w.nsq := by rw [hs, Real.sq_sqrt hpos.le, hn]
  have hs0 : 0 < s := Real.sqrt_pos.mpr hpos
  have hs1 : 1 ≤ s := by nlinarith
  have hinv : (1 + 0) / s = 1 / s := by ring
  rw [hinv]
  have h2 : 2 - 2 * (1 / s) ≤ s ^ 2 - 1 := by
    have : s ^ 2 - 1 - (2 - 2 * (1 / s)) = (s - 1) * (s + 1 - 2 / s) := by field_simp; ring
    have h3 : 2 / s ≤ 2 := by rw [div_le_iff₀ hs0]; linarith
    nlinarith
  linarith

end Verif.Node
