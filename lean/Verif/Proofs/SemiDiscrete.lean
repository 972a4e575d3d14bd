import Verif.Proofs.Smooth
import Verif.Proofs.OneStep
import Verif.Proofs.LlgElem

/-!
# The equation discretised in space, node by node
-/

namespace Verif.SemiDiscrete

open Verif.Mesh Verif.Tetra Verif.WeakForm Verif.Llg

/-- a displacement of one node -/
def single (i : ℕ) (e : V3) : ℕ → V3 := fun k => if k = i then e else 0

section
variable {G : Rule}

/-- sum over the corners at node `i` -/
def cornerSum (tets : List Tet) (c : Tet → Fin 4 → ℝ) (i : ℕ) : ℝ :=
  (tets.map fun t => ∑ k, if t.ind k = i then c t k else 0).sum

/-- lumped damping coefficient of node `i` -/
noncomputable def lumpD (G : Rule) (tets : List Tet) (p : ℕ → V3) (a : Tet → Fin G.n → ℝ) (i : ℕ) : ℝ :=
  cornerSum tets (fun t => contrib G (fun k => p (t.ind k)) (a t)) i

/-- lumped volume of node `i` -/
noncomputable def lumpG (G : Rule) (tets : List Tet) (p : ℕ → V3) (i : ℕ) : ℝ :=
  cornerSum tets (fun t => aw G (fun k => p (t.ind k))) i

theorem corner_single (tets : List Tet) (c : Tet → Fin 4 → ℝ) (f : ℕ → V3 → ℝ) (h0 : ∀ k, f k 0 = 0) (i : ℕ) (e : V3) :
    (tets.map fun t => ∑ k, c t k * f (t.ind k) (single i e (t.ind k))).sum = cornerSum tets c i * f i e := by
  unfold cornerSum
  rw [← List.sum_map_mul_right]
  refine congrArg List.sum (List.map_congr_left fun t _ => ?_)
  rw [Finset.sum_mul]
  refine Finset.sum_congr rfl fun k _ => ?_
  unfold single
  split_ifs with h
  · rw [h]
  · rw [h0]; ring

theorem sub_dot3 (a b c : V3) : (a - b).dot c = a.dot c - b.dot c := by
  simp only [V3.dot, V3.sub_x, V3.sub_y, V3.sub_z]; ring

theorem dot_zero' (a : V3) : a.dot 0 = 0 := by simp [V3.dot]

theorem damping_single (tets : List Tet) (p v : ℕ → V3) (a : Tet → Fin G.n → ℝ) (i : ℕ) (e : V3) :
    (tets.map fun t => damping G (fun k => p (t.ind k)) (a t) (fun k => v (t.ind k)) (fun k => single i e (t.ind k))).sum =
      lumpD G tets p a i * (v i).dot e := by
  simp only [damping_eq]
  exact corner_single tets _ (fun k x => (v k).dot x) (fun _ => dot_zero' _) i e

theorem gyration_single (tets : List Tet) (p u v : ℕ → V3) (i : ℕ) (e : V3) :
    (tets.map fun t => gyration G (fun k => p (t.ind k)) (fun k => u (t.ind k)) (fun k => v (t.ind k))
      (fun k => single i e (t.ind k))).sum = lumpG G tets p i * ((u i).cross (v i)).dot e := by
  simp only [gyration_eq]
  exact corner_single tets _ (fun k x => ((u k).cross (v k)).dot x) (fun _ => dot_zero' _) i e

/-! ## linearity in the displacement -/

theorem interpV_lin (f g : Fin 4 → V3) (a b : ℝ) (j : Fin G.n) :
    interpV G (fun k => a * f k + b * g k) j = a * interpV G f j + b * interpV G g j := by
  unfold interpV
  ext <;> simp only [V3.sum_x, V3.sum_y, V3.sum_z, V3.add_x, V3.add_y, V3.add_z, V3.smul_x, V3.smul_y, V3.smul_z, Finset.mul_sum] <;>
    rw [← Finset.sum_add_distrib] <;> exact Finset.sum_congr rfl fun _ _ => by ring

theorem deriv_lin (p f g : Fin 4 → V3) (a b : ℝ) (d : Fin 3) :
    Tetra.deriv p d (fun k => a * f k + b * g k) = a * Tetra.deriv p d f + b * Tetra.deriv p d g := by
  unfold Tetra.deriv
  ext <;> simp only [V3.sum_x, V3.sum_y, V3.sum_z, V3.add_x, V3.add_y, V3.add_z, V3.smul_x, V3.smul_y, V3.smul_z, Finset.mul_sum] <;>
    rw [← Finset.sum_add_distrib] <;> exact Finset.sum_congr rfl fun _ _ => by ring

theorem gradDot_lin (p f g h : Fin 4 → V3) (a b : ℝ) :
    gradDot p f (fun k => a * g k + b * h k) = a * gradDot p f g + b * gradDot p f h := by
  unfold gradDot
  simp only [deriv_lin, dot_add, dot_smul]
  ring

theorem work_lin (p : Fin 4 → V3) (F : Fin G.n → V3) (g h : Fin 4 → V3) (a b : ℝ) :
    work G p F (fun k => a * g k + b * h k) = a * work G p F g + b * work G p F h := by
  unfold work
  simp only [interpV_lin, dot_add, dot_smul, Finset.mul_sum]
  rw [← Finset.sum_add_distrib]
  exact Finset.sum_congr rfl fun _ _ => by ring

theorem surfaceWork_lin (H : TriElem.Rule) (sp : SurfPrm) (dMs : ℝ) (p u g h : Fin 3 → V3) (a b : ℝ) :
    surfaceWork H sp dMs p u (fun k => a * g k + b * h k) = a * surfaceWork H sp dMs p u g + b * surfaceWork H sp dMs p u h := by
  have hi : ∀ j, TriElem.interpV H (fun k => a * g k + b * h k) j = a * TriElem.interpV H g j + b * TriElem.interpV H h j := by
    intro j
    unfold TriElem.interpV
    ext <;> simp only [V3.sum_x, V3.sum_y, V3.sum_z, V3.add_x, V3.add_y, V3.add_z, V3.smul_x, V3.smul_y, V3.smul_z, Finset.mul_sum] <;>
      rw [← Finset.sum_add_distrib] <;> exact Finset.sum_congr rfl fun _ _ => by ring
  unfold surfaceWork
  simp only [hi, dot_add, dot_smul, Finset.mul_sum]
  rw [← Finset.sum_add_distrib]
  exact Finset.sum_congr rfl fun _ _ => by ring

theorem list_lin {α : Type} (l : List α) (F F1 F2 : α → ℝ) (a b : ℝ) (h : ∀ x ∈ l, F x = a * F1 x + b * F2 x) :
    (l.map F).sum = a * (l.map F1).sum + b * (l.map F2).sum := by
  rw [← List.sum_map_mul_left, ← List.sum_map_mul_left, ← List.sum_map_add]
  exact congrArg List.sum (List.map_congr_left h)

variable {H : TriElem.Rule} {prm : ℕ → Prm} {sprm : ℕ → SurfPrm} {mu0 : ℝ} {tets : List Tet} {tris : List (Tri × ℝ)} {p u : ℕ → V3}
  {phi : ℕ → ℝ} {Hext Hst : Tet → Fin G.n → V3}

theorem totalWork_lin (g h : ℕ → V3) (a b : ℝ) :
    totalWork G H prm sprm mu0 tets tris p u phi Hext Hst (fun k => a * g k + b * h k) =
      a * totalWork G H prm sprm mu0 tets tris p u phi Hext Hst g + b * totalWork G H prm sprm mu0 tets tris p u phi Hext Hst h := by
  unfold totalWork
  rw [list_lin tets _ (fun t => tetWork G (prm t.reg) mu0 (fun k => p (t.ind k)) (fun k => u (t.ind k)) (fun k => phi (t.ind k)) (Hext t)
      (Hst t) (fun k => g (t.ind k))) (fun t => tetWork G (prm t.reg) mu0 (fun k => p (t.ind k)) (fun k => u (t.ind k))
      (fun k => phi (t.ind k)) (Hext t) (Hst t) (fun k => h (t.ind k))) a b (fun t _ => by
        unfold tetWork
        rw [gradDot_lin, work_lin]
        ring),
    list_lin tris _ (fun f => surfaceWork H (sprm f.1.reg) f.2 (fun k => p (f.1.ind k)) (fun k => u (f.1.ind k))
      (fun k => g (f.1.ind k))) (fun f => surfaceWork H (sprm f.1.reg) f.2 (fun k => p (f.1.ind k)) (fun k => u (f.1.ind k))
      (fun k => h (f.1.ind k))) a b (fun f _ => surfaceWork_lin _ _ _ _ _ _ _ _ _)]
  ring

/-- the force on a node -/
noncomputable def nodeForce (L : (ℕ → V3) → ℝ) (i : ℕ) : V3 :=
  ⟨L (single i ⟨1, 0, 0⟩), L (single i ⟨0, 1, 0⟩), L (single i ⟨0, 0, 1⟩)⟩

theorem nodeForce_dot (L : (ℕ → V3) → ℝ) (hL : ∀ g h a b, L (fun k => a * g k + b * h k) = a * L g + b * L h) (i : ℕ) (e : V3) :
    L (single i e) = (nodeForce L i).dot e := by
  have e1 : single i e = fun k => e.x * single i ⟨1, 0, 0⟩ k
      + (1 : ℝ) * ((fun k => e.y * single i ⟨0, 1, 0⟩ k + e.z * single i ⟨0, 0, 1⟩ k) k) := by
    funext k
    by_cases hk : k = i <;> ext <;> simp [single, hk]
  rw [e1, hL, hL]
  unfold nodeForce
  simp only [V3.dot]
  ring

/-- the velocity of a node: solution of `d v + m u × v = f` in the plane orthogonal to `u` -/
noncomputable def nodeVel (d m : ℝ) (u f : V3) : V3 := (1 / (d * d + m * m)) * (d * (f - (u.dot f) * u) - m * u.cross f)

theorem nodeVel_tangent (d m : ℝ) (u f : V3) (hu : u.dot u = 1) : (nodeVel d m u f).dot u = 0 := by
  unfold nodeVel
  have : (u.cross f).dot u = 0 := by simp only [V3.dot, V3.cross]; ring
  rw [smul_dot, sub_dot3, smul_dot, sub_dot3, smul_dot, smul_dot, this, hu, V3.dot_comm f u]
  ring

theorem nodeVel_eq (d m : ℝ) (hd : d ≠ 0) (u f : V3) (hu : u.dot u = 1) (e : V3) (he : e.dot u = 0) :
    d * (nodeVel d m u f).dot e + m * (u.cross (nodeVel d m u f)).dot e = f.dot e := by
  have hden : d * d + m * m ≠ 0 := by
    have := mul_self_pos.mpr hd
    nlinarith [mul_self_nonneg m]
  have hu' : u.x * u.x + u.y * u.y + u.z * u.z = 1 := hu
  have he' : e.x * u.x + e.y * u.y + e.z * u.z = 0 := he
  unfold nodeVel
  simp only [V3.dot, V3.cross, V3.sub_x, V3.sub_y, V3.sub_z, V3.smul_x, V3.smul_y, V3.smul_z]
  field_simp
  linear_combination (-(d * d) * (u.x * f.x + u.y * f.y + u.z * f.z) - m * m * (u.x * f.x + u.y * f.y + u.z * f.z)) * he'
    + m * m * (f.x * e.x + f.y * e.y + f.z * e.z) * hu'

theorem smooth_nodeVel {Z : Type*} [NormedAddCommGroup Z] [NormedSpace ℝ Z] (d m : ℝ) {u f : Z → V3} (hu : SmoothV u) (hf : SmoothV f) :
    SmoothV fun z => nodeVel d m (u z) (f z) :=
  SmoothV.smul contDiff_const ((SmoothV.smul contDiff_const (hf.sub (SmoothV.smul (hu.dot hf) hu))).sub
    (SmoothV.smul contDiff_const (hu.cross hf)))

/-- the equation of one node -/
theorem node_eq {magN : ℕ → Prop} {v : ℕ → V3}
    (h : Velocity G H prm sprm mu0 magN tets tris p u phi Hext Hst v) (i : ℕ) (e : V3) (he : e.dot (u i) = 0) :
    lumpD G tets p (fun t _ => (prm t.reg).alpha) i * (v i).dot e + lumpG G tets p i * ((u i).cross (v i)).dot e =
      totalWork G H prm sprm mu0 tets tris p u phi Hext Hst (single i e) := by
  rw [← h.2 (single i e) (fun k _ => by
    unfold single
    split_ifs with hk
    · rw [hk]; exact he
    · simp [V3.dot]), List.sum_map_add]
  exact congrArg₂ _ (damping_single tets p v (fun t _ => (prm t.reg).alpha) i e).symm (gyration_single tets p u v i e).symm

/-- the velocity is determined, node by node -/
theorem velocity_unique {magN : ℕ → Prop} {v : ℕ → V3} (h : Velocity G H prm sprm mu0 magN tets tris p u phi Hext Hst v) (i : ℕ)
    (hi : magN i) (hu : (u i).dot (u i) = 1) (hd : 0 < lumpD G tets p (fun t _ => (prm t.reg).alpha) i) :
    v i = nodeVel (lumpD G tets p (fun t _ => (prm t.reg).alpha) i) (lumpG G tets p i) (u i)
      (nodeForce (totalWork G H prm sprm mu0 tets tris p u phi Hext Hst) i) := by
  set d := lumpD G tets p (fun t _ => (prm t.reg).alpha) i
  set m := lumpG G tets p i
  set f := nodeForce (totalWork G H prm sprm mu0 tets tris p u phi Hext Hst) i with hf
  have ht := nodeVel_tangent d m (u i) f hu
  set v0 := nodeVel d m (u i) f with hv0
  have he : (v i - v0).dot (u i) = 0 := by rw [sub_dot3, h.1 i hi, ht, sub_zero]
  have h1 := node_eq h i (v i - v0) he
  rw [nodeForce_dot _ (fun g h a b => totalWork_lin g h a b) i (v i - v0), ← hf, ← nodeVel_eq d m hd.ne' (u i) f hu _ he, ← hv0] at h1
  have h2 : d * (v i - v0).dot (v i - v0) = 0 := by
    have e : d * (v i - v0).dot (v i - v0) = (d * (v i).dot (v i - v0) + m * ((u i).cross (v i)).dot (v i - v0))
        - (d * v0.dot (v i - v0) + m * ((u i).cross v0).dot (v i - v0)) := by
      simp only [V3.dot, V3.cross, V3.sub_x, V3.sub_y, V3.sub_z]
      ring
    rw [e, h1, sub_self]
  have h3 := (mul_eq_zero.mp h2).resolve_left hd.ne'
  simp only [V3.dot] at h3
  have hx : (v i - v0).x = 0 := by nlinarith [mul_self_nonneg (v i - v0).x, mul_self_nonneg (v i - v0).y, mul_self_nonneg (v i - v0).z]
  have hy : (v i - v0).y = 0 := by nlinarith [mul_self_nonneg (v i - v0).x, mul_self_nonneg (v i - v0).y, mul_self_nonneg (v i - v0).z]
  have hz : (v i - v0).z = 0 := by nlinarith [mul_self_nonneg (v i - v0).x, mul_self_nonneg (v i - v0).y, mul_self_nonneg (v i - v0).z]
  simp only [V3.sub_x, V3.sub_y, V3.sub_z] at hx hy hz
  ext <;> linarith

/-- the damping coefficient of a node of the mesh is positive -/
theorem lumpD_pos (hG : Compiled G) {a : Tet → Fin G.n → ℝ} (hp : ∀ t ∈ tets, 0 < detJ (fun k => p (t.ind k)))
    (ha : ∀ t ∈ tets, 0 < (prm t.reg).alpha)
    (hb : ∀ t ∈ tets, ∀ j, (prm t.reg).alpha / 1.1 ≤ a t j ∧ a t j ≤ 1.1 * (prm t.reg).alpha) (i : ℕ) (t : Tet) (ht : t ∈ tets)
    (k : Fin 4) (hk : t.ind k = i) : 0 < lumpD G tets p a i := by
  unfold lumpD cornerSum
  have hpos : ∀ t ∈ tets, ∀ k, 0 < contrib G (fun k => p (t.ind k)) (a t) k :=
    fun t ht k => contrib_pos hG _ (hp t ht) _ _ (ha t ht) (hb t ht) k
  have hnn : ∀ t ∈ tets, 0 ≤ ∑ k, if t.ind k = i then contrib G (fun k => p (t.ind k)) (a t) k else 0 := by
    intro t ht
    refine Finset.sum_nonneg fun k _ => ?_
    split_ifs
    · exact (hpos t ht k).le
    · exact le_rfl
  refine lt_of_lt_of_le ?_ (List.single_le_sum (fun x hx => ?_) _ (List.mem_map.mpr ⟨t, ht, rfl⟩))
  · refine lt_of_lt_of_le (hpos t ht k) ?_
    refine le_trans (le_of_eq ?_) (Finset.single_le_sum (f := fun k => if t.ind k = i then contrib G (fun k => p (t.ind k)) (a t) k else 0)
      (fun k _ => ?_) (Finset.mem_univ k))
    · rw [if_pos hk]
    · split_ifs
      · exact (hpos t ht k).le
      · exact le_rfl
  · obtain ⟨t', ht', rfl⟩ := List.mem_map.mp hx
    exact hnn t' ht'

/-- the damping of one node is part of the total damping -/
theorem lumpD_le (hG : Compiled G) {a : Tet → Fin G.n → ℝ} (hp : ∀ t ∈ tets, 0 < detJ (fun k => p (t.ind k)))
    (ha : ∀ t ∈ tets, 0 < (prm t.reg).alpha)
    (hb : ∀ t ∈ tets, ∀ j, (prm t.reg).alpha / 1.1 ≤ a t j ∧ a t j ≤ 1.1 * (prm t.reg).alpha) (v : ℕ → V3) (i : ℕ) :
    lumpD G tets p a i * (v i).dot (v i) ≤
      (tets.map fun t => damping G (fun k => p (t.ind k)) (a t) (fun k => v (t.ind k)) (fun k => v (t.ind k))).sum := by
  rw [← damping_single tets p v a i (v i)]
  refine List.sum_le_sum fun t ht => ?_
  simp only [damping_eq]
  refine Finset.sum_le_sum fun k _ => ?_
  have := (contrib_pos hG _ (hp t ht) _ _ (ha t ht) (hb t ht) k).le
  refine mul_le_mul_of_nonneg_left ?_ this
  unfold single
  split_ifs with h
  · rw [h]
  · rw [dot_zero']
    simp only [V3.dot]
    nlinarith [mul_self_nonneg (v (t.ind k)).x, mul_self_nonneg (v (t.ind k)).y, mul_self_nonneg (v (t.ind k)).z]

end

end Verif.SemiDiscrete
