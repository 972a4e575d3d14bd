import Verif.Spec.Motion
import Verif.Spec.WeakForm
import Verif.Proofs.Tetra
import Verif.Proofs.WeakForm

/-!
# Rigid motions: scalar products, gradients, weights
-/

namespace Verif.Motion

open Verif.Tetra Verif.Llg Verif.WeakForm

variable (M : Motion)

/-- the matrix of the rotation -/
def mat : Matrix (Fin 3) (Fin 3) ℝ :=
  !![M.a.x, M.b.x, M.c.x; M.a.y, M.b.y, M.c.y; M.a.z, M.b.z, M.c.z]

theorem cols : M.mat.transpose * M.mat = 1 := by
  obtain ⟨h1, h2, h3, h4, h5, h6, -⟩ := M.basis
  simp only [V3.nsq, V3.dot] at h1 h2 h3 h4 h5 h6
  ext i j
  fin_cases i <;> fin_cases j <;> simp [mat, Matrix.mul_apply, Fin.sum_univ_three] <;> linarith

theorem rows : M.mat * M.mat.transpose = 1 := mul_eq_one_comm.mp M.cols

theorem det_mat : M.mat.det = 1 := by
  obtain ⟨-, -, h3, -, -, -, h7⟩ := M.basis
  have hx := congrArg V3.x h7
  have hy := congrArg V3.y h7
  have hz := congrArg V3.z h7
  simp only [V3.cross] at hx hy hz
  simp only [V3.nsq] at h3
  unfold mat
  rw [Matrix.det_fin_three]
  simp
  linear_combination h3 + M.c.x * hx + M.c.y * hy + M.c.z * hz

@[simp] theorem vec_x (v : V3) : (M.vec v).x = v.x * M.a.x + v.y * M.b.x + v.z * M.c.x := rfl
@[simp] theorem vec_y (v : V3) : (M.vec v).y = v.x * M.a.y + v.y * M.b.y + v.z * M.c.y := rfl
@[simp] theorem vec_z (v : V3) : (M.vec v).z = v.x * M.a.z + v.y * M.b.z + v.z * M.c.z := rfl

theorem vec_add (v w : V3) : M.vec (v + w) = M.vec v + M.vec w := by
  ext <;> simp <;> ring

theorem vec_sub (v w : V3) : M.vec (v - w) = M.vec v - M.vec w := by
  ext <;> simp <;> ring

theorem vec_neg (v : V3) : M.vec (-v) = -M.vec v := by
  ext <;> simp <;> ring

theorem vec_smul (k : ℝ) (v : V3) : M.vec (k * v) = k * M.vec v := by
  ext <;> simp <;> ring

theorem vec_zero : M.vec 0 = 0 := by
  ext <;> simp

/-- the rotation as an additive map -/
def hom : V3 →+ V3 := ⟨⟨M.vec, M.vec_zero⟩, M.vec_add⟩

theorem vec_sum {ι : Type} (S : Finset ι) (f : ι → V3) : M.vec (∑ i ∈ S, f i) = ∑ i ∈ S, M.vec (f i) :=
  map_sum M.hom f S

theorem vec_dot (v w : V3) : (M.vec v).dot (M.vec w) = v.dot w := by
  obtain ⟨h1, h2, h3, h4, h5, h6, -⟩ := M.basis
  simp only [V3.nsq, V3.dot] at h1 h2 h3 h4 h5 h6
  simp only [V3.dot, vec_x, vec_y, vec_z]
  linear_combination v.x * w.x * h1 + v.y * w.y * h2 + v.z * w.z * h3 + (v.x * w.y + v.y * w.x) * h4
    + (v.y * w.z + v.z * w.y) * h5 + (v.z * w.x + v.x * w.z) * h6

theorem vec_nsq (v : V3) : (M.vec v).nsq = v.nsq := M.vec_dot v v

theorem vec_norm (v : V3) : (M.vec v).norm = v.norm := by
  unfold V3.norm
  rw [vec_nsq]

theorem vec_normalize (v : V3) : (M.vec v).normalize = M.vec v.normalize := by
  unfold V3.normalize
  rw [vec_nsq]
  split_ifs
  · rw [vec_smul]
  · rfl

/-- the inverse rotation -/
def back (w : V3) : V3 := ⟨M.a.dot w, M.b.dot w, M.c.dot w⟩

theorem vec_back (w : V3) : M.vec (M.back w) = w := by
  have h := M.rows
  have e := fun i j => congrFun (congrFun h i) j
  have e00 := e 0 0
  have e01 := e 0 1
  have e02 := e 0 2
  have e11 := e 1 1
  have e12 := e 1 2
  have e22 := e 2 2
  simp [mat, Matrix.mul_apply, Fin.sum_univ_three] at e00 e01 e02 e11 e12 e22
  ext <;> simp only [vec_x, vec_y, vec_z, back, V3.dot]
  · linear_combination w.x * e00 + w.y * e01 + w.z * e02
  · linear_combination w.x * e01 + w.y * e11 + w.z * e12
  · linear_combination w.x * e02 + w.y * e12 + w.z * e22

theorem vec_cross (v w : V3) : (M.vec v).cross (M.vec w) = M.vec (v.cross w) := by
  obtain ⟨h1, h2, h3, h4, h5, h6, h7⟩ := M.basis
  -- `b × c = a` and `c × a = b`
  have hbc : M.b.cross M.c = M.a := by
    rw [← h7]
    simp only [V3.nsq, V3.dot] at h1 h2 h4
    ext <;> simp only [V3.cross]
    · linear_combination M.a.x * h2 - M.b.x * h4
    · linear_combination M.a.y * h2 - M.b.y * h4
    · linear_combination M.a.z * h2 - M.b.z * h4
  have hca : M.c.cross M.a = M.b := by
    rw [← h7]
    simp only [V3.nsq, V3.dot] at h1 h2 h4
    ext <;> simp only [V3.cross]
    · linear_combination M.b.x * h1 - M.a.x * h4
    · linear_combination M.b.y * h1 - M.a.y * h4
    · linear_combination M.b.z * h1 - M.a.z * h4
  have x1 := congrArg V3.x hbc
  have x2 := congrArg V3.y hbc
  have x3 := congrArg V3.z hbc
  have y1 := congrArg V3.x hca
  have y2 := congrArg V3.y hca
  have y3 := congrArg V3.z hca
  have z1 := congrArg V3.x h7
  have z2 := congrArg V3.y h7
  have z3 := congrArg V3.z h7
  simp only [V3.cross] at x1 x2 x3 y1 y2 y3 z1 z2 z3
  ext <;> simp only [V3.cross, vec_x, vec_y, vec_z]
  · linear_combination (v.y * w.z - v.z * w.y) * x1 + (v.z * w.x - v.x * w.z) * y1 + (v.x * w.y - v.y * w.x) * z1
  · linear_combination (v.y * w.z - v.z * w.y) * x2 + (v.z * w.x - v.x * w.z) * y2 + (v.x * w.y - v.y * w.x) * z2
  · linear_combination (v.y * w.z - v.z * w.y) * x3 + (v.z * w.x - v.x * w.z) * y3 + (v.x * w.y - v.y * w.x) * z3

theorem pt_sub (p q : V3) : M.pt p - M.pt q = M.vec (p - q) := by
  unfold pt
  rw [vec_sub]
  ext <;> simp

/-! ## tetrahedra -/

theorem jac_move (p : Fin 4 → V3) : jac (fun i => M.pt (p i)) = M.mat * jac p := by
  unfold jac
  simp only [pt_sub]
  ext i j
  fin_cases i <;> fin_cases j <;> simp [mat, Matrix.mul_apply, Fin.sum_univ_three] <;> ring

theorem detJ_move (p : Fin 4 → V3) : detJ (fun i => M.pt (p i)) = detJ p := by
  unfold detJ
  rw [jac_move, Matrix.det_mul, det_mat, one_mul]

theorem da_move (p : Fin 4 → V3) : da (fun i => M.pt (p i)) = da p * M.mat.transpose := by
  unfold da
  rw [jac_move, Matrix.mul_inv_rev, Matrix.inv_eq_right_inv M.rows, Matrix.mul_assoc]

theorem daRow_move (p : Fin 4 → V3) (i : Fin 4) : daRow (fun i => M.pt (p i)) i = M.vec (daRow p i) := by
  unfold daRow
  rw [da_move]
  ext <;> simp [mat, Matrix.mul_apply, Fin.sum_univ_three]

theorem weight_move (G : Rule) (p : Fin 4 → V3) (j : Fin G.n) : Tetra.weight G (fun i => M.pt (p i)) j = Tetra.weight G p j := by
  unfold Tetra.weight
  rw [detJ_move]

theorem calcVol_move (G : Rule) (p : Fin 4 → V3) : calcVol G (fun i => M.pt (p i)) = calcVol G p := by
  unfold calcVol
  simp only [weight_move]

theorem interpV_move (G : Rule) (f : Fin 4 → V3) (j : Fin G.n) :
    Tetra.interpV G (fun i => M.vec (f i)) j = M.vec (Tetra.interpV G f j) := by
  unfold Tetra.interpV
  rw [vec_sum]
  simp only [vec_smul]

theorem interpField_move (p : Fin 4 → V3) (f : Fin 4 → ℝ) :
    interpField (fun i => M.pt (p i)) f = M.vec (interpField p f) := by
  unfold interpField
  rw [vec_neg, vec_sum]
  simp only [vec_smul, daRow_move]

/-- the product of two gradients by the products of the gradients of the hat functions -/
theorem gradDot_eq (p f g : Fin 4 → V3) :
    gradDot p f g = ∑ i, ∑ k, (daRow p i).dot (daRow p k) * (f i).dot (g k) := by
  have h : ∀ d : Fin 3, (Tetra.deriv p d f).dot (Tetra.deriv p d g) = ∑ i, ∑ k, (da p i d * da p k d) * (f i).dot (g k) := by
    intro d
    unfold Tetra.deriv
    rw [sum_dot]
    refine Finset.sum_congr rfl fun i _ => ?_
    rw [dot_sum]
    refine Finset.sum_congr rfl fun k _ => ?_
    rw [smul_dot, dot_smul]
    ring
  unfold gradDot
  rw [h, h, h, ← Finset.sum_add_distrib, ← Finset.sum_add_distrib]
  refine Finset.sum_congr rfl fun i _ => ?_
  rw [← Finset.sum_add_distrib, ← Finset.sum_add_distrib]
  refine Finset.sum_congr rfl fun k _ => ?_
  simp only [V3.dot, daRow]
  ring

theorem gradDot_move (p f g : Fin 4 → V3) :
    gradDot (fun i => M.pt (p i)) (fun i => M.vec (f i)) (fun i => M.vec (g i)) = gradDot p f g := by
  rw [gradDot_eq, gradDot_eq]
  simp only [daRow_move, vec_dot]

theorem nsq_grad (p u : Fin 4 → V3) :
    (Tetra.deriv p 0 u).nsq + (Tetra.deriv p 1 u).nsq + (Tetra.deriv p 2 u).nsq = gradDot p u u := rfl

/-- the divergence of an affine field -/
theorem div_eq (p u : Fin 4 → V3) :
    (Tetra.deriv p 0 u).x + (Tetra.deriv p 1 u).y + (Tetra.deriv p 2 u).z = ∑ i, (daRow p i).dot (u i) := by
  unfold Tetra.deriv
  simp only [V3.sum_x, V3.sum_y, V3.sum_z, V3.smul_x, V3.smul_y, V3.smul_z]
  rw [← Finset.sum_add_distrib, ← Finset.sum_add_distrib]
  rfl

/-- the nodal data moved, with any tangent bases -/
def nodal (n : Nodal) (ep eq : Fin 4 → V3) : Nodal :=
  ⟨fun i => M.pt (n.p i), fun i => M.vec (n.u i), fun i => M.vec (n.v i), n.phi, n.phiv, ep, eq⟩

/-- the anisotropy field turns with the sample, except the extrapolated part of the cubic anisotropy -/
theorem hAniso_move (m : Prm) (s : Step) (U V : V3) (h : m.K3 = 0 ∨ V = 0) :
    hAniso (M.prm m) s (M.vec U) (M.vec V) = M.vec (hAniso m s U V) := by
  unfold hAniso
  rw [vec_add]
  congr 1
  · change (if m.K ≠ 0 then anisoUniaxH (M.vec m.uk) _ _ _ _ else 0) = _
    split_ifs with hK
    · unfold anisoUniaxH
      rw [← M.vec_smul _ V, ← vec_add, vec_dot, vec_smul]
      rfl
    · exact M.vec_zero.symm
  · change (if m.K3 ≠ 0 then anisoCubH (M.vec m.ex) (M.vec m.ey) (M.vec m.ez) _ _ _ _ else 0) = _
    rcases h with h | rfl
    · rw [if_neg (by simpa using h), if_neg (by simpa using h), vec_zero]
    · split_ifs with hK
      · unfold anisoCubH
        dsimp only
        rw [vec_zero, vec_dot, vec_dot, vec_dot]
        have z : ∀ x : V3, x.dot 0 = 0 := fun x => by simp [V3.dot]
        have z2 : ∀ (k : ℝ) (x y : V3), k * cwise (cwise ⟨0, 0, 0⟩ x) y = 0 := fun k x y => by
          ext <;> simp [cwise]
        simp only [z, z2]
        rw [vec_smul, vec_add, vec_add, vec_add, vec_smul, vec_smul, vec_smul, vec_zero]
        rfl
      · exact M.vec_zero.symm

theorem uHeff_move (G : Rule) (m : Prm) (s : Step) (n : Nodal) (ep eq : Fin 4 → V3) (He : Fin G.n → V3) (j : Fin G.n) :
    uHeff G (M.prm m) s (M.nodal n ep eq) (fun j => M.vec (He j)) j = uHeff G m s n He j := by
  have h1 := M.gradDot_move n.p n.u n.u
  rw [← nsq_grad, ← nsq_grad] at h1
  have h2 : Tetra.interpV G (M.nodal n ep eq).u j = M.vec (Tetra.interpV G n.u j) := M.interpV_move G n.u j
  unfold uHeff
  dsimp only
  rw [h2, vec_dot]
  have h3 : anisoUniaxUH (M.prm m).uk (2 * (M.prm m).K / (s.mu0 * (M.prm m).Ms)) (M.vec (Tetra.interpV G n.u j)) =
      anisoUniaxUH m.uk (2 * m.K / (s.mu0 * m.Ms)) (Tetra.interpV G n.u j) := by
    unfold anisoUniaxUH
    change _ * ((M.vec _).dot (M.vec m.uk) * (M.vec _).dot (M.vec m.uk)) = _
    rw [vec_dot]
    rfl
  have h4 : anisoCubUH (M.prm m).ex (M.prm m).ey (M.prm m).ez (2 * (M.prm m).K3 / (s.mu0 * (M.prm m).Ms))
      (M.vec (Tetra.interpV G n.u j)) =
      anisoCubUH m.ex m.ey m.ez (2 * m.K3 / (s.mu0 * m.Ms)) (Tetra.interpV G n.u j) := by
    unfold anisoCubUH
    dsimp only
    change _ * V3.dot ⟨(M.vec m.ex).dot _, (M.vec m.ey).dot _, (M.vec m.ez).dot _⟩ _ = _
    have e1 : (M.prm m).ex = M.vec m.ex := rfl
    have e2 : (M.prm m).ey = M.vec m.ey := rfl
    have e3 : (M.prm m).ez = M.vec m.ez := rfl
    rw [e1, e2, e3, vec_dot, vec_dot, vec_dot]
    rfl
  rw [h3, h4]
  change (-abis m s) * ((Tetra.deriv (fun i => M.pt (n.p i)) 0 fun i => M.vec (n.u i)).nsq
    + (Tetra.deriv (fun i => M.pt (n.p i)) 1 fun i => M.vec (n.u i)).nsq
    + (Tetra.deriv (fun i => M.pt (n.p i)) 2 fun i => M.vec (n.u i)).nsq) + (if m.K ≠ 0 then _ else 0)
    + (if m.K3 ≠ 0 then _ else 0) + _ = _
  rw [h1]

theorem effDamping_move (G : Rule) (m : Prm) (s : Step) (n : Nodal) (ep eq : Fin 4 → V3) (Hext Hst : Fin G.n → V3)
    (j : Fin G.n) :
    effDamping G (M.prm m) s (M.nodal n ep eq) (fun j => M.vec (Hext j)) (fun j => M.vec (Hst j)) j =
      effDamping G m s n Hext Hst j := by
  unfold effDamping
  have : (fun j => interpField (M.nodal n ep eq).p (M.nodal n ep eq).phi + M.vec (Hext j) + M.vec (Hst j)) =
      fun j => M.vec (interpField n.p n.phi + Hext j + Hst j) := by
    funext j
    rw [vec_add, vec_add, ← interpField_move]
    rfl
  rw [this, uHeff_move]
  rfl

/-- what the anisotropy field of the moved sample has too much: zero without cubic anisotropy -/
noncomputable def defect (G : Rule) (m : Prm) (s : Step) (n : Nodal) (j : Fin G.n) : V3 :=
  hAniso (M.prm m) s (M.vec (Tetra.interpV G n.u j)) (M.vec (Tetra.interpV G n.v j))
    - M.vec (hAniso m s (Tetra.interpV G n.u j) (Tetra.interpV G n.v j))

theorem defect_zero (G : Rule) (m : Prm) (s : Step) (n : Nodal) (h : m.K3 = 0 ∨ ∀ i, n.v i = 0) (j : Fin G.n) :
    M.defect G m s n j = 0 := by
  have h0 : m.K3 = 0 ∨ Tetra.interpV G n.v j = 0 := by
    rcases h with h | h
    · exact Or.inl h
    · right
      unfold Tetra.interpV
      simp only [h]
      refine Finset.sum_eq_zero fun i _ => ?_
      ext <;> simp
  unfold defect
  rw [hAniso_move M m s _ _ h0]
  exact sub_self _

theorem explicitField_move (G : Rule) (m : Prm) (s : Step) (n : Nodal) (ep eq : Fin 4 → V3) (Hext Hst : Fin G.n → V3)
    (j : Fin G.n) :
    explicitField G (M.prm m) s (M.nodal n ep eq) (fun j => M.vec (Hext j)) (fun j => M.vec (Hst j)) j =
      M.vec (explicitField G m s n Hext Hst j) + M.defect G m s n j := by
  have hu : Tetra.interpV G (M.nodal n ep eq).u j = M.vec (Tetra.interpV G n.u j) := M.interpV_move G n.u j
  have hv : Tetra.interpV G (M.nodal n ep eq).v j = M.vec (Tetra.interpV G n.v j) := M.interpV_move G n.v j
  have hp : interpField (M.nodal n ep eq).p (M.nodal n ep eq).phi = M.vec (interpField n.p n.phi) := M.interpField_move n.p n.phi
  have hpv : interpField (M.nodal n ep eq).p (M.nodal n ep eq).phiv = M.vec (interpField n.p n.phiv) :=
    M.interpField_move n.p n.phiv
  unfold explicitField defect
  rw [hu, hv, hp, hpv, vec_dot, vec_add, vec_add, vec_add, vec_add, vec_sub, vec_smul, vec_smul]
  abel

/-- the equation of motion on one element, when everything is moved -/
theorem residual_defect (G : Rule) (m : Prm) (s : Step) (n : Nodal) (ep eq : Fin 4 → V3) (Hext Hst : Fin G.n → V3) (V V' : ℝ)
    (v w : Fin 4 → V3) :
    WeakForm.residual G (M.prm m) s (M.nodal n ep eq) (fun j => M.vec (Hext j)) (fun j => M.vec (Hst j)) none V'
        (fun i => M.vec (v i)) (fun i => M.vec (w i)) =
      WeakForm.residual G m s n Hext Hst none V v w - work G n.p (M.defect G m s n) fun i => M.vec (w i) := by
  have h1 : damping G (M.nodal n ep eq).p (effDamping G (M.prm m) s (M.nodal n ep eq) (fun j => M.vec (Hext j))
      (fun j => M.vec (Hst j))) (fun i => M.vec (v i)) (fun i => M.vec (w i)) = damping G n.p (effDamping G m s n Hext Hst) v w := by
    unfold damping
    refine Finset.sum_congr rfl fun j _ => ?_
    rw [effDamping_move]
    simp only [vec_dot]
    congr 2
    exact M.weight_move G n.p j
  have h2 : gyration G (M.nodal n ep eq).p (M.nodal n ep eq).u (fun i => M.vec (v i)) (fun i => M.vec (w i)) =
      gyration G n.p n.u v w := by
    unfold gyration
    refine Finset.sum_congr rfl fun j _ => ?_
    change Tetra.weight G (fun i => M.pt (n.p i)) j * Tetra.interpS G (fun i => ((M.vec (n.u i)).cross (M.vec (v i))).dot (M.vec (w i))) j = _
    rw [weight_move]
    simp only [vec_cross, vec_dot]
  have h3 : calcVol G (M.nodal n ep eq).p = calcVol G n.p := M.calcVol_move G n.p
  have h4 : ∀ k : ℝ, gradDot (M.nodal n ep eq).p (fun i => (M.nodal n ep eq).u i + k * M.vec (v i)) (fun i => M.vec (w i)) =
      gradDot n.p (fun i => n.u i + k * v i) w := by
    intro k
    rw [← M.gradDot_move n.p]
    have : (fun i => M.vec (n.u i + k * v i)) = fun i => M.vec (n.u i) + k * M.vec (v i) := by
      funext i
      rw [vec_add, vec_smul]
    rw [this]
    rfl
  have h5 : work G (M.nodal n ep eq).p (explicitField G (M.prm m) s (M.nodal n ep eq) (fun j => M.vec (Hext j))
      (fun j => M.vec (Hst j))) (fun i => M.vec (w i)) =
      work G n.p (explicitField G m s n Hext Hst) w + work G n.p (M.defect G m s n) fun i => M.vec (w i) := by
    unfold work
    rw [← Finset.sum_add_distrib]
    refine Finset.sum_congr rfl fun j _ => ?_
    have hw : Tetra.weight G (M.nodal n ep eq).p j = Tetra.weight G n.p j := M.weight_move G n.p j
    rw [explicitField_move M G m s n ep eq Hext Hst, interpV_move, add_dot, vec_dot, hw]
    ring
  unfold WeakForm.residual
  rw [h1, h2, h3, h4, h5]
  change _ - (-(2 * m.A / (s.mu0 * m.Ms)) * _ * _ + _ + 0) = _ - (_ + _ + 0) - _
  ring

/-- the equation of motion on one element does not change when everything is moved -/
theorem residual_move (G : Rule) (m : Prm) (s : Step) (n : Nodal) (ep eq : Fin 4 → V3) (Hext Hst : Fin G.n → V3) (V V' : ℝ)
    (h : m.K3 = 0 ∨ ∀ i, n.v i = 0) (v w : Fin 4 → V3) :
    WeakForm.residual G (M.prm m) s (M.nodal n ep eq) (fun j => M.vec (Hext j)) (fun j => M.vec (Hst j)) none V'
        (fun i => M.vec (v i)) (fun i => M.vec (w i)) =
      WeakForm.residual G m s n Hext Hst none V v w := by
  rw [residual_defect M G m s n ep eq Hext Hst V V']
  have : work G n.p (M.defect G m s n) (fun i => M.vec (w i)) = 0 := by
    unfold work
    refine Finset.sum_eq_zero fun j _ => ?_
    rw [M.defect_zero G m s n h j]
    simp [V3.dot]
  rw [this, sub_zero]

/-! ## energies, charges and potentials -/

theorem exchangeEnergy_move (G : Rule) (m : Prm) (p u : Fin 4 → V3) :
    Tetra.exchangeEnergy G (M.prm m) (fun i => M.pt (p i)) (fun i => M.vec (u i)) = Tetra.exchangeEnergy G m p u := by
  unfold Tetra.exchangeEnergy
  simp only [nsq_grad, gradDot_move, weight_move]
  rfl

theorem uniaxialEnergy_move (G : Rule) (m : Prm) (p u : Fin 4 → V3) :
    Tetra.uniaxialEnergy G (M.prm m) (fun i => M.pt (p i)) (fun i => M.vec (u i)) = Tetra.uniaxialEnergy G m p u := by
  unfold Tetra.uniaxialEnergy
  have e : (M.prm m).uk = M.vec m.uk := rfl
  simp only [e, interpV_move, vec_dot, weight_move]
  rfl

theorem cubicEnergy_move (G : Rule) (m : Prm) (p u : Fin 4 → V3) :
    Tetra.cubicEnergy G (M.prm m) (fun i => M.pt (p i)) (fun i => M.vec (u i)) = Tetra.cubicEnergy G m p u := by
  unfold Tetra.cubicEnergy
  have e1 : (M.prm m).ex = M.vec m.ex := rfl
  have e2 : (M.prm m).ey = M.vec m.ey := rfl
  have e3 : (M.prm m).ez = M.vec m.ez := rfl
  simp only [e1, e2, e3, interpV_move, vec_dot, weight_move]
  rfl

theorem zeemanEnergy_move (G : Rule) (mu0 Ms : ℝ) (p u : Fin 4 → V3) (Hext : V3) :
    Tetra.zeemanEnergy G mu0 Ms (fun i => M.pt (p i)) (fun i => M.vec (u i)) (M.vec Hext) = Tetra.zeemanEnergy G mu0 Ms p u Hext := by
  unfold Tetra.zeemanEnergy
  simp only [interpV_move, vec_dot, weight_move]

theorem zeemanEnergySpace_move (G : Rule) (mu0 Ms amp : ℝ) (p u : Fin 4 → V3) (H : Fin G.n → V3) :
    Tetra.zeemanEnergySpace G mu0 Ms amp (fun i => M.pt (p i)) (fun i => M.vec (u i)) (fun j => M.vec (H j)) =
      Tetra.zeemanEnergySpace G mu0 Ms amp p u H := by
  unfold Tetra.zeemanEnergySpace
  simp only [interpV_move, vec_dot, weight_move]

theorem demagEnergy_move (G : Rule) (mu0 Ms : ℝ) (p u : Fin 4 → V3) (phi : Fin 4 → ℝ) :
    Tetra.demagEnergy G mu0 Ms (fun i => M.pt (p i)) (fun i => M.vec (u i)) phi = Tetra.demagEnergy G mu0 Ms p u phi := by
  unfold Tetra.demagEnergy
  simp only [div_eq, daRow_move, vec_dot, weight_move]

theorem charges_move (G : Rule) (Ms : ℝ) (p u : Fin 4 → V3) (j : Fin G.n) :
    Tetra.charges G Ms (fun i => M.pt (p i)) (fun i => M.vec (u i)) j = Tetra.charges G Ms p u j := by
  have e : ∀ p u : Fin 4 → V3, (∑ i, (u i).x * da p i 0) + (∑ i, (u i).y * da p i 1) + (∑ i, (u i).z * da p i 2) =
      ∑ i, (daRow p i).dot (u i) := by
    intro p u
    rw [← Finset.sum_add_distrib, ← Finset.sum_add_distrib]
    refine Finset.sum_congr rfl fun i _ => ?_
    simp only [V3.dot, daRow]
    ring
  unfold Tetra.charges
  rw [e, e, weight_move]
  simp only [daRow_move, vec_dot]

theorem ptGauss_move (G : Rule) (p : Fin 4 → V3) (j : Fin G.n) :
    Tetra.ptGauss G (fun i => M.pt (p i)) j = M.pt (Tetra.ptGauss G p j) := by
  have hs := G.a_sum j
  unfold Tetra.ptGauss Tetra.interpV pt
  rw [vec_sum]
  rw [Fin.sum_univ_four] at hs
  simp only [Fin.sum_univ_four, vec_smul]
  ext <;> simp only [V3.add_x, V3.add_y, V3.add_z, V3.smul_x, V3.smul_y, V3.smul_z]
  · linear_combination M.d.x * hs
  · linear_combination M.d.y * hs
  · linear_combination M.d.z * hs

/-! ## triangles -/

theorem normalVect_move (p : Fin 3 → V3) : TriElem.normalVect (fun i => M.pt (p i)) = M.vec (TriElem.normalVect p) := by
  unfold TriElem.normalVect
  rw [pt_sub, pt_sub, vec_cross]

theorem surf_move (p : Fin 3 → V3) : TriElem.surf (fun i => M.pt (p i)) = TriElem.surf p := by
  unfold TriElem.surf
  rw [normalVect_move, vec_norm]

theorem triWeight_move (G : TriElem.Rule) (p : Fin 3 → V3) (j : Fin G.n) :
    TriElem.weight G (fun i => M.pt (p i)) j = TriElem.weight G p j := by
  unfold TriElem.weight
  rw [surf_move]

theorem triInterpV_move (G : TriElem.Rule) (f : Fin 3 → V3) (j : Fin G.n) :
    TriElem.interpV G (fun i => M.vec (f i)) j = M.vec (TriElem.interpV G f j) := by
  unfold TriElem.interpV
  rw [vec_sum]
  simp only [vec_smul]

theorem unitNormal_move (p : Fin 3 → V3) : TriElem.unitNormal (fun i => M.pt (p i)) = M.vec (TriElem.unitNormal p) := by
  unfold TriElem.unitNormal
  rw [normalVect_move, vec_normalize]

theorem surfaceWork_move (H : TriElem.Rule) (sp : SurfPrm) (dMs : ℝ) (p u w : Fin 3 → V3) :
    surfaceWork H (M.sprm sp) dMs (fun i => M.pt (p i)) (fun i => M.vec (u i)) (fun i => M.vec (w i)) =
      surfaceWork H sp dMs p u w := by
  unfold surfaceWork
  simp only [triWeight_move, triInterpV_move]
  change 2 * sp.Ks / dMs * ∑ j, TriElem.weight H p j * (M.vec sp.uk).dot _ * (M.vec sp.uk).dot _ = _
  simp only [vec_dot]

theorem triPtGauss_move (G : TriElem.Rule) (p : Fin 3 → V3) (j : Fin G.n) :
    TriElem.ptGauss G (fun i => M.pt (p i)) j = M.pt (TriElem.ptGauss G p j) := by
  have hs : G.a 0 j + G.a 1 j + G.a 2 j = 1 := by
    simp [TriElem.Rule.a]
    ring
  unfold TriElem.ptGauss TriElem.interpV pt
  rw [vec_sum]
  simp only [Fin.sum_univ_three, vec_smul]
  ext <;> simp only [V3.add_x, V3.add_y, V3.add_z, V3.smul_x, V3.smul_y, V3.smul_z]
  · linear_combination M.d.x * hs
  · linear_combination M.d.y * hs
  · linear_combination M.d.z * hs

theorem triCharges_move (G : TriElem.Rule) (dMs : ℝ) (p u : Fin 3 → V3) (j : Fin G.n) :
    TriElem.charges G dMs (fun i => M.pt (p i)) (fun i => M.vec (u i)) j = TriElem.charges G dMs p u j := by
  unfold TriElem.charges
  rw [triWeight_move, triInterpV_move, unitNormal_move, vec_dot]

theorem triAnisotropyEnergy_move (G : TriElem.Rule) (Ks : ℝ) (uk : V3) (p u : Fin 3 → V3) :
    TriElem.anisotropyEnergy G Ks (M.vec uk) (fun i => M.pt (p i)) (fun i => M.vec (u i)) =
      TriElem.anisotropyEnergy G Ks uk p u := by
  unfold TriElem.anisotropyEnergy
  simp only [triWeight_move, triInterpV_move, vec_dot]

theorem triDemagEnergy_move (G : TriElem.Rule) (mu0 dMs : ℝ) (p u : Fin 3 → V3) (phi : Fin 3 → ℝ) :
    TriElem.demagEnergy G mu0 dMs (fun i => M.pt (p i)) (fun i => M.vec (u i)) phi = TriElem.demagEnergy G mu0 dMs p u phi := by
  unfold TriElem.demagEnergy
  simp only [triWeight_move, triInterpV_move, unitNormal_move, vec_dot]

theorem potentialAt_move (dMs : ℝ) (p u : Fin 3 → V3) (i : Fin 3) :
    TriElem.potentialAt dMs (fun i => M.pt (p i)) (fun i => M.vec (u i)) i = TriElem.potentialAt dMs p u i := by
  unfold TriElem.potentialAt TriElem.potential
  simp only [pt_sub, vec_norm, vec_dot, surf_move, unitNormal_move]

theorem correction_move (G : TriElem.Rule) (dMs : ℝ) (p u : Fin 3 → V3) (i : Fin 3) :
    TriElem.correction G dMs (fun i => M.pt (p i)) (fun i => M.vec (u i)) i = TriElem.correction G dMs p u i := by
  unfold TriElem.correction
  simp only [potentialAt_move, triCharges_move, triPtGauss_move, pt_sub, vec_norm]

end Verif.Motion
