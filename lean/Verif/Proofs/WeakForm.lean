import Verif.Spec.WeakForm
import Verif.Props.LlgElem

/-!
# The assembled system and the weak form
-/

namespace Verif.WeakForm

open Verif.Mesh Verif.Assembly Verif.Tetra Verif.SparseMat Verif.Llg

/-! ## one tetrahedron -/

theorem damping_eq (G : Rule) (p : Fin 4 → V3) (aeff : Fin G.n → ℝ) (v w : Fin 4 → V3) :
    damping G p aeff v w = ∑ i, contrib G p aeff i * (v i).dot (w i) := by
  unfold damping contrib interpS
  simp only [Finset.mul_sum, Finset.sum_mul]
  rw [Finset.sum_comm]
  exact Finset.sum_congr rfl fun i _ => Finset.sum_congr rfl fun j _ => by ring

theorem gyration_eq (G : Rule) (p u v w : Fin 4 → V3) :
    gyration G p u v w = ∑ i, aw G p i * ((u i).cross (v i)).dot (w i) := by
  unfold gyration aw interpS
  simp only [Finset.mul_sum, Finset.sum_mul]
  rw [Finset.sum_comm]
  exact Finset.sum_congr rfl fun i _ => Finset.sum_congr rfl fun j _ => by ring

/-- the bilinear form of `P AE Pᵀ` -/
theorem proj_bilin (G : Rule) (p u ep eq : Fin 4 → V3) (aeff : Fin G.n → ℝ) (pref : ℝ) (y x : Fin 2 → Fin 4 → ℝ) :
    ∑ i, ∑ k, ∑ a, ∑ b, y a i *
        (matP ep eq * lumping G p u aeff pref * (matP ep eq).transpose) (a, i) (b, k) * x b k =
      damping G p aeff (vec ep eq x) (vec ep eq y) + gyration G p u (vec ep eq x) (vec ep eq y)
        + pref * calcVol G p * gradDot p (vec ep eq x) (vec ep eq y) := by
  have h1 : ∀ i k, ∑ a, ∑ b, y a i *
      (matP ep eq * lumping G p u aeff pref * (matP ep eq).transpose) (a, i) (b, k) * x b k =
      (vec ep eq y i).dot (vec ep eq x k) * calcDiagBlock G p pref (contrib G p aeff) i k
        + if i = k then aw G p i * ((u i).cross (vec ep eq x i)).dot (vec ep eq y i) else 0 := by
    intro i k
    simp only [proj_entry, Fin.sum_univ_two]
    have t0 : ∀ i, tang ep eq 0 i = ep i := fun _ => rfl
    have t1 : ∀ i, tang ep eq 1 i = eq i := fun _ => rfl
    simp only [t0, t1]
    by_cases h : i = k
    · subst h
      simp only [if_true]
      unfold vec
      simp only [V3.dot, V3.cross, V3.add_x, V3.add_y, V3.add_z, V3.smul_x, V3.smul_y, V3.smul_z]
      ring
    · simp only [if_neg h]
      unfold vec
      simp only [V3.dot, V3.add_x, V3.add_y, V3.add_z, V3.smul_x, V3.smul_y, V3.smul_z]
      ring
  simp only [h1]
  rw [damping_eq, gyration_eq]
  generalize vec ep eq y = w
  generalize vec ep eq x = v
  have h2 : ∀ i k, (da p * (da p).transpose) i k = da p i 0 * da p k 0 + da p i 1 * da p k 1 + da p i 2 * da p k 2 := by
    intro i k
    rw [Matrix.mul_apply, Fin.sum_univ_three]
    rfl
  simp only [calcDiagBlock, h2, mul_add, Finset.sum_add_distrib, mul_ite, mul_zero, Finset.sum_ite_eq, Finset.mem_univ,
    if_true]
  have h3 : ∑ i, (w i).dot (v i) * contrib G p aeff i = ∑ i, contrib G p aeff i * (v i).dot (w i) :=
    Finset.sum_congr rfl fun i _ => by unfold V3.dot; ring
  rw [h3]
  unfold gradDot Tetra.deriv
  generalize ∑ i, contrib G p aeff i * (v i).dot (w i) = D
  generalize ∑ i, aw G p i * ((u i).cross (v i)).dot (w i) = Gy
  simp only [Fin.sum_univ_four, V3.dot, V3.add_x, V3.add_y, V3.add_z, V3.smul_x, V3.smul_y, V3.smul_z]
  ring

/-- the projected vector tested with components -/
theorem proj_vec (ep eq : Fin 4 → V3) (B : Fin 4 → V3) (y : Fin 2 → Fin 4 → ℝ) :
    ∑ i, ∑ a, y a i * ∑ c : Fin 3 × Fin 4, matP ep eq (a, i) c * (B c.2).comp c.1 =
      ∑ i, (vec ep eq y i).dot (B i) := by
  refine Finset.sum_congr rfl fun i _ => ?_
  simp only [matP_apply, Fintype.sum_prod_type, ite_mul, zero_mul, Finset.sum_ite_eq, Finset.mem_univ, if_true,
    Fin.sum_univ_two, Fin.sum_univ_three]
  have t0 : tang ep eq 0 i = ep i := rfl
  have t1 : tang ep eq 1 i = eq i := rfl
  rw [t0, t1]
  unfold vec
  simp only [V3.comp, V3.dot, V3.add_x, V3.add_y, V3.add_z, V3.smul_x, V3.smul_y, V3.smul_z]
  ring

theorem sum_dot {ι : Type} (S : Finset ι) (f : ι → V3) (b : V3) : (∑ i ∈ S, f i).dot b = ∑ i ∈ S, (f i).dot b := by
  simp only [V3.dot, V3.sum_x, V3.sum_y, V3.sum_z, Finset.sum_mul, Finset.sum_add_distrib]

theorem dot_sum {ι : Type} (S : Finset ι) (f : ι → V3) (b : V3) : b.dot (∑ i ∈ S, f i) = ∑ i ∈ S, b.dot (f i) := by
  simp only [V3.dot, V3.sum_x, V3.sum_y, V3.sum_z, Finset.mul_sum, Finset.sum_add_distrib]

theorem smul_dot (a : ℝ) (u v : V3) : (a * u).dot v = a * u.dot v := by
  simp only [V3.dot, V3.smul_x, V3.smul_y, V3.smul_z]; ring

theorem dot_smul (a : ℝ) (u v : V3) : u.dot (a * v) = a * u.dot v := by
  simp only [V3.dot, V3.smul_x, V3.smul_y, V3.smul_z]; ring

theorem add_dot (a b c : V3) : (a + b).dot c = a.dot c + b.dot c := by
  simp only [V3.dot, V3.add_x, V3.add_y, V3.add_z]; ring

theorem dot_add (a b c : V3) : a.dot (b + c) = a.dot b + a.dot c := by
  simp only [V3.dot, V3.add_x, V3.add_y, V3.add_z]; ring

theorem work_interp (G : Rule) (p : Fin 4 → V3) (F : Fin G.n → V3) (w : Fin 4 → V3) :
    work G p F w = ∑ i, (w i).dot (∑ j, (weight G p j * G.a i j) * F j) := by
  unfold work interpV
  simp only [dot_sum, Finset.mul_sum]
  rw [Finset.sum_comm]
  refine Finset.sum_congr rfl fun i _ => Finset.sum_congr rfl fun j _ => ?_
  rw [dot_smul, dot_smul, V3.dot_comm (w i)]
  ring

theorem drift_eq (G : Rule) (m : Prm) (s : Step) (n : Nodal) (dir : Option (Fin 3)) (V : ℝ) (w : Fin 4 → V3) :
    drift G m s n dir V w = ∑ i, (w i).dot (driftBE G m s n dir V i) := by
  unfold drift driftBE
  cases dir with
  | none => simp [V3.dot]
  | some d =>
    dsimp only
    unfold interpV
    simp only [dot_sum, Finset.mul_sum]
    rw [Finset.sum_comm]
    refine Finset.sum_congr rfl fun i _ => Finset.sum_congr rfl fun j _ => ?_
    rw [dot_smul, dot_smul, dot_smul, V3.dot_comm (w i)]
    have key : ∀ U Vv du dv : V3, m.alpha * (du + sdt s * dv) + U.cross du + sdt s * (U.cross dv + Vv.cross du) =
        m.alpha * du + U.cross du + sdt s * (m.alpha * dv + U.cross dv + Vv.cross du) := by
      intro U Vv du dv
      ext <;> simp only [V3.add_x, V3.add_y, V3.add_z, V3.smul_x, V3.smul_y, V3.smul_z] <;> ring
    rw [key]
    ring

/-- the vector `BE` tested with a field -/
theorem BE_eq (G : Rule) (m : Prm) (s : Step) (hg : s.gamma0 ≠ 0) (n : Nodal) (Hext Hst : Fin G.n → V3) (dir : Option (Fin 3)) (V : ℝ)
    (w : Fin 4 → V3) :
    ∑ i, (w i).dot (BE G m s n Hext Hst dir V i) =
      -(abis m s) * calcVol G n.p * gradDot n.p n.u w + work G n.p (explicitField G m s n Hext Hst) w
        + drift G m s n dir V w := by
  have hs : sdt s / s.gamma0 = s.theta * s.dt := by
    unfold sdt
    field_simp
  rw [drift_eq, work_interp]
  have e : ∀ i, (w i).dot (BE G m s n Hext Hst dir V i) = (w i).dot (driftBE G m s n dir V i)
      + (-(abis m s) * calcVol G n.p * (w i).dot (da n.p i 0 * Tetra.deriv n.p 0 n.u + da n.p i 1 * Tetra.deriv n.p 1 n.u
          + da n.p i 2 * Tetra.deriv n.p 2 n.u))
      + (w i).dot (∑ j, (weight G n.p j * G.a i j) * explicitField G m s n Hext Hst j) := by
    intro i
    unfold BE
    refine (dot_add _ _ _).trans (Eq.trans (congrArg ((w i).dot (driftBE G m s n dir V i) + ·) ?_) (add_assoc _ _ _).symm)
    have hsplit : ∀ j, ((-(weight G n.p j * abis m s)) * (da n.p i 0 * Tetra.deriv n.p 0 n.u
          + da n.p i 1 * Tetra.deriv n.p 1 n.u + da n.p i 2 * Tetra.deriv n.p 2 n.u)
        + (weight G n.p j * G.a i j) * (interpField n.p n.phi + Hext j + hAniso m s (interpV G n.u j) (interpV G n.v j)
            + (sdt s / s.gamma0) * interpField n.p n.phiv + Hst j)
        - (weight G n.p j * G.a i j * (Hst j).dot (interpV G n.u j) * sdt s) * interpV G n.v j)
        = (-(weight G n.p j * abis m s)) * (da n.p i 0 * Tetra.deriv n.p 0 n.u
          + da n.p i 1 * Tetra.deriv n.p 1 n.u + da n.p i 2 * Tetra.deriv n.p 2 n.u)
          + (weight G n.p j * G.a i j) * explicitField G m s n Hext Hst j := by
      intro j
      rw [hs]
      unfold explicitField sdt
      ext <;> simp only [V3.add_x, V3.add_y, V3.add_z, V3.sub_x, V3.sub_y, V3.sub_z, V3.smul_x, V3.smul_y, V3.smul_z] <;> ring
    refine Eq.trans (congrArg (V3.dot (w i)) (Finset.sum_congr rfl fun j _ => hsplit j)) ?_
    rw [Finset.sum_add_distrib, dot_add]
    congr 1
    rw [dot_sum]
    simp only [dot_smul]
    rw [← Finset.sum_mul]
    congr 1
    unfold calcVol
    rw [Finset.mul_sum]
    exact Finset.sum_congr rfl fun j _ => by ring
  simp only [e, Finset.sum_add_distrib]
  have hx : ∑ i, -(abis m s) * calcVol G n.p * (w i).dot (da n.p i 0 * Tetra.deriv n.p 0 n.u
      + da n.p i 1 * Tetra.deriv n.p 1 n.u + da n.p i 2 * Tetra.deriv n.p 2 n.u)
      = -(abis m s) * calcVol G n.p * gradDot n.p n.u w := by
    rw [← Finset.mul_sum]
    congr 1
    unfold gradDot
    have hd : ∀ (d : Fin 3) (b : V3), b.dot (Tetra.deriv n.p d w) = ∑ i, (w i).dot (da n.p i d * b) := by
      intro d b
      unfold Tetra.deriv
      rw [dot_sum]
      refine Finset.sum_congr rfl fun i _ => ?_
      rw [dot_smul, dot_smul, V3.dot_comm]
    rw [hd 0, hd 1, hd 2, ← Finset.sum_add_distrib, ← Finset.sum_add_distrib]
    refine Finset.sum_congr rfl fun i _ => ?_
    rw [dot_add, dot_add]
  rw [hx]
  ring

theorem gradDot_add_smul (p f g w : Fin 4 → V3) (c : ℝ) :
    gradDot p (fun i => f i + c * g i) w = gradDot p f w + c * gradDot p g w := by
  have hd : ∀ d, Tetra.deriv p d (fun i => f i + c * g i) = Tetra.deriv p d f + c * Tetra.deriv p d g := by
    intro d
    unfold Tetra.deriv
    ext <;> simp only [Fin.sum_univ_four, V3.add_x, V3.add_y, V3.add_z, V3.smul_x, V3.smul_y, V3.smul_z] <;> ring
  unfold gradDot
  rw [hd, hd, hd]
  simp only [add_dot, smul_dot]
  ring

/-- the element matrix and vector tested with components are the residual tested with the field -/
theorem elem_residual (G : Rule) (m : Prm) (s : Step) (hg : s.gamma0 ≠ 0) (n : Nodal) (Hext Hst : Fin G.n → V3)
    (dir : Option (Fin 3)) (V : ℝ) (y x : Fin 2 → Fin 4 → ℝ) :
    (∑ i, ∑ k, ∑ a, ∑ b, y (1 - a) i * Kp G m s n Hext Hst (a, i) (b, k) * x b k)
      - ∑ i, ∑ a, y (1 - a) i * Lp G m s n Hext Hst dir V (a, i) =
    residual G m s n Hext Hst dir V (vec n.ep n.eq x) (vec n.ep n.eq y) := by
  have s0 : (1 : Fin 2) - 0 = 1 := rfl
  have s1 : (1 : Fin 2) - 1 = 0 := rfl
  have h1 := proj_bilin G n.p n.u n.ep n.eq (effDamping G m s n Hext Hst) (s.prefactor * sdt s * abis m s) y x
  have h2 := proj_vec n.ep n.eq (BE G m s n Hext Hst dir V) y
  rw [BE_eq G m s hg] at h2
  have h3 : ∑ i, ∑ k, ∑ a, ∑ b, y (1 - a) i * Kp G m s n Hext Hst (a, i) (b, k) * x b k =
      ∑ i, ∑ k, ∑ a, ∑ b, y a i * (matP n.ep n.eq * lumping G n.p n.u (effDamping G m s n Hext Hst)
        (s.prefactor * sdt s * abis m s) * (matP n.ep n.eq).transpose) (a, i) (b, k) * x b k := by
    refine Finset.sum_congr rfl fun i _ => Finset.sum_congr rfl fun k _ => ?_
    have e : ∀ a b, Kp G m s n Hext Hst (a, i) (b, k) = (matP n.ep n.eq * lumping G n.p n.u (effDamping G m s n Hext Hst)
        (s.prefactor * sdt s * abis m s) * (matP n.ep n.eq).transpose) (1 - a, i) (b, k) := fun a b => rfl
    simp only [e, Fin.sum_univ_two, s0, s1]
    ring
  have h4 : ∑ i, ∑ a, y (1 - a) i * Lp G m s n Hext Hst dir V (a, i) =
      ∑ i, ∑ a, y a i * ∑ c : Fin 3 × Fin 4, matP n.ep n.eq (a, i) c * (BE G m s n Hext Hst dir V c.2).comp c.1 := by
    refine Finset.sum_congr rfl fun i _ => ?_
    have e : ∀ a, Lp G m s n Hext Hst dir V (a, i) =
      ∑ c : Fin 3 × Fin 4, matP n.ep n.eq (1 - a, i) c * (BE G m s n Hext Hst dir V c.2).comp c.1 := fun a => rfl
    simp only [e, Fin.sum_univ_two, s0, s1]
    ring
  rw [h3, h4, h1, h2]
  unfold residual
  rw [gradDot_add_smul]
  unfold sdt abis
  ring

end Verif.WeakForm
