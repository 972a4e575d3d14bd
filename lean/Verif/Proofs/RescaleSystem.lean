import Verif.Spec.Rescale
import Verif.Proofs.Descent
import Verif.Props.Run

/-!
# Element matrices, right hand side, energies and potentials with stronger fields and shorter times
-/

namespace Verif.Rescale

open Verif.Mesh Verif.Tetra Verif.Llg Verif.Assembly Verif.Run

variable {c : ℝ} {G : Rule}

theorem comp_smul (k : ℝ) (a : V3) (d : Fin 3) : (k * a : V3).comp d = k * a.comp d := by
  fin_cases d <;> rfl

theorem deriv_smul (p : Fin 4 → V3) (d : Fin 3) (k : ℝ) (f : Fin 4 → V3) : deriv p d (fun i => k * f i) = k * deriv p d f := by
  unfold Tetra.deriv
  rw [Fin.sum_univ_four, Fin.sum_univ_four]
  ext <;> simp only [V3.add_x, V3.add_y, V3.add_z, V3.smul_x, V3.smul_y, V3.smul_z] <;> ring

theorem interpV_smul (k : ℝ) (f : Fin 4 → V3) (j : Fin G.n) : interpV G (fun i => k * f i) j = k * interpV G f j := by
  unfold interpV
  rw [Fin.sum_univ_four, Fin.sum_univ_four]
  ext <;> simp only [V3.add_x, V3.add_y, V3.add_z, V3.smul_x, V3.smul_y, V3.smul_z] <;> ring

theorem interpField_smul (p : Fin 4 → V3) (k : ℝ) (f : Fin 4 → ℝ) : interpField p (fun i => k * f i) = k * interpField p f := by
  unfold interpField
  rw [Fin.sum_univ_four, Fin.sum_univ_four]
  ext <;> simp only [V3.add_x, V3.add_y, V3.add_z, V3.smul_x, V3.smul_y, V3.smul_z, V3.neg_x, V3.neg_y, V3.neg_z] <;> ring

theorem sum_smul {ι : Type} (s : Finset ι) (k : ℝ) (f : ι → V3) : ∑ i ∈ s, (k * f i : V3) = k * ∑ i ∈ s, f i := by
  classical
  induction s using Finset.induction_on with
  | empty => ext <;> simp
  | insert a s ha ih =>
    rw [Finset.sum_insert ha, Finset.sum_insert ha, ih]
    ext <;> simp only [V3.add_x, V3.add_y, V3.add_z, V3.smul_x, V3.smul_y, V3.smul_z] <;> ring

/-- the constants of an attempt -/
noncomputable def stepOf (c : ℝ) (s : Step) : Step := { s with dt := s.dt / c }

/-- what an element reads from its nodes -/
noncomputable def nodal (c : ℝ) (n : Nodal) : Nodal :=
  { n with v := fun i => c * n.v i, phi := fun i => c * n.phi i, phiv := fun i => c ^ 2 * n.phiv i }

theorem sdt_stepOf (s : Step) : sdt (stepOf c s) = sdt s / c := by
  unfold sdt stepOf
  ring

theorem coef_prm (hc : c ≠ 0) (x mu0 Ms : ℝ) : 2 * (c ^ 2 * x) / (mu0 * (c * Ms)) = c * (2 * x / (mu0 * Ms)) := by
  rcases eq_or_ne (mu0 * Ms) 0 with h | h
  · rw [show mu0 * (c * Ms) = c * (mu0 * Ms) by ring, h]
    simp
  · have h1 : mu0 ≠ 0 := fun e => h (by rw [e, zero_mul])
    have h2 : Ms ≠ 0 := fun e => h (by rw [e, mul_zero])
    field_simp

theorem abis_prm (hc : c ≠ 0) (m : Prm) (s : Step) : abis (prm c m) (stepOf c s) = c * abis m s := coef_prm hc _ _ _

theorem alphaEff_scale (hc : 0 < c) (g dt alpha h : ℝ) : alphaEff g (dt / c) alpha (c * h) = alphaEff g dt alpha h := by
  have e1 : 2 * alpha * (1 / 10) / (g * (dt / c)) = c * (2 * alpha * (1 / 10) / (g * dt)) := by
    rcases eq_or_ne (g * dt) 0 with h0 | h0
    · rw [show g * (dt / c) = g * dt / c by ring, h0]
      simp
    · have h1 : g ≠ 0 := fun e => h0 (by rw [e, zero_mul])
      have h2 : dt ≠ 0 := fun e => h0 (by rw [e, mul_zero])
      field_simp
  unfold alphaEff
  dsimp only
  rw [e1]
  generalize 2 * alpha * (1 / 10) / (g * dt) = M
  have a1 : ∀ x y : ℝ, g * (dt / c) / y * (c * x) = g * dt / y * x := by
    intro x y
    rw [show g * (dt / c) / y * (c * x) = g * dt / y * x * (c / c) by ring, div_self hc.ne', mul_one]
  rw [a1, a1, a1, a1]
  have i1 : (c * h > 0) ↔ h > 0 := mul_pos_iff_of_pos_left hc
  have i2 : (c * h > c * M) ↔ h > M := mul_lt_mul_iff_right₀ hc
  have i3 : (c * h < -(c * M)) ↔ h < -M := by rw [← mul_neg]; exact mul_lt_mul_iff_right₀ hc
  by_cases b1 : h > 0
  · rw [if_pos b1, if_pos (i1.mpr b1)]
    by_cases b2 : h > M
    · rw [if_pos b2, if_pos (i2.mpr b2)]
    · rw [if_neg b2, if_neg (mt i2.mp b2)]
  · rw [if_neg b1, if_neg (mt i1.mp b1)]
    by_cases b2 : h < -M
    · rw [if_pos b2, if_pos (i3.mpr b2)]
    · rw [if_neg b2, if_neg (mt i3.mp b2)]

theorem sq_mul_ne (hc : c ≠ 0) (x : ℝ) : c ^ 2 * x ≠ 0 ↔ x ≠ 0 := by
  simp [hc]

theorem uHeff_scale (hc : 0 < c) (m : Prm) (s : Step) (n : Nodal) (He : Fin G.n → V3) (j : Fin G.n) :
    uHeff G (prm c m) (stepOf c s) (nodal c n) (fun j => c * He j) j = c * uHeff G m s n He j := by
  unfold uHeff
  dsimp only
  rw [abis_prm hc.ne']
  have k1 : 2 * (prm c m).K / ((stepOf c s).mu0 * (prm c m).Ms) = c * (2 * m.K / (s.mu0 * m.Ms)) := coef_prm hc.ne' _ _ _
  have k2 : 2 * (prm c m).K3 / ((stepOf c s).mu0 * (prm c m).Ms) = c * (2 * m.K3 / (s.mu0 * m.Ms)) := coef_prm hc.ne' _ _ _
  rw [k1, k2]
  have n1 : ((prm c m).K ≠ 0) = (m.K ≠ 0) := propext (sq_mul_ne hc.ne' _)
  have n2 : ((prm c m).K3 ≠ 0) = (m.K3 ≠ 0) := propext (sq_mul_ne hc.ne' _)
  simp only [n1, n2]
  change -(c * abis m s) * ((deriv n.p 0 n.u).nsq + (deriv n.p 1 n.u).nsq + (deriv n.p 2 n.u).nsq)
    + (if m.K ≠ 0 then anisoUniaxUH m.uk (c * (2 * m.K / (s.mu0 * m.Ms))) (interpV G n.u j) else 0)
    + (if m.K3 ≠ 0 then anisoCubUH m.ex m.ey m.ez (c * (2 * m.K3 / (s.mu0 * m.Ms))) (interpV G n.u j) else 0)
    + (interpV G n.u j).dot (c * He j) = _
  have a1 : anisoUniaxUH m.uk (c * (2 * m.K / (s.mu0 * m.Ms))) (interpV G n.u j) =
      c * anisoUniaxUH m.uk (2 * m.K / (s.mu0 * m.Ms)) (interpV G n.u j) := by
    unfold anisoUniaxUH
    ring
  have a2 : anisoCubUH m.ex m.ey m.ez (c * (2 * m.K3 / (s.mu0 * m.Ms))) (interpV G n.u j) =
      c * anisoCubUH m.ex m.ey m.ez (2 * m.K3 / (s.mu0 * m.Ms)) (interpV G n.u j) := by
    unfold anisoCubUH
    ring
  have a3 : (interpV G n.u j).dot (c * He j) = c * (interpV G n.u j).dot (He j) := by
    simp only [V3.dot, V3.smul_x, V3.smul_y, V3.smul_z]
    ring
  rw [a1, a2, a3]
  split_ifs <;> ring

theorem he_scale (n : Nodal) (Hext Hst : Fin G.n → V3) : (fun j => interpField (nodal c n).p (nodal c n).phi + c * Hext j + c * Hst j) =
    fun j => c * (interpField n.p n.phi + Hext j + Hst j) := by
  funext j
  change interpField n.p (fun i => c * n.phi i) + c * Hext j + c * Hst j = _
  rw [interpField_smul]
  ext <;> simp only [V3.add_x, V3.add_y, V3.add_z, V3.smul_x, V3.smul_y, V3.smul_z] <;> ring

/-- the matrix of an element is the same -/
theorem Kp_scale (hc : 0 < c) (m : Prm) (s : Step) (n : Nodal) (Hext Hst : Fin G.n → V3) :
    Kp G (prm c m) (stepOf c s) (nodal c n) (fun j => c * Hext j) (fun j => c * Hst j) = Kp G m s n Hext Hst := by
  unfold Kp
  dsimp only
  have e : (stepOf c s).prefactor * sdt (stepOf c s) * abis (prm c m) (stepOf c s) = s.prefactor * sdt s * abis m s := by
    rw [sdt_stepOf, abis_prm hc.ne']
    change s.prefactor * (sdt s / c) * (c * abis m s) = _
    field_simp
  rw [e, he_scale]
  have e2 : (fun j => alphaEff (stepOf c s).gamma0 (stepOf c s).dt (prm c m).alpha
      (uHeff G (prm c m) (stepOf c s) (nodal c n) (fun j => c * (interpField n.p n.phi + Hext j + Hst j)) j)) =
      fun j => alphaEff s.gamma0 s.dt m.alpha (uHeff G m s n (fun j => interpField n.p n.phi + Hext j + Hst j) j) := by
    funext j
    rw [uHeff_scale hc]
    exact alphaEff_scale hc _ _ _ _
  rw [e2]
  rfl

theorem hAniso_scale (hc : 0 < c) (m : Prm) (s : Step) (U V : V3) :
    hAniso (prm c m) (stepOf c s) U (c * V) = c * hAniso m s U V := by
  unfold hAniso
  have k1 : 2 * (prm c m).K / ((stepOf c s).mu0 * (prm c m).Ms) = c * (2 * m.K / (s.mu0 * m.Ms)) := coef_prm hc.ne' _ _ _
  have k2 : 2 * (prm c m).K3 / ((stepOf c s).mu0 * (prm c m).Ms) = c * (2 * m.K3 / (s.mu0 * m.Ms)) := coef_prm hc.ne' _ _ _
  rw [k1, k2, sdt_stepOf]
  have n1 : ((prm c m).K ≠ 0) = (m.K ≠ 0) := propext (sq_mul_ne hc.ne' _)
  have n2 : ((prm c m).K3 ≠ 0) = (m.K3 ≠ 0) := propext (sq_mul_ne hc.ne' _)
  simp only [n1, n2]
  change (if m.K ≠ 0 then anisoUniaxH m.uk (c * (2 * m.K / (s.mu0 * m.Ms))) (sdt s / c / s.gamma0) U (c * V) else 0)
    + (if m.K3 ≠ 0 then anisoCubH m.ex m.ey m.ez (c * (2 * m.K3 / (s.mu0 * m.Ms))) (sdt s / c / s.gamma0) U (c * V) else 0) = _
  have hs : ∀ x : ℝ, sdt s / c / s.gamma0 * (c * x) = sdt s / s.gamma0 * x := by
    intro x
    rw [show sdt s / c / s.gamma0 * (c * x) = sdt s / s.gamma0 * x * (c / c) by ring, div_self hc.ne', mul_one]
  have a1 : anisoUniaxH m.uk (c * (2 * m.K / (s.mu0 * m.Ms))) (sdt s / c / s.gamma0) U (c * V) =
      c * anisoUniaxH m.uk (2 * m.K / (s.mu0 * m.Ms)) (sdt s / s.gamma0) U V := by
    unfold anisoUniaxH
    have : ((sdt s / c / s.gamma0) * (c * V) : V3) = (sdt s / s.gamma0) * V := by
      ext <;> simp only [V3.smul_x, V3.smul_y, V3.smul_z] <;> exact hs _
    rw [this]
    ext <;> simp only [V3.smul_x, V3.smul_y, V3.smul_z] <;> ring
  have a2 : anisoCubH m.ex m.ey m.ez (c * (2 * m.K3 / (s.mu0 * m.Ms))) (sdt s / c / s.gamma0) U (c * V) =
      c * anisoCubH m.ex m.ey m.ez (2 * m.K3 / (s.mu0 * m.Ms)) (sdt s / s.gamma0) U V := by
    unfold anisoCubH cwise
    generalize 2 * m.K3 / (s.mu0 * m.Ms) = K
    have hx := fun a b => hs (a * b)
    have d : ∀ a : V3, a.dot (c * V) = c * a.dot V := fun a => by
      simp only [V3.dot, V3.smul_x, V3.smul_y, V3.smul_z]
      ring
    ext <;> simp only [V3.add_x, V3.add_y, V3.add_z, V3.sub_x, V3.sub_y, V3.sub_z, V3.smul_x, V3.smul_y, V3.smul_z, d]
    · linear_combination (-(c * K)) * hs (m.ex.dot V * m.ex.x * (1 - 3 * (m.ex.dot U * m.ex.dot U)))
    · linear_combination (-(c * K)) * hs (m.ey.dot V * m.ex.y * (1 - 3 * (m.ey.dot U * m.ey.dot U)))
    · linear_combination (-(c * K)) * hs (m.ez.dot V * m.ex.z * (1 - 3 * (m.ez.dot U * m.ez.dot U)))
  rw [a1, a2]
  split_ifs <;> ext <;> simp only [V3.add_x, V3.add_y, V3.add_z, V3.smul_x, V3.smul_y, V3.smul_z, V3.zero_x, V3.zero_y, V3.zero_z] <;> ring

theorem driftBE_scale (hc : 0 < c) (m : Prm) (s : Step) (n : Nodal) (dir : Option (Fin 3)) (V : ℝ) (i : Fin 4) :
    driftBE G (prm c m) (stepOf c s) (nodal c n) dir (c * V) i = c * driftBE G m s n dir V i := by
  unfold driftBE
  cases dir with
  | none => ext <;> simp
  | some d =>
    dsimp only
    rw [← sum_smul]
    refine Finset.sum_congr rfl fun j _ => ?_
    rw [sdt_stepOf]
    change ((c * V * weight G n.p j) * (G.a i j * (m.alpha * deriv n.p d n.u + (interpV G n.u j).cross (deriv n.p d n.u)
      + (sdt s / c) * (m.alpha * deriv n.p d (fun i => c * n.v i) + (interpV G n.u j).cross (deriv n.p d (fun i => c * n.v i))
        + (interpV G (fun i => c * n.v i) j).cross (deriv n.p d n.u)))) : V3) = _
    rw [deriv_smul, interpV_smul]
    have e : ((sdt s / c) * (m.alpha * (c * deriv n.p d n.v) + (interpV G n.u j).cross (c * deriv n.p d n.v)
        + (c * interpV G n.v j : V3).cross (deriv n.p d n.u)) : V3) =
        sdt s * (m.alpha * deriv n.p d n.v + (interpV G n.u j).cross (deriv n.p d n.v)
          + (interpV G n.v j).cross (deriv n.p d n.u)) := by
      ext <;> simp only [V3.add_x, V3.add_y, V3.add_z, V3.smul_x, V3.smul_y, V3.smul_z, V3.cross] <;> field_simp
    rw [e]
    ext <;> simp only [V3.smul_x, V3.smul_y, V3.smul_z] <;> ring

/-- the right hand side of an element goes as the fields -/
theorem BE_scale (hc : 0 < c) (m : Prm) (s : Step) (n : Nodal) (Hext Hst : Fin G.n → V3) (dir : Option (Fin 3)) (V : ℝ) (i : Fin 4) :
    BE G (prm c m) (stepOf c s) (nodal c n) (fun j => c * Hext j) (fun j => c * Hst j) dir (c * V) i =
      c * BE G m s n Hext Hst dir V i := by
  unfold BE
  rw [driftBE_scale hc]
  have hsum : ∀ a b : V3, (c * (a + b) : V3) = c * a + c * b := fun a b => by
    ext <;> simp only [V3.add_x, V3.add_y, V3.add_z, V3.smul_x, V3.smul_y, V3.smul_z] <;> ring
  rw [hsum, ← sum_smul]
  congr 1
  refine Finset.sum_congr rfl fun j _ => ?_
  dsimp only
  rw [abis_prm hc.ne', sdt_stepOf]
  change ((-(weight G n.p j * (c * abis m s))) * (da n.p i 0 * deriv n.p 0 n.u + da n.p i 1 * deriv n.p 1 n.u + da n.p i 2 * deriv n.p 2 n.u)
     + (weight G n.p j * G.a i j) * (interpField n.p (fun i => c * n.phi i) + c * Hext j
        + hAniso (prm c m) (stepOf c s) (interpV G n.u j) (interpV G (fun i => c * n.v i) j)
        + (sdt s / c / s.gamma0) * interpField n.p (fun i => c ^ 2 * n.phiv i) + c * Hst j)
     - (weight G n.p j * G.a i j * (c * Hst j : V3).dot (interpV G n.u j) * (sdt s / c)) * interpV G (fun i => c * n.v i) j : V3) = _
  rw [interpField_smul, interpV_smul, hAniso_scale hc, interpField_smul]
  have d : (c * Hst j : V3).dot (interpV G n.u j) = c * (Hst j).dot (interpV G n.u j) := by
    simp only [V3.dot, V3.smul_x, V3.smul_y, V3.smul_z]
    ring
  rw [d]
  have k1 : ∀ x : ℝ, sdt s / c / s.gamma0 * (c ^ 2 * x) = c * (sdt s / s.gamma0 * x) := fun x => by
    rw [show sdt s / c / s.gamma0 * (c ^ 2 * x) = c * (sdt s / s.gamma0 * x) * (c / c) by ring, div_self hc.ne', mul_one]
  have k2 : ∀ y x : ℝ, y * (sdt s / c) * (c * x) = y * sdt s * x := fun y x => by
    rw [show y * (sdt s / c) * (c * x) = y * sdt s * x * (c / c) by ring, div_self hc.ne', mul_one]
  ext <;> simp only [V3.add_x, V3.add_y, V3.add_z, V3.sub_x, V3.sub_y, V3.sub_z, V3.smul_x, V3.smul_y, V3.smul_z, k1, k2] <;> ring

theorem Lp_scale (hc : 0 < c) (m : Prm) (s : Step) (n : Nodal) (Hext Hst : Fin G.n → V3) (dir : Option (Fin 3)) (V : ℝ)
    (r : Fin 2 × Fin 4) :
    Lp G (prm c m) (stepOf c s) (nodal c n) (fun j => c * Hext j) (fun j => c * Hst j) dir (c * V) r =
      c * Lp G m s n Hext Hst dir V r := by
  unfold Lp permRows
  rw [Finset.mul_sum]
  refine Finset.sum_congr rfl fun k _ => ?_
  rw [BE_scale hc, comp_smul]
  change matP n.ep n.eq _ _ * _ = _
  ring

/-! ## The assembled system -/

/-- an element whose vector is multiplied by `c` -/
def elem {N : ℕ} (c : ℝ) (e : Elem N ℝ) : Elem N ℝ := { e with Le := fun r => c * e.Le r }

theorem nodalOf_scale (nd : ℕ → Node) (t : Tet) : nodalOf (fun i => node c (nd i)) t = nodal c (nodalOf nd t) := rfl

theorem tetElem_scale (hc : 0 < c) (P : ℕ → Prm) (s : Step) (nd : ℕ → Node) (Hext Hst : Tet → Fin G.n → V3) (dir : Option (Fin 3))
    (V : ℝ) (t : Tet) :
    tetElem G (fun r => prm c (P r)) (stepOf c s) (fun i => node c (nd i)) (fun t j => c * Hext t j) (fun t j => c * Hst t j) dir
      (c * V) t = elem c (tetElem G P s nd Hext Hst dir V t) := by
  unfold tetElem elem
  dsimp only
  congr 1
  · funext r k
    rw [nodalOf_scale, Kp_scale hc]
  · funext r
    rw [nodalOf_scale, Lp_scale hc]

theorem triElem_scale (hc : 0 < c) (H : TriElem.Rule) (S : ℕ → SurfPrm) (nd : ℕ → Node) (f : Tri × ℝ) :
    triElem H (fun r => sprm c (S r)) (fun i => node c (nd i)) (tri c f) = elem c (triElem H S nd f) := by
  unfold triElem elem
  dsimp only
  congr 1
  funext r
  by_cases hK : (S f.1.reg).Ks ≠ 0
  · have h1 : (sprm c (S (tri c f).1.reg)).Ks ≠ 0 := (sq_mul_ne hc.ne' _).mpr hK
    rw [if_pos hK, if_pos h1]
    unfold LpTri
    rw [Finset.mul_sum]
    refine Finset.sum_congr rfl fun k _ => ?_
    have e : TriElem.BE H (sprm c (S (tri c f).1.reg)).Ks (tri c f).2 (sprm c (S (tri c f).1.reg)).uk
        (fun i => (node c (nd ((tri c f).1.ind i))).p) (fun i => (node c (nd ((tri c f).1.ind i))).cur.u) k.2 =
        c * TriElem.BE H (S f.1.reg).Ks f.2 (S f.1.reg).uk (fun i => (nd (f.1.ind i)).p) (fun i => (nd (f.1.ind i)).cur.u) k.2 := by
      unfold TriElem.BE
      rw [← sum_smul]
      refine Finset.sum_congr rfl fun j _ => ?_
      have q : 2 * (sprm c (S (tri c f).1.reg)).Ks / (tri c f).2 = c * (2 * (S f.1.reg).Ks / f.2) := by
        change 2 * (c ^ 2 * (S f.1.reg).Ks) / (c * f.2) = _
        rcases eq_or_ne f.2 0 with h0 | h0
        · rw [h0]
          simp
        · field_simp
      rw [q]
      ext <;> simp only [V3.smul_x, V3.smul_y, V3.smul_z] <;> simp only [sprm, node, data, tri] <;> ring
    rw [e, comp_smul]
    change matP3 _ _ _ _ * _ = c * (matP3 _ _ _ _ * _)
    dsimp only [node, tri]
    ring
  · have h1 : ¬ (sprm c (S (tri c f).1.reg)).Ks ≠ 0 := fun h => hK ((sq_mul_ne hc.ne' _).mp h)
    rw [if_neg hK, if_neg h1, mul_zero]

theorem buildVect_elem {N : ℕ} (D : ℕ) (e : Elem N ℝ) : buildVectCalls D (elem c e) = (buildVectCalls D e).map fun x => (x.1, c * x.2) := by
  unfold buildVectCalls elem
  rw [List.map_flatMap]
  simp only [List.map_map]
  rfl

theorem runVect_scale (l : List (ℕ × ℝ)) : ∀ v : List ℝ, runVect (v.map (c * ·)) (l.map fun x => (x.1, c * x.2)) =
    (runVect v l).map fun v => v.map (c * ·) := by
  induction l with
  | nil => intro v; rfl
  | cons x l ih =>
    intro v
    rw [List.map_cons]
    unfold runVect
    unfold vecAdd
    rw [List.length_map]
    by_cases h : x.1 < v.length
    · rw [if_pos h, if_pos h]
      simp only [Option.bind_some]
      rw [← ih]
      congr 1
      apply List.ext_getElem
      · simp
      · intro i h1 h2
        simp only [List.getElem_modify, List.getElem_map]
        split_ifs
        · ring
        · rfl
    · rw [if_neg h, if_neg h]
      rfl

theorem mask_scale (l : List ℕ) : ∀ v : List ℝ, l.foldl (fun v i => v.set i 0) (v.map (c * ·)) =
    (l.foldl (fun v i => v.set i 0) v).map (c * ·) := by
  induction l with
  | nil => intro v; rfl
  | cons i l ih =>
    intro v
    rw [List.foldl_cons, List.foldl_cons, ← ih]
    congr 1
    rw [List.map_set, mul_zero]

theorem llgRhs_scale (magN : List Bool) (nod : ℕ) (tets : List (Elem 4 ℝ)) (tris : List (Elem 3 ℝ)) :
    llgRhs magN nod (tets.map (elem c)) (tris.map (elem c)) = (llgRhs magN nod tets tris).map fun b => b.map (c * ·) := by
  unfold llgRhs
  have e : (tets.map (elem c)).flatMap (buildVectCalls 2) ++ (tris.map (elem c)).flatMap (buildVectCalls 2) =
      (tets.flatMap (buildVectCalls 2) ++ tris.flatMap (buildVectCalls 2)).map fun x => (x.1, c * x.2) := by
    rw [List.map_append, List.flatMap_map, List.flatMap_map, List.map_flatMap, List.map_flatMap]
    simp only [buildVect_elem]
  have z : (List.replicate (2 * nod) (0 : ℝ)) = (List.replicate (2 * nod) (0 : ℝ)).map (c * ·) := by simp
  rw [e]
  conv_lhs => rw [z]
  rw [runVect_scale, Option.map_map, Option.map_map]
  congr 1
  funext v
  exact mask_scale _ _

/-- the sample with stronger magnetizations -/
noncomputable def problem (c : ℝ) (P : Problem) : Problem :=
  { P with prm := fun r => prm c (P.prm r), sprm := fun r => sprm c (P.sprm r), tris := P.tris.map (tri c) }

/-- stronger fields -/
noncomputable def fields {P : Problem} (c : ℝ) (F : Fields P) : Fields (problem c P) :=
  ⟨fun t j => c * F.Hext t j, fun t j => c * F.Hst t j, c * F.V⟩

theorem ext_nodes {n : ℕ} (nd : Fin n → Node) : ext (nodes c nd) = fun i => node c (ext nd i) := by
  funext i
  unfold Run.ext
  split_ifs
  · rfl
  · simp only [node, data, mul_zero]
    have : (c * (0 : V3) : V3) = 0 := by ext <;> simp
    rw [this]

theorem prefactor_scale (hc : c ≠ 0) (dtmax dt : ℝ) : Llg.prefactor (dtmax / c) (dt / c) = Llg.prefactor dtmax dt := by
  unfold Llg.prefactor
  have : dt / c / (100 * (dtmax / c)) = dt / (100 * dtmax) := by
    rw [mul_div_assoc', div_div_div_cancel_right₀ hc]
  rw [this]

theorem system_scale (hc : 0 < c) {n : ℕ} {ET ET' : Type} {P : Problem} {cfg : Cfg n ET} {cfg' : Cfg n ET'} (hg : cfg'.gamma0 = cfg.gamma0)
    (hD : cfg'.DTMAX = cfg.DTMAX / c) (F : Fields P) (nd : Fin n → Node) (dt : ℝ) {M : SparseMat.Sp ℝ} {b : List ℝ}
    (h : IsSystem P cfg F nd dt M b) : IsSystem (problem c P) cfg' (fields c F) (nodes c nd) (dt / c) M (b.map (c * ·)) := by
  obtain ⟨order, orderT, before, h1, h2, h3, h4, h5⟩ := h
  have hs : (problem c P).step cfg' (dt / c) = stepOf c (P.step cfg dt) := by
    unfold Problem.step stepOf
    rw [hg, hD, prefactor_scale hc.ne']
    rfl
  have ht : ∀ t, tetElem (problem c P).G (problem c P).prm ((problem c P).step cfg' (dt / c)) (ext (nodes c nd)) (fields c F).Hext
      (fields c F).Hst (problem c P).dir (fields c F).V t =
      elem c (tetElem P.G P.prm (P.step cfg dt) (ext nd) F.Hext F.Hst P.dir F.V t) := by
    intro t
    rw [hs, ext_nodes]
    exact tetElem_scale hc _ _ _ _ _ _ _ _
  refine ⟨order, orderT.map (tri c), before, h1, h2.map _, h3, ?_, ?_⟩
  · have : llgOps (magNode P.mag n P.tets) n (elems (tetElem (problem c P).G (problem c P).prm ((problem c P).step cfg' (dt / c))
        (ext (nodes c nd)) (fields c F).Hext (fields c F).Hst (problem c P).dir (fields c F).V) order) =
        llgOps (magNode P.mag n P.tets) n (elems (tetElem P.G P.prm (P.step cfg dt) (ext nd) F.Hext F.Hst P.dir F.V) order) := by
      unfold llgOps elems
      rw [List.flatMap_map, List.flatMap_map]
      simp only [ht]
      rfl
    rw [← h4]
    exact congrArg (fun l => SparseMat.Sp.run (SparseMat.ofShape (llgShape P.mag n P.tets) : SparseMat.Sp ℝ) (before ++ l)) this
  · have e1 : order.map (tetElem (problem c P).G (problem c P).prm ((problem c P).step cfg' (dt / c)) (ext (nodes c nd)) (fields c F).Hext
      (fields c F).Hst (problem c P).dir (fields c F).V) =
      (order.map (tetElem P.G P.prm (P.step cfg dt) (ext nd) F.Hext F.Hst P.dir F.V)).map (elem c) := by
      rw [List.map_map]
      exact List.map_congr_left fun t _ => ht t
    have e2 : (orderT.map (tri c)).map (triElem (problem c P).H (problem c P).sprm (ext (nodes c nd))) =
        (orderT.map (triElem P.H P.sprm (ext nd))).map (elem c) := by
      rw [List.map_map, List.map_map]
      refine List.map_congr_left fun f _ => ?_
      rw [ext_nodes]
      exact triElem_scale hc _ _ _ _
    rw [e1, e2, llgRhs_scale]
    change (llgRhs (magNode P.mag n P.tets) n _ _).map _ = _
    rw [h5]
    rfl

end Verif.Rescale
