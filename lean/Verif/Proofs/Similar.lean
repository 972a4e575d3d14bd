import Mathlib.GroupTheory.Perm.Sign
import Mathlib.GroupTheory.Perm.Fin
import Mathlib.Tactic.FieldSimp
import Verif.Spec.Similar
import Verif.Spec.WeakForm
import Verif.Proofs.Motion
import Verif.Props.Tetra

/-!
# Elements scaled and listed with their vertices in another order
-/

namespace Verif.Similarity

open Verif.Tetra Verif.Llg Verif.WeakForm

/-! ## tetrahedra -/

/-- sign of a permutation as a real number -/
noncomputable def sg {ι : Type} [Fintype ι] [DecidableEq ι] (τ : Equiv.Perm ι) : ℝ := ((Equiv.Perm.sign τ : ℤ) : ℝ)

theorem sg_mul {ι : Type} [Fintype ι] [DecidableEq ι] (τ τ' : Equiv.Perm ι) : sg (τ * τ') = sg τ * sg τ' := by
  simp [sg]

theorem sg_one {ι : Type} [Fintype ι] [DecidableEq ι] : sg (1 : Equiv.Perm ι) = 1 := by
  simp [sg]

theorem sg_swap {ι : Type} [Fintype ι] [DecidableEq ι] {x y : ι} (h : x ≠ y) : sg (Equiv.swap x y) = -1 := by
  simp [sg, Equiv.Perm.sign_swap h]

theorem sg_sq {ι : Type} [Fintype ι] [DecidableEq ι] (τ : Equiv.Perm ι) : sg τ * sg τ = 1 := by
  unfold sg
  rcases Int.units_eq_one_or (Equiv.Perm.sign τ) with h | h <;> rw [h] <;> norm_num

theorem sg_ne {ι : Type} [Fintype ι] [DecidableEq ι] (τ : Equiv.Perm ι) : sg τ ≠ 0 := fun h => by
  have := sg_sq τ
  rw [h] at this
  norm_num at this

theorem sg_cases {ι : Type} [Fintype ι] [DecidableEq ι] (τ : Equiv.Perm ι) : sg τ = 1 ∨ sg τ = -1 := by
  unfold sg
  rcases Int.units_eq_one_or (Equiv.Perm.sign τ) with h | h <;> rw [h] <;> norm_num

theorem detJ_smul (c : ℝ) (p : Fin 4 → V3) : detJ (fun k => c * p k) = c ^ 3 * detJ p := by
  rw [detJ_eq, detJ_eq]
  simp [V3.dot, V3.cross]
  ring

theorem gradNum_smul (c : ℝ) (p : Fin 4 → V3) (k : Fin 4) : gradNum (fun k => c * p k) k = c ^ 2 * gradNum p k := by
  fin_cases k <;> ext <;> simp [gradNum, V3.cross] <;> ring

theorem detJ_perm (τ : Equiv.Perm (Fin 4)) : ∀ p : Fin 4 → V3, detJ (fun k => p (τ k)) = sg τ * detJ p := by
  induction τ using Equiv.Perm.swap_induction_on with
  | one => intro p; simp [sg_one]
  | swap_mul f x y hxy ih =>
    intro p
    have e := ih fun k => p (Equiv.swap x y k)
    rw [sg_mul, sg_swap hxy]
    change detJ (fun k => p (Equiv.swap x y (f k))) = _
    rw [e]
    have h : detJ (fun k => p (Equiv.swap x y k)) = - detJ p := by
      rw [detJ_eq, detJ_eq]
      fin_cases x <;> fin_cases y <;> first | exact absurd rfl hxy | skip
      all_goals
        simp [Equiv.swap_apply_def, V3.dot, V3.cross]
        ring
    rw [h]
    ring

theorem gradNum_perm (τ : Equiv.Perm (Fin 4)) :
    ∀ (p : Fin 4 → V3) (k : Fin 4), gradNum (fun k => p (τ k)) k = sg τ * gradNum p (τ k) := by
  induction τ using Equiv.Perm.swap_induction_on with
  | one => intro p k; ext <;> simp [sg_one]
  | swap_mul f x y hxy ih =>
    intro p k
    have e := ih (fun k => p (Equiv.swap x y k)) k
    rw [sg_mul, sg_swap hxy]
    change gradNum (fun k => p (Equiv.swap x y (f k))) k = _
    rw [e]
    have h : ∀ i, gradNum (fun k => p (Equiv.swap x y k)) i = (-1 : ℝ) * gradNum p (Equiv.swap x y i) := by
      intro i
      fin_cases x <;> fin_cases y <;> first | exact absurd rfl hxy | skip
      all_goals
        fin_cases i <;> ext <;> simp [Equiv.swap_apply_def, gradNum, V3.cross] <;> ring
    rw [h]
    ext <;> simp

/-- an element scaled by `c` with its vertices listed in the order `τ` -/
def scaled (c : ℝ) {N : ℕ} (τ : Equiv.Perm (Fin N)) (p : Fin N → V3) (k : Fin N) : V3 := c * p (τ k)

theorem detJ_scaled (c : ℝ) (τ : Equiv.Perm (Fin 4)) (p : Fin 4 → V3) : detJ (scaled c τ p) = c ^ 3 * sg τ * detJ p := by
  unfold scaled
  rw [detJ_smul c fun k => p (τ k), detJ_perm]
  ring

theorem daRow_scaled {c : ℝ} (hc : c ≠ 0) (τ : Equiv.Perm (Fin 4)) (p : Fin 4 → V3) (k : Fin 4) :
    daRow (scaled c τ p) k = c⁻¹ * daRow p (τ k) := by
  rw [daRow_eq, daRow_eq, detJ_scaled]
  unfold scaled
  rw [gradNum_smul c fun k => p (τ k), gradNum_perm]
  have hs := sg_ne τ
  have e : (c ^ 3 * sg τ * detJ p)⁻¹ * (c ^ 2 * sg τ) = c⁻¹ * (detJ p)⁻¹ := by
    rw [mul_inv, mul_inv]
    field_simp
  ext <;> simp only [V3.smul_x, V3.smul_y, V3.smul_z]
  · linear_combination (gradNum p (τ k)).x * e
  · linear_combination (gradNum p (τ k)).y * e
  · linear_combination (gradNum p (τ k)).z * e

/-- the Gauss points of the relisted element: `π j` is the point `j` -/
structure GaussT (G : Tetra.Rule) (τ : Equiv.Perm (Fin 4)) (π : Equiv.Perm (Fin G.n)) : Prop where
  a : ∀ k j, G.a (τ k) (π j) = G.a k j
  pds : ∀ j, G.pds (π j) = G.pds j

/-- point `0` is the centre, the others are near one vertex each -/
def near : Fin 5 ≃ Option (Fin 4) where
  toFun := ![none, some 0, some 3, some 2, some 1]
  invFun := fun o => match o with
    | none => 0
    | some v => ![1, 4, 3, 2] v
  left_inv := by decide
  right_inv := by decide

theorem rule5_near (k : Fin 4) (j : Fin 5) :
    rule5.a k j = match near j with
      | none => (1 / 4 : ℝ)
      | some v => if k = v then 1 / 2 else 1 / 6 := by
  fin_cases j
  · exact (rule5_a0 k).trans (by fin_cases k <;> rfl)
  · exact (rule5_a1 k).trans (by fin_cases k <;> simp [near])
  · exact (rule5_a2 k).trans (by fin_cases k <;> simp [near])
  · exact (rule5_a3 k).trans (by fin_cases k <;> simp [near])
  · exact (rule5_a4 k).trans (by fin_cases k <;> simp [near])

theorem rule5_pds_near (j : Fin 5) :
    rule5.pds j = match near j with
      | none => (-2 / 15 : ℝ)
      | some _ => 3 / 40 := by
  fin_cases j <;> rfl

theorem gaussT (G : Tetra.Rule) (hG : Compiled G) (τ : Equiv.Perm (Fin 4)) : ∃ π, GaussT G τ π := by
  rcases hG with rfl | rfl
  · refine ⟨1, ⟨fun k j => ?_, fun j => rfl⟩⟩
    have ha : ∀ i, rule1.a i j = 1 / 4 := by
      intro i
      obtain rfl : j = (0 : Fin 1) := Subsingleton.elim (α := Fin 1) _ _
      have e : rule1.a i (0 : Fin 1) = ![(1 : ℝ) - 1 / 4 - 1 / 4 - 1 / 4, 1 / 4, 1 / 4, 1 / 4] i := rfl
      rw [e]
      fin_cases i <;> norm_num
    change rule1.a (τ k) j = _
    rw [ha, ha]
  · refine ⟨(near.trans (Equiv.optionCongr τ)).trans near.symm, ⟨fun k j => ?_, fun j => ?_⟩⟩
    · have h1 := rule5_near (τ k) (near.symm (Equiv.optionCongr τ (near j)))
      rw [Equiv.apply_symm_apply] at h1
      refine h1.trans ((rule5_near k j).trans ?_).symm
      cases near j with
      | none => rfl
      | some v => simp
    · have h1 := rule5_pds_near (near.symm (Equiv.optionCongr τ (near j)))
      rw [Equiv.apply_symm_apply] at h1
      refine h1.trans ((rule5_pds_near j).trans ?_).symm
      cases near j with
      | none => rfl
      | some v => rfl

section tetra
variable {G : Tetra.Rule} {τ : Equiv.Perm (Fin 4)} {π : Equiv.Perm (Fin G.n)}

theorem interpV_perm (h : GaussT G τ π) (f : Fin 4 → V3) (j : Fin G.n) :
    Tetra.interpV G (fun k => f (τ k)) j = Tetra.interpV G f (π j) := by
  unfold Tetra.interpV
  rw [← Equiv.sum_comp τ fun k => G.a k (π j) * f k]
  exact Finset.sum_congr rfl fun k _ => by rw [h.a]

theorem interpS_perm (h : GaussT G τ π) (f : Fin 4 → ℝ) (j : Fin G.n) :
    Tetra.interpS G (fun k => f (τ k)) j = Tetra.interpS G f (π j) := by
  unfold Tetra.interpS
  rw [← Equiv.sum_comp τ fun k => f k * G.a k (π j)]
  exact Finset.sum_congr rfl fun k _ => by rw [h.a]

theorem weight_scaled (h : GaussT G τ π) (c : ℝ) (p : Fin 4 → V3) (j : Fin G.n) :
    Tetra.weight G (scaled c τ p) j = c ^ 3 * sg τ * Tetra.weight G p (π j) := by
  unfold Tetra.weight
  rw [detJ_scaled, h.pds]
  ring

theorem calcVol_scaled (h : GaussT G τ π) (c : ℝ) (p : Fin 4 → V3) :
    calcVol G (scaled c τ p) = c ^ 3 * sg τ * calcVol G p := by
  unfold calcVol
  rw [Finset.mul_sum, ← Equiv.sum_comp π fun j => c ^ 3 * sg τ * Tetra.weight G p j]
  exact Finset.sum_congr rfl fun j _ => weight_scaled h c p j

theorem da_scaled {c : ℝ} (hc : c ≠ 0) (τ : Equiv.Perm (Fin 4)) (p : Fin 4 → V3) (k : Fin 4) (d : Fin 3) :
    da (scaled c τ p) k d = c⁻¹ * da p (τ k) d := by
  have h := daRow_scaled hc τ p k
  fin_cases d
  · exact congrArg V3.x h
  · exact congrArg V3.y h
  · exact congrArg V3.z h

theorem deriv_scaled {c : ℝ} (hc : c ≠ 0) (τ : Equiv.Perm (Fin 4)) (p f : Fin 4 → V3) (d : Fin 3) :
    Tetra.deriv (scaled c τ p) d (fun k => f (τ k)) = c⁻¹ * Tetra.deriv p d f := by
  unfold Tetra.deriv
  rw [← Equiv.sum_comp τ (fun k => da p k d * f k)]
  simp only [da_scaled hc, Fin.sum_univ_four]
  ext <;> simp only [V3.add_x, V3.add_y, V3.add_z, V3.smul_x, V3.smul_y, V3.smul_z] <;> ring

theorem interpField_scaled {c : ℝ} (hc : c ≠ 0) (τ : Equiv.Perm (Fin 4)) (p : Fin 4 → V3) (f : Fin 4 → ℝ) :
    interpField (scaled c τ p) (fun k => c * f (τ k)) = interpField p f := by
  unfold interpField
  rw [← Equiv.sum_comp τ (fun k => f k * daRow p k)]
  refine congrArg Neg.neg (Finset.sum_congr rfl fun k _ => ?_)
  rw [daRow_scaled hc]
  ext <;> simp only [V3.smul_x, V3.smul_y, V3.smul_z] <;> field_simp

theorem gradDot_scaled {c : ℝ} (hc : c ≠ 0) (τ : Equiv.Perm (Fin 4)) (p f g : Fin 4 → V3) :
    gradDot (scaled c τ p) (fun k => f (τ k)) (fun k => g (τ k)) = (c ^ 2)⁻¹ * gradDot p f g := by
  unfold gradDot
  simp only [deriv_scaled hc, V3.dot, V3.smul_x, V3.smul_y, V3.smul_z]
  field_simp

/-- nodal data of the relisted element -/
def nodal (c : ℝ) (τ : Equiv.Perm (Fin 4)) (n : Nodal) (ep eq : Fin 4 → V3) : Nodal :=
  ⟨scaled c τ n.p, fun k => n.u (τ k), fun k => n.v (τ k), fun k => c * n.phi (τ k), fun k => c * n.phiv (τ k), ep, eq⟩

/-- material with the exchange constant multiplied by `c²` -/
def mat (c : ℝ) (m : Prm) : Prm := { m with A := c ^ 2 * m.A }

theorem uHeff_scaled {c : ℝ} (hc : c ≠ 0) (h : GaussT G τ π) (m : Prm) (s : Step) (n : Nodal) (ep eq : Fin 4 → V3)
    (He : Fin G.n → V3) (j : Fin G.n) :
    uHeff G (mat c m) s (nodal c τ n ep eq) (fun j => He (π j)) j = uHeff G m s n He (π j) := by
  have h1 := gradDot_scaled hc τ n.p n.u n.u
  rw [← Motion.nsq_grad, ← Motion.nsq_grad] at h1
  have h2 : Tetra.interpV G (nodal c τ n ep eq).u j = Tetra.interpV G n.u (π j) := interpV_perm h n.u j
  unfold uHeff
  dsimp only
  rw [h2]
  change (-abis (mat c m) s) * ((Tetra.deriv (scaled c τ n.p) 0 fun k => n.u (τ k)).nsq
    + (Tetra.deriv (scaled c τ n.p) 1 fun k => n.u (τ k)).nsq
    + (Tetra.deriv (scaled c τ n.p) 2 fun k => n.u (τ k)).nsq) + (if m.K ≠ 0 then _ else 0)
    + (if m.K3 ≠ 0 then _ else 0) + _ = _
  rw [h1]
  have e : abis (mat c m) s * (c ^ 2)⁻¹ = abis m s := by
    unfold abis mat
    dsimp only
    field_simp
  have e' : -abis (mat c m) s * ((c ^ 2)⁻¹ * ((Tetra.deriv n.p 0 n.u).nsq + (Tetra.deriv n.p 1 n.u).nsq
      + (Tetra.deriv n.p 2 n.u).nsq)) = -abis m s * ((Tetra.deriv n.p 0 n.u).nsq + (Tetra.deriv n.p 1 n.u).nsq
      + (Tetra.deriv n.p 2 n.u).nsq) := by
    rw [← e]
    ring
  rw [e']
  rfl

theorem effDamping_scaled {c : ℝ} (hc : c ≠ 0) (h : GaussT G τ π) (m : Prm) (s : Step) (n : Nodal) (ep eq : Fin 4 → V3)
    (Hext Hst : Fin G.n → V3) (j : Fin G.n) :
    effDamping G (mat c m) s (nodal c τ n ep eq) (fun j => Hext (π j)) (fun j => Hst (π j)) j =
      effDamping G m s n Hext Hst (π j) := by
  unfold effDamping
  have e : interpField (nodal c τ n ep eq).p (nodal c τ n ep eq).phi = interpField n.p n.phi := interpField_scaled hc τ n.p n.phi
  rw [e]
  have := uHeff_scaled hc h m s n ep eq (fun j => interpField n.p n.phi + Hext j + Hst j) j
  rw [this]
  rfl

theorem explicitField_scaled {c : ℝ} (hc : c ≠ 0) (h : GaussT G τ π) (m : Prm) (s : Step) (n : Nodal) (ep eq : Fin 4 → V3)
    (Hext Hst : Fin G.n → V3) (j : Fin G.n) :
    explicitField G (mat c m) s (nodal c τ n ep eq) (fun j => Hext (π j)) (fun j => Hst (π j)) j =
      explicitField G m s n Hext Hst (π j) := by
  have hu : Tetra.interpV G (nodal c τ n ep eq).u j = Tetra.interpV G n.u (π j) := interpV_perm h n.u j
  have hv : Tetra.interpV G (nodal c τ n ep eq).v j = Tetra.interpV G n.v (π j) := interpV_perm h n.v j
  have hp : interpField (nodal c τ n ep eq).p (nodal c τ n ep eq).phi = interpField n.p n.phi := interpField_scaled hc τ n.p n.phi
  have hpv : interpField (nodal c τ n ep eq).p (nodal c τ n ep eq).phiv = interpField n.p n.phiv :=
    interpField_scaled hc τ n.p n.phiv
  unfold explicitField
  rw [hu, hv, hp, hpv]
  rfl

theorem drift_scaled {c : ℝ} (hc : c ≠ 0) (h : GaussT G τ π) (m : Prm) (s : Step) (n : Nodal) (ep eq : Fin 4 → V3)
    (dir : Option (Fin 3)) (V V' : ℝ) (hV : dir = none ∨ V' = c * V) (w : Fin 4 → V3) :
    drift G (mat c m) s (nodal c τ n ep eq) dir V' (fun k => w (τ k)) = c ^ 3 * sg τ * drift G m s n dir V w := by
  cases dir with
  | none => simp [drift]
  | some d =>
    obtain hV | rfl := hV
    · cases hV
    have hu : ∀ j, Tetra.interpV G (nodal c τ n ep eq).u j = Tetra.interpV G n.u (π j) := interpV_perm h n.u
    have hv : ∀ j, Tetra.interpV G (nodal c τ n ep eq).v j = Tetra.interpV G n.v (π j) := interpV_perm h n.v
    have hw : ∀ j, Tetra.interpV G (fun k => w (τ k)) j = Tetra.interpV G w (π j) := interpV_perm h w
    have du : Tetra.deriv (nodal c τ n ep eq).p d (nodal c τ n ep eq).u = c⁻¹ * Tetra.deriv n.p d n.u := deriv_scaled hc τ n.p n.u d
    have dv : Tetra.deriv (nodal c τ n ep eq).p d (nodal c τ n ep eq).v = c⁻¹ * Tetra.deriv n.p d n.v := deriv_scaled hc τ n.p n.v d
    have hwt : ∀ j, Tetra.weight G (nodal c τ n ep eq).p j = c ^ 3 * sg τ * Tetra.weight G n.p (π j) := weight_scaled h c n.p
    unfold drift
    dsimp only
    rw [← Equiv.sum_comp π (fun j => Tetra.weight G n.p j * _)]
    rw [Finset.mul_sum, Finset.mul_sum, Finset.mul_sum]
    refine Finset.sum_congr rfl fun j _ => ?_
    rw [hu, hv, hw, du, dv, hwt]
    have em : (mat c m).alpha = m.alpha := rfl
    rw [em]
    simp only [V3.dot, V3.cross, V3.add_x, V3.add_y, V3.add_z, V3.smul_x, V3.smul_y, V3.smul_z]
    field_simp

/-- the equation of motion on one relisted element -/
theorem residual_scaled {c : ℝ} (hc : c ≠ 0) (h : GaussT G τ π) (m : Prm) (s : Step) (n : Nodal) (ep eq : Fin 4 → V3)
    (Hext Hst : Fin G.n → V3) (dir : Option (Fin 3)) (V V' : ℝ) (hV : dir = none ∨ V' = c * V) (v w : Fin 4 → V3) :
    WeakForm.residual G (mat c m) s (nodal c τ n ep eq) (fun j => Hext (π j)) (fun j => Hst (π j)) dir V'
        (fun k => v (τ k)) (fun k => w (τ k)) =
      c ^ 3 * sg τ * WeakForm.residual G m s n Hext Hst dir V v w := by
  have hw : ∀ j, Tetra.weight G (nodal c τ n ep eq).p j = c ^ 3 * sg τ * Tetra.weight G n.p (π j) := weight_scaled h c n.p
  have h1 : damping G (nodal c τ n ep eq).p (effDamping G (mat c m) s (nodal c τ n ep eq) (fun j => Hext (π j))
      (fun j => Hst (π j))) (fun k => v (τ k)) (fun k => w (τ k)) =
      c ^ 3 * sg τ * damping G n.p (effDamping G m s n Hext Hst) v w := by
    unfold damping
    rw [Finset.mul_sum, ← Equiv.sum_comp π (fun j => c ^ 3 * sg τ * _)]
    refine Finset.sum_congr rfl fun j _ => ?_
    rw [effDamping_scaled hc h, hw, interpS_perm h fun i => (v i).dot (w i)]
    ring
  have h2 : gyration G (nodal c τ n ep eq).p (nodal c τ n ep eq).u (fun k => v (τ k)) (fun k => w (τ k)) =
      c ^ 3 * sg τ * gyration G n.p n.u v w := by
    unfold gyration
    rw [Finset.mul_sum, ← Equiv.sum_comp π (fun j => c ^ 3 * sg τ * _)]
    refine Finset.sum_congr rfl fun j _ => ?_
    have := interpS_perm h (fun i => ((n.u i).cross (v i)).dot (w i)) j
    rw [hw, ← this]
    change _ * Tetra.interpS G (fun k => ((n.u (τ k)).cross (v (τ k))).dot (w (τ k))) j = _
    ring
  have h3 : calcVol G (nodal c τ n ep eq).p = c ^ 3 * sg τ * calcVol G n.p := calcVol_scaled h c n.p
  have h4 : ∀ k : ℝ, gradDot (nodal c τ n ep eq).p (fun i => (nodal c τ n ep eq).u i + k * v (τ i)) (fun i => w (τ i)) =
      (c ^ 2)⁻¹ * gradDot n.p (fun i => n.u i + k * v i) w := fun k =>
    gradDot_scaled hc τ n.p (fun i => n.u i + k * v i) w
  have h5 : work G (nodal c τ n ep eq).p (explicitField G (mat c m) s (nodal c τ n ep eq) (fun j => Hext (π j))
      (fun j => Hst (π j))) (fun k => w (τ k)) = c ^ 3 * sg τ * work G n.p (explicitField G m s n Hext Hst) w := by
    unfold work
    rw [Finset.mul_sum, ← Equiv.sum_comp π (fun j => c ^ 3 * sg τ * _)]
    refine Finset.sum_congr rfl fun j _ => ?_
    rw [explicitField_scaled hc h, interpV_perm h, hw]
    ring
  unfold WeakForm.residual
  rw [h1, h2, h3, h4, h5, drift_scaled hc h m s n ep eq dir V V' hV]
  change _ - (-(2 * (c ^ 2 * m.A) / (s.mu0 * m.Ms)) * _ * _ + _ + _) = _
  have e : 2 * (c ^ 2 * m.A) / (s.mu0 * m.Ms) * (c ^ 2)⁻¹ = 2 * m.A / (s.mu0 * m.Ms) := by
    field_simp
  rw [← e]
  ring

end tetra

/-! ## triangles -/

theorem normalVect_perm (τ : Equiv.Perm (Fin 3)) :
    ∀ p : Fin 3 → V3, TriElem.normalVect (fun k => p (τ k)) = sg τ * TriElem.normalVect p := by
  induction τ using Equiv.Perm.swap_induction_on with
  | one => intro p; ext <;> simp [sg_one]
  | swap_mul f x y hxy ih =>
    intro p
    have e := ih fun k => p (Equiv.swap x y k)
    rw [sg_mul, sg_swap hxy]
    change TriElem.normalVect (fun k => p (Equiv.swap x y (f k))) = _
    rw [e]
    have h : TriElem.normalVect (fun k => p (Equiv.swap x y k)) = (-1 : ℝ) * TriElem.normalVect p := by
      unfold TriElem.normalVect
      fin_cases x <;> fin_cases y <;> first | exact absurd rfl hxy | skip
      all_goals
        ext <;> simp [Equiv.swap_apply_def, V3.cross] <;> ring
    rw [h]
    ext <;> simp

theorem normalVect_scaled (c : ℝ) (τ : Equiv.Perm (Fin 3)) (p : Fin 3 → V3) :
    TriElem.normalVect (scaled c τ p) = (c ^ 2 * sg τ) * TriElem.normalVect p := by
  have e : TriElem.normalVect (scaled c τ p) = c ^ 2 * TriElem.normalVect (fun k => p (τ k)) := by
    unfold TriElem.normalVect scaled
    ext <;> simp [V3.cross] <;> ring
  rw [e, normalVect_perm]
  ext <;> simp <;> ring

theorem norm_smul' (k : ℝ) (v : V3) : (k * v : V3).norm = |k| * v.norm := by
  unfold V3.norm
  have : (k * v : V3).nsq = k ^ 2 * v.nsq := by
    simp [V3.nsq]
    ring
  rw [this, Real.sqrt_mul (sq_nonneg k), Real.sqrt_sq_eq_abs]

theorem abs_sg {ι : Type} [Fintype ι] [DecidableEq ι] (τ : Equiv.Perm ι) : |sg τ| = 1 := by
  rcases sg_cases τ with h | h <;> rw [h] <;> norm_num

theorem surf_scaled (c : ℝ) (τ : Equiv.Perm (Fin 3)) (p : Fin 3 → V3) : TriElem.surf (scaled c τ p) = c ^ 2 * TriElem.surf p := by
  unfold TriElem.surf
  rw [normalVect_scaled, norm_smul', abs_mul, abs_sg, abs_of_nonneg (sq_nonneg c)]
  ring

/-- the Gauss points of the relisted triangle -/
structure GaussF (H : TriElem.Rule) (τ : Equiv.Perm (Fin 3)) (π : Equiv.Perm (Fin H.n)) : Prop where
  a : ∀ k j, H.a (τ k) (π j) = H.a k j
  pds : ∀ j, H.pds (π j) = H.pds j

/-- point `0` is the centre, the others are near one vertex each -/
def near3 : Fin 4 ≃ Option (Fin 3) where
  toFun := ![none, some 0, some 1, some 2]
  invFun := fun o => match o with
    | none => 0
    | some v => ![1, 2, 3] v
  left_inv := by decide
  right_inv := by decide

theorem rule4_near (k : Fin 3) (j : Fin 4) :
    TriElem.rule4.a k j = match near3 j with
      | none => (1 / 3 : ℝ)
      | some v => if k = v then 3 / 5 else 1 / 5 := by
  have e : TriElem.rule4.a k j = ![1 - (![1 / 3, 1 / 5, 3 / 5, 1 / 5] : Fin 4 → ℝ) j - (![1 / 3, 1 / 5, 1 / 5, 3 / 5] : Fin 4 → ℝ) j,
    (![1 / 3, 1 / 5, 3 / 5, 1 / 5] : Fin 4 → ℝ) j, (![1 / 3, 1 / 5, 1 / 5, 3 / 5] : Fin 4 → ℝ) j] k := rfl
  rw [e]
  fin_cases j <;> fin_cases k <;> simp [near3] <;> norm_num

theorem rule4_pds_near (j : Fin 4) :
    TriElem.rule4.pds j = match near3 j with
      | none => (-27 / 96 : ℝ)
      | some _ => 25 / 96 := by
  fin_cases j <;> rfl

theorem gaussF (H : TriElem.Rule) (hH : H = TriElem.rule1 ∨ H = TriElem.rule4) (τ : Equiv.Perm (Fin 3)) : ∃ π, GaussF H τ π := by
  rcases hH with rfl | rfl
  · refine ⟨1, ⟨fun k j => ?_, fun j => rfl⟩⟩
    have ha : ∀ i, TriElem.rule1.a i j = 1 / 3 := by
      intro i
      obtain rfl : j = (0 : Fin 1) := Subsingleton.elim (α := Fin 1) _ _
      have e : TriElem.rule1.a i (0 : Fin 1) = ![(1 : ℝ) - 1 / 3 - 1 / 3, 1 / 3, 1 / 3] i := rfl
      rw [e]
      fin_cases i <;> norm_num
    change TriElem.rule1.a (τ k) j = _
    rw [ha, ha]
  · refine ⟨(near3.trans (Equiv.optionCongr τ)).trans near3.symm, ⟨fun k j => ?_, fun j => ?_⟩⟩
    · have h1 := rule4_near (τ k) (near3.symm (Equiv.optionCongr τ (near3 j)))
      rw [Equiv.apply_symm_apply] at h1
      refine h1.trans ((rule4_near k j).trans ?_).symm
      cases near3 j with
      | none => rfl
      | some v => simp
    · have h1 := rule4_pds_near (near3.symm (Equiv.optionCongr τ (near3 j)))
      rw [Equiv.apply_symm_apply] at h1
      refine h1.trans ((rule4_pds_near j).trans ?_).symm
      cases near3 j with
      | none => rfl
      | some v => rfl

section triangle
variable {H : TriElem.Rule} {τ : Equiv.Perm (Fin 3)} {π : Equiv.Perm (Fin H.n)}

theorem triInterpV_perm (h : GaussF H τ π) (f : Fin 3 → V3) (j : Fin H.n) :
    TriElem.interpV H (fun k => f (τ k)) j = TriElem.interpV H f (π j) := by
  unfold TriElem.interpV
  rw [← Equiv.sum_comp τ fun k => H.a k (π j) * f k]
  exact Finset.sum_congr rfl fun k _ => by rw [h.a]

theorem triInterpS_perm (h : GaussF H τ π) (f : Fin 3 → ℝ) (j : Fin H.n) :
    TriElem.interpS H (fun k => f (τ k)) j = TriElem.interpS H f (π j) := by
  unfold TriElem.interpS
  rw [← Equiv.sum_comp τ fun k => f k * H.a k (π j)]
  exact Finset.sum_congr rfl fun k _ => by rw [h.a]

theorem triWeight_scaled (h : GaussF H τ π) (c : ℝ) (p : Fin 3 → V3) (j : Fin H.n) :
    TriElem.weight H (scaled c τ p) j = c ^ 2 * TriElem.weight H p (π j) := by
  unfold TriElem.weight
  rw [surf_scaled, h.pds]
  ring

/-- the force of the surface anisotropy; `e` is the change of sign of the jump -/
theorem surfaceWork_scaled (h : GaussF H τ π) (c : ℝ) (sp : SurfPrm) (dMs e : ℝ) (he : e = 1 ∨ e = -1) (p u w : Fin 3 → V3) :
    surfaceWork H ⟨|c| * sp.Ks, sp.uk⟩ (e * dMs) (scaled c τ p) (fun k => u (τ k)) (fun k => w (τ k)) =
      e * |c| ^ 3 * surfaceWork H sp dMs p u w := by
  unfold surfaceWork
  have hs : ∑ j, TriElem.weight H (scaled c τ p) j * sp.uk.dot (TriElem.interpV H (fun k => u (τ k)) j)
      * sp.uk.dot (TriElem.interpV H (fun k => w (τ k)) j) =
      |c| ^ 2 * ∑ j, TriElem.weight H p j * sp.uk.dot (TriElem.interpV H u j) * sp.uk.dot (TriElem.interpV H w j) := by
    rw [Finset.mul_sum, ← Equiv.sum_comp π (fun j => |c| ^ 2 * _)]
    refine Finset.sum_congr rfl fun j _ => ?_
    rw [triWeight_scaled h, triInterpV_perm h, triInterpV_perm h, sq_abs]
    ring
  dsimp only
  rw [hs]
  have e1 : 2 * (|c| * sp.Ks) / (e * dMs) = e * |c| * (2 * sp.Ks / dMs) := by
    rcases he with rfl | rfl
    · simp only [one_mul]
      ring
    · rw [neg_one_mul, div_neg]
      ring
  rw [e1]
  ring

end triangle

end Verif.Similarity
