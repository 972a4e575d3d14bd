import Verif.Spec.Relax
import Verif.Proofs.Descent

/-!
# The energy of a sample as a function of the coordinates
-/

namespace Verif.Relax

open Verif.Mesh Verif.Assembly Verif.Tetra Verif.Llg Verif.WeakForm Verif.TimeLoop Verif.Run Verif.Converge Verif.SemiDiscrete

section
variable {G : Rule}

theorem deriv_add (p f g : Fin 4 → V3) (d : Fin 3) : Tetra.deriv p d (fun k => f k + g k) = Tetra.deriv p d f + Tetra.deriv p d g := by
  have := deriv_lin p f g 1 1 d
  have e : (fun k => (1 : ℝ) * f k + (1 : ℝ) * g k) = fun k => f k + g k := by
    funext k
    ext <;> simp
  rw [e] at this
  rw [this]
  ext <;> simp

theorem interpV_add (f g : Fin 4 → V3) (j : Fin G.n) : interpV G (fun k => f k + g k) j = interpV G f j + interpV G g j := by
  have := interpV_lin (G := G) f g 1 1 j
  have e : (fun k => (1 : ℝ) * f k + (1 : ℝ) * g k) = fun k => f k + g k := by
    funext k
    ext <;> simp
  rw [e] at this
  rw [this]
  ext <;> simp

/-- second order part of the energy of an element, over `mu0 Ms` -/
noncomputable def tetQuad (G : Rule) (m : Prm) (mu0 : ℝ) (p h : Fin 4 → V3) : ℝ :=
  m.A / (mu0 * m.Ms) * calcVol G p * gradDot p h h
    - m.K / (mu0 * m.Ms) * ∑ j, weight G p j * (m.uk.dot (interpV G h j) * m.uk.dot (interpV G h j))

theorem gradDot_smul (p f g : Fin 4 → V3) (a : ℝ) : gradDot p f (fun k => a * g k) = a * gradDot p f g := by
  have := gradDot_lin p f g g a 0
  have e : (fun k => a * g k + (0 : ℝ) * g k) = fun k => a * g k := by
    funext k
    ext <;> simp
  rw [e] at this
  rw [this]
  ring

theorem work_smul' (p : Fin 4 → V3) (F : Fin G.n → V3) (g : Fin 4 → V3) (a : ℝ) : work G p F (fun k => a * g k) = a * work G p F g := by
  have := SemiDiscrete.work_lin (G := G) p F g g a 0
  have e : (fun k => a * g k + (0 : ℝ) * g k) = fun k => a * g k := by
    funext k
    ext <;> simp
  rw [e] at this
  rw [this]
  ring

theorem gradDot_comm (p f g : Fin 4 → V3) : gradDot p f g = gradDot p g f := by
  unfold gradDot
  rw [V3.dot_comm, V3.dot_comm (Tetra.deriv _ 1 _), V3.dot_comm (Tetra.deriv _ 2 _)]

theorem tetQuad_smul (m : Prm) (mu0 : ℝ) (p h : Fin 4 → V3) (a : ℝ) : tetQuad G m mu0 p (fun k => a * h k) = a ^ 2 * tetQuad G m mu0 p h := by
  unfold tetQuad
  rw [gradDot_smul, gradDot_comm, gradDot_smul]
  simp only [Setting.interpV_smul, dot_smul]
  have : ∑ j, weight G p j * (a * m.uk.dot (interpV G h j) * (a * m.uk.dot (interpV G h j))) =
      a ^ 2 * ∑ j, weight G p j * (m.uk.dot (interpV G h j) * m.uk.dot (interpV G h j)) := by
    rw [Finset.mul_sum]
    exact Finset.sum_congr rfl fun _ _ => by ring
  rw [this]
  ring

theorem tet_taylor (m : Prm) (mu0 : ℝ) (hM : mu0 * m.Ms ≠ 0) (hK3 : m.K3 = 0) (p u h : Fin 4 → V3) (H : Fin G.n → V3) :
    exchangeEnergy G m p (fun k => u k + h k) + uniaxialEnergy G m p (fun k => u k + h k)
        + zeemanEnergySpace G mu0 m.Ms 1 p (fun k => u k + h k) H
      - (exchangeEnergy G m p u + uniaxialEnergy G m p u + zeemanEnergySpace G mu0 m.Ms 1 p u H) =
    mu0 * m.Ms * (-(-(2 * m.A / (mu0 * m.Ms)) * calcVol G p * gradDot p u h
        + work G p (fun j => H j + anisoField m mu0 (interpV G u j)) h) + tetQuad G m mu0 p h) := by
  obtain ⟨hmu, hMs⟩ := mul_ne_zero_iff.mp hM
  unfold exchangeEnergy uniaxialEnergy zeemanEnergySpace tetQuad work anisoField calcVol gradDot
  simp only [deriv_add, interpV_add, hK3]
  have e1 : ∀ a b : V3, (a + b).nsq = a.nsq + 2 * a.dot b + b.dot b := fun a b => by
    simp only [V3.nsq, V3.dot, V3.add_x, V3.add_y, V3.add_z]; ring
  simp only [e1, dot_add, add_dot]
  have e2 : ∀ j, ((2 * m.K / (mu0 * m.Ms) * m.uk.dot (interpV G u j)) * m.uk
      - (2 * 0 / (mu0 * m.Ms)) * ((m.ex.dot (interpV G u j) * (1 - m.ex.dot (interpV G u j) * m.ex.dot (interpV G u j))) * m.ex
      + (m.ey.dot (interpV G u j) * (1 - m.ey.dot (interpV G u j) * m.ey.dot (interpV G u j))) * m.ey
      + (m.ez.dot (interpV G u j) * (1 - m.ez.dot (interpV G u j) * m.ez.dot (interpV G u j))) * m.ez)).dot (interpV G h j) =
      2 * m.K / (mu0 * m.Ms) * (m.uk.dot (interpV G u j) * m.uk.dot (interpV G h j)) := by
    intro j
    rw [sub_dot3, smul_dot, smul_dot]
    ring
  simp only [e2]
  have e3 : ∀ j, (interpV G h j).dot (H j) = (H j).dot (interpV G h j) := fun j => V3.dot_comm _ _
  simp only [e3]
  set a0 := (Tetra.deriv p 0 u).nsq
  set a1 := (Tetra.deriv p 1 u).nsq
  set a2 := (Tetra.deriv p 2 u).nsq
  set b0 := (Tetra.deriv p 0 u).dot (Tetra.deriv p 0 h)
  set b1 := (Tetra.deriv p 1 u).dot (Tetra.deriv p 1 h)
  set b2 := (Tetra.deriv p 2 u).dot (Tetra.deriv p 2 h)
  set c0 := (Tetra.deriv p 0 h).dot (Tetra.deriv p 0 h)
  set c1 := (Tetra.deriv p 1 h).dot (Tetra.deriv p 1 h)
  set c2 := (Tetra.deriv p 2 h).dot (Tetra.deriv p 2 h)
  simp only [← Finset.sum_mul]
  simp only [mul_add, add_mul, Finset.sum_add_distrib]
  have s1 : ∀ (c : ℝ) (f : Fin G.n → ℝ), ∑ j, weight G p j * (c * f j) = c * ∑ j, weight G p j * f j := fun c f => by
    rw [Finset.mul_sum]; exact Finset.sum_congr rfl fun _ _ => by ring
  have s2 : ∑ j, weight G p j * (m.uk.dot (interpV G h j) * m.uk.dot (interpV G u j)) =
      ∑ j, weight G p j * (m.uk.dot (interpV G u j) * m.uk.dot (interpV G h j)) := Finset.sum_congr rfl fun _ _ => by ring
  rw [s1, s2]
  field_simp
  ring

end

section
variable {n : ℕ} {ET : Type} {P : Problem} {cfg : Cfg n ET} {nodes : Fin n → Node} {D : Media n P} {H : Tet → Fin P.G.n → V3} {Ms : ℝ}

/-- work of the local fields -/
noncomputable def locWork (P : Problem) (p : ℕ → V3) (H : Tet → Fin P.G.n → V3) (u w : ℕ → V3) : ℝ :=
  ((magTet P.mag P.tets).map fun t => -(2 * (P.prm t.reg).A / (P.mu0 * (P.prm t.reg).Ms)) * calcVol P.G (fun k => p (t.ind k)) *
        gradDot (fun k => p (t.ind k)) (fun k => u (t.ind k)) (fun k => w (t.ind k))
      + work P.G (fun k => p (t.ind k)) (fun j => H t j + anisoField (P.prm t.reg) P.mu0 (interpV P.G (fun k => u (t.ind k)) j))
        (fun k => w (t.ind k))).sum

noncomputable def locQuad (P : Problem) (p : ℕ → V3) (h : ℕ → V3) : ℝ :=
  ((magTet P.mag P.tets).map fun t => tetQuad P.G (P.prm t.reg) P.mu0 (fun k => p (t.ind k)) fun k => h (t.ind k)).sum

theorem demagWork_lin_phi (p : ℕ → V3) (a b : ℝ) (f g : ℕ → ℝ) (w : ℕ → V3) :
    demagWork P p (fun i => a * f i + b * g i) w = a * demagWork P p f w + b * demagWork P p g w := by
  unfold demagWork
  refine list_lin _ _ _ _ a b fun t _ => ?_
  unfold work
  have e : interpField (fun k => p (t.ind k)) (fun k => a * f (t.ind k) + b * g (t.ind k)) =
      a * interpField (fun k => p (t.ind k)) (fun k => f (t.ind k)) + b * interpField (fun k => p (t.ind k)) (fun k => g (t.ind k)) := by
    unfold interpField
    ext <;> simp only [Fin.sum_univ_four, V3.neg_x, V3.neg_y, V3.neg_z, V3.add_x, V3.add_y, V3.add_z, V3.smul_x, V3.smul_y, V3.smul_z] <;>
      ring
  rw [e, Finset.mul_sum, Finset.mul_sum, ← Finset.sum_add_distrib]
  refine Finset.sum_congr rfl fun j _ => ?_
  rw [add_dot, smul_dot, smul_dot]
  ring

theorem demagWork_lin (p : ℕ → V3) (a b : ℝ) (f : ℕ → ℝ) (g h : ℕ → V3) :
    demagWork P p f (fun i => a * g i + b * h i) = a * demagWork P p f g + b * demagWork P p f h := by
  unfold demagWork
  exact list_lin _ _ _ _ a b fun t _ => SemiDiscrete.work_lin _ _ _ _ a b

theorem vecs_tab (c : X n) : vecs c = extV (tab c) := rfl

theorem extS_lin (a b : ℝ) (f g : Fin n → ℝ) : extS (fun i => a * f i + b * g i) = fun i => a * extS f i + b * extS g i := by
  funext i
  unfold extS
  split_ifs
  · rfl
  · ring

theorem tab_lin (a b : ℝ) (c c' : X n) : tab (a • c + b • c') = fun i => a * tab c i + b * tab c' i := by
  funext i
  ext <;> simp [tab]

theorem vecs_lin (a b : ℝ) (c c' : X n) : vecs (a • c + b • c') = fun i => a * vecs c i + b * vecs c' i := by
  funext i
  unfold vecs
  split_ifs
  · ext <;> simp
  · ext <;> simp

theorem Steady.phi_tab {p : ℕ → V3} (h : Steady P p D H Ms) (a b : ℝ) (c c' : X n) :
    D.phi (tab (a • c + b • c')) = fun i => a * D.phi (tab c) i + b * D.phi (tab c') i := by
  rw [tab_lin]
  funext i
  exact h.linear a b _ _ i

/-- fields of steady conditions are smooth -/
theorem Steady.smooth {p : ℕ → V3} (h : Steady P p D H Ms) : D.Smooth := by
  have hphi : ∀ i, ContDiff ℝ 1 fun c : X n => D.phi (tab c) i := by
    intro i
    let L : X n →ₗ[ℝ] ℝ :=
      { toFun := fun c => D.phi (tab c) i
        map_add' := fun c c' => by
          have := congrFun (h.phi_tab 1 1 c c') i
          simpa using this
        map_smul' := fun a c => by
          have := congrFun (h.phi_tab a 0 c 0) i
          simpa using this }
    exact L.toContinuousLinearMap.contDiff
  refine ⟨fun t j => ?_, fun t j => ?_, hphi, fun i => ?_⟩
  · simp only [h.applied]
    exact SmoothV.const _
  · simp only [h.spin]
    exact SmoothV.const _
  · rcases h.phiv with h1 | h1
    · simp only [h1]
      exact (hphi i).comp contDiff_snd
    · simp only [h1]
      exact contDiff_const

/-- energy over `mu0 Ms` -/
noncomputable def redEnergy (P : Problem) (p : ℕ → V3) (D : Media n P) (H : Tet → Fin P.G.n → V3) (Ms : ℝ) (c : X n) : ℝ :=
  totalEnergy P p H (extS (D.phi (tab c))) (vecs c) / (P.mu0 * Ms)

theorem work_eq (h : Steady P (fun i => (ext nodes i).p) D H Ms) (c : X n) (w : ℕ → V3) :
    (setting P cfg nodes D).work (0, c) w =
      locWork P (fun i => (ext nodes i).p) H (vecs c) w + demagWork P (fun i => (ext nodes i).p) (extS (D.phi (tab c))) w := by
  unfold Setting.work totalWork setting
  dsimp only
  have e1 : (P.tris.map fun f => surfaceWork P.H (P.sprm f.1.reg) f.2 (fun k => (ext nodes (f.1.ind k)).p) (fun k => vecs c (f.1.ind k))
      (fun k => w (f.1.ind k))).sum = 0 := by
    refine List.sum_eq_zero fun x hx => ?_
    obtain ⟨f, hf, rfl⟩ := List.mem_map.mp hx
    unfold surfaceWork
    rw [h.surface f hf]
    simp
  rw [e1, add_zero]
  unfold locWork demagWork
  rw [← List.sum_map_add]
  refine congrArg List.sum (List.map_congr_left fun t _ => ?_)
  unfold tetWork
  rw [h.applied, h.spin, add_assoc]
  congr 1
  unfold work
  rw [← Finset.sum_add_distrib]
  refine Finset.sum_congr rfl fun j _ => ?_
  simp only [add_dot]
  have : V3.dot 0 (interpV P.G (fun k => w (t.ind k)) j) = 0 := by simp [V3.dot]
  rw [this]
  ring

/-- second order part of the energy -/
noncomputable def quad (P : Problem) (p : ℕ → V3) (D : Media n P) (h : X n) : ℝ :=
  locQuad P p (vecs h) - 1 / 2 * demagWork P p (extS (D.phi (tab h))) (vecs h)

theorem list_map_div {α : Type} (l : List α) (F : α → ℝ) (a : ℝ) : (l.map fun t => F t / a).sum = (l.map F).sum / a := by
  induction l with
  | nil => simp
  | cons x l ih => simp only [List.map_cons, List.sum_cons, ih]; ring

theorem red_eq {p : ℕ → V3} (h : Steady P p D H Ms) (hM : P.mu0 * Ms ≠ 0) (c : X n) :
    redEnergy P p D H Ms c = ((magTet P.mag P.tets).map fun t =>
        (exchangeEnergy P.G (P.prm t.reg) (fun k => p (t.ind k)) (fun k => vecs c (t.ind k))
        + uniaxialEnergy P.G (P.prm t.reg) (fun k => p (t.ind k)) (fun k => vecs c (t.ind k))
        + zeemanEnergySpace P.G P.mu0 (P.prm t.reg).Ms 1 (fun k => p (t.ind k)) (fun k => vecs c (t.ind k)) (H t)) / (P.mu0 * Ms)).sum
      - 1 / 2 * demagWork P p (extS (D.phi (tab c))) (vecs c) := by
  unfold redEnergy totalEnergy demagWork
  rw [← list_map_div, ← List.sum_map_mul_left, ← Energy.list_sum_sub]
  refine congrArg List.sum (List.map_congr_left fun t ht => ?_)
  rw [h.sameMs t ht]
  obtain ⟨h1, h2⟩ := mul_ne_zero_iff.mp hM
  field_simp
  ring

/-- the energy is a polynomial of degree two -/
theorem red_taylor (h : Steady P (fun i => (ext nodes i).p) D H Ms) (hM : P.mu0 * Ms ≠ 0) (c v : X n) (a : ℝ) :
    redEnergy P (fun i => (ext nodes i).p) D H Ms (c + a • v) = redEnergy P (fun i => (ext nodes i).p) D H Ms c
      - a * (setting P cfg nodes D).work (0, c) (vecs v) + a ^ 2 * quad P (fun i => (ext nodes i).p) D v := by
  set p : ℕ → V3 := fun i => (ext nodes i).p with hp
  rw [work_eq h, red_eq h hM, red_eq h hM]
  have ec : c + a • v = (1 : ℝ) • c + a • v := by rw [one_smul]
  have e1 : extS (D.phi (tab (c + a • v))) = fun i => 1 * extS (D.phi (tab c)) i + a * extS (D.phi (tab v)) i := by
    rw [ec, h.phi_tab, extS_lin]
  have e2 : vecs (c + a • v) = fun i => (1 : ℝ) * vecs c i + a * vecs v i := by rw [ec, vecs_lin]
  have e3 : vecs (c + a • v) = fun i => vecs c i + a * vecs v i := by
    rw [e2]
    funext i
    ext <;> simp
  have hd : demagWork P p (extS (D.phi (tab (c + a • v)))) (vecs (c + a • v)) =
      demagWork P p (extS (D.phi (tab c))) (vecs c) + 2 * a * demagWork P p (extS (D.phi (tab c))) (vecs v)
        + a ^ 2 * demagWork P p (extS (D.phi (tab v))) (vecs v) := by
    rw [e1, e2, demagWork_lin_phi, demagWork_lin, demagWork_lin]
    have := h.reciprocal (tab v) (tab c)
    rw [← vecs_tab, ← vecs_tab] at this
    rw [this]
    ring
  rw [hd]
  have hl : ((magTet P.mag P.tets).map fun t =>
        (exchangeEnergy P.G (P.prm t.reg) (fun k => p (t.ind k)) (fun k => vecs (c + a • v) (t.ind k))
        + uniaxialEnergy P.G (P.prm t.reg) (fun k => p (t.ind k)) (fun k => vecs (c + a • v) (t.ind k))
        + zeemanEnergySpace P.G P.mu0 (P.prm t.reg).Ms 1 (fun k => p (t.ind k)) (fun k => vecs (c + a • v) (t.ind k)) (H t)) / (P.mu0 * Ms)).sum
      = ((magTet P.mag P.tets).map fun t =>
        (exchangeEnergy P.G (P.prm t.reg) (fun k => p (t.ind k)) (fun k => vecs c (t.ind k))
        + uniaxialEnergy P.G (P.prm t.reg) (fun k => p (t.ind k)) (fun k => vecs c (t.ind k))
        + zeemanEnergySpace P.G P.mu0 (P.prm t.reg).Ms 1 (fun k => p (t.ind k)) (fun k => vecs c (t.ind k)) (H t)) / (P.mu0 * Ms)).sum
      - a * locWork P p H (vecs c) (vecs v) + a ^ 2 * locQuad P p (vecs v) := by
    unfold locWork locQuad
    rw [← List.sum_map_mul_left, ← List.sum_map_mul_left, ← Energy.list_sum_sub, ← List.sum_map_add]
    refine congrArg List.sum (List.map_congr_left fun t ht => ?_)
    have hM' : P.mu0 * (P.prm t.reg).Ms ≠ 0 := by rw [h.sameMs t ht]; exact hM
    have ht1 := tet_taylor (G := P.G) (P.prm t.reg) P.mu0 hM' (h.cubic t ht) (fun k => p (t.ind k)) (fun k => vecs c (t.ind k))
      (fun k => a * vecs v (t.ind k)) (H t)
    rw [gradDot_smul, work_smul', tetQuad_smul] at ht1
    have e4 : (fun k => vecs (c + a • v) (t.ind k)) = fun k => vecs c (t.ind k) + a * vecs v (t.ind k) := by rw [e3]
    rw [e4, ← h.sameMs t ht, div_eq_iff hM']
    set F := exchangeEnergy P.G (P.prm t.reg) (fun k => p (t.ind k)) (fun k => vecs c (t.ind k))
        + uniaxialEnergy P.G (P.prm t.reg) (fun k => p (t.ind k)) (fun k => vecs c (t.ind k))
        + zeemanEnergySpace P.G P.mu0 (P.prm t.reg).Ms 1 (fun k => p (t.ind k)) (fun k => vecs c (t.ind k)) (H t) with hF
    have hFd : F = F / (P.mu0 * (P.prm t.reg).Ms) * (P.mu0 * (P.prm t.reg).Ms) := (div_mul_cancel₀ F hM').symm
    linear_combination ht1 + hFd
  rw [hl]
  unfold quad
  ring

theorem tab_smul (a : ℝ) (c : X n) : tab (a • c) = fun i => a * tab c i := by
  funext i
  ext <;> simp [tab]

theorem quad_smul {p : ℕ → V3} (h : Steady P p D H Ms) (a : ℝ) (v : X n) : quad P p D (a • v) = a ^ 2 * quad P p D v := by
  have e1 : vecs (a • v) = fun k => a * vecs v k := funext fun k => vecs_smul a v k
  have e2 : extS (D.phi (tab (a • v))) = fun i => a * extS (D.phi (tab v)) i + 0 * extS (D.phi (tab v)) i := by
    have := h.phi_tab a 0 v v
    rw [zero_smul, add_zero] at this
    rw [this, extS_lin]
  have e3 : vecs (a • v) = fun i => a * vecs v i + (0 : ℝ) * vecs v i := by
    rw [e1]
    funext k
    ext <;> simp
  unfold quad
  rw [e2]
  nth_rewrite 2 [e3]
  rw [demagWork_lin_phi, demagWork_lin, e1]
  unfold locQuad
  simp only [tetQuad_smul, List.sum_map_mul_left]
  ring

theorem quad_continuous {p : ℕ → V3} (h : Steady P p D H Ms) : Continuous (quad P p D) := by
  have hv : ∀ k, SmoothV fun c : X n => vecs c k := fun k => smooth_vecs contDiff_id k
  have hphi : ∀ k, ContDiff ℝ 1 fun c : X n => extS (D.phi (tab c)) k := fun k => smooth_extS h.smooth.phi k
  refine ContDiff.continuous (𝕜 := ℝ) (n := 1) (ContDiff.sub ?_ (contDiff_const.mul ?_))
  · refine smooth_list _ _ fun t _ => ContDiff.sub (contDiff_const.mul (smooth_gradDot _ (fun k => hv _) fun k => hv _)) (contDiff_const.mul ?_)
    refine ContDiff.sum fun j _ => contDiff_const.mul ?_
    have := (SmoothV.const (P.prm t.reg).uk).dot (smooth_interpV (G := P.G) (f := fun c : X n => fun k => vecs c (t.ind k)) (fun k => hv _) j)
    exact this.mul this
  · exact smooth_list _ _ fun t _ => SemiDiscrete.smooth_work _ (fun j => smooth_interpField _ fun k => hphi _) fun k => hv _

theorem quad_bound {p : ℕ → V3} (h : Steady P p D H Ms) : ∃ B, 0 ≤ B ∧ ∀ v, |quad P p D v| ≤ B * ‖v‖ ^ 2 := by
  obtain ⟨B, hB⟩ := (isCompact_closedBall (0 : X n) 1).exists_bound_of_continuousOn (quad_continuous h).continuousOn
  have hB0 : 0 ≤ B := (norm_nonneg _).trans (hB 0 (by simp))
  refine ⟨B, hB0, fun v => ?_⟩
  by_cases hv : v = 0
  · have := quad_smul h 0 v
    rw [zero_smul] at this
    rw [hv, this]
    simp
  · have hn : 0 < ‖v‖ := norm_pos_iff.mpr hv
    have e : v = ‖v‖ • (‖v‖⁻¹ • v) := by rw [smul_smul, mul_inv_cancel₀ hn.ne', one_smul]
    have hm : ‖v‖⁻¹ • v ∈ Metric.closedBall (0 : X n) 1 := by
      rw [mem_closedBall_zero_iff, norm_smul, norm_inv, norm_norm, inv_mul_cancel₀ hn.ne']
    have h1 := hB _ hm
    rw [Real.norm_eq_abs] at h1
    rw [e, quad_smul h, abs_mul, abs_of_nonneg (sq_nonneg _), ← e]
    nlinarith [sq_nonneg ‖v‖]

/-- the energy is the one the forces derive from -/
theorem grad (h : Steady P (fun i => (ext nodes i).p) D H Ms) (hM : P.mu0 * Ms ≠ 0) :
    (setting P cfg nodes D).Grad (redEnergy P (fun i => (ext nodes i).p) D H Ms) := by
  obtain ⟨B, hB0, hB⟩ := quad_bound h
  refine ⟨fun t c => ?_, fun t c => ?_, fun c a W i => ?_, B, fun c c' _ _ => ?_⟩
  · change D.Hext t (tab c) = D.Hext 0 (tab c)
    rw [h.applied, h.applied]
  · change D.Hst t (tab c) = D.Hst 0 (tab c)
    rw [h.spin, h.spin]
  · change extS (D.phiv (tab c) (tab (a • W))) i = a * extS (D.phiv (tab c) (tab W)) i
    unfold extS
    split_ifs with hi
    · rcases h.phiv with h1 | h1
      · rw [h1, h1]
        have := congrFun (h.phi_tab a 0 W W) ⟨i, hi⟩
        rw [zero_smul, add_zero] at this
        rw [this]
        ring
      · rw [h1, h1, mul_zero]
    · ring
  · have := red_taylor (cfg := cfg) h hM c (c' - c) 1
    rw [one_smul, add_sub_cancel] at this
    rw [this]
    have e : redEnergy P (fun i => (ext nodes i).p) D H Ms c - 1 * (setting P cfg nodes D).work (0, c) (vecs (c' - c))
        + 1 ^ 2 * quad P (fun i => (ext nodes i).p) D (c' - c) - redEnergy P (fun i => (ext nodes i).p) D H Ms c
        + (setting P cfg nodes D).work (0, c) (vecs (c' - c)) = quad P (fun i => (ext nodes i).p) D (c' - c) := by ring
    rw [e]
    exact hB _

theorem red_bound (h : Steady P (fun i => (ext nodes i).p) D H Ms) (hM : P.mu0 * Ms ≠ 0) (hS : (setting P cfg nodes D).Good) :
    ∃ B, 0 < B ∧ ∀ c : X n, ‖c‖ ≤ 1 → |redEnergy P (fun i => (ext nodes i).p) D H Ms c| ≤ B := by
  obtain ⟨d, B1, B2, B3, B4, hb⟩ := Setting.exists_bd hS (grad (cfg := cfg) h hM)
  obtain ⟨B, hB0, hB⟩ := quad_bound h
  have h1 := hb.h1
  refine ⟨|redEnergy P (fun i => (ext nodes i).p) D H Ms 0| + B1 + B, by positivity, fun c hc => ?_⟩
  have e := red_taylor (cfg := cfg) h hM 0 c 1
  rw [one_smul, zero_add] at e
  have hw := hb.work 0 (by simp) c
  have hq := hB c
  have hn := norm_nonneg c
  have h2 : B1 * ‖c‖ ≤ B1 := by nlinarith
  have h3 : B * ‖c‖ ^ 2 ≤ B := by nlinarith [pow_le_one₀ (n := 2) hn hc]
  rw [e]
  rw [abs_le] at hw hq ⊢
  have h4 := neg_abs_le (redEnergy P (fun i => (ext nodes i).p) D H Ms 0)
  have h5 := le_abs_self (redEnergy P (fun i => (ext nodes i).p) D H Ms 0)
  constructor <;> linarith [hw.1, hw.2, hq.1, hq.2]

end

end Verif.Relax
