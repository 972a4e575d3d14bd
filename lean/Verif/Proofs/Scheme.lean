import Verif.Proofs.SemiDiscrete

/-!
# The equation of a time step as a perturbation of the equation discretised in space
-/

namespace Verif.SemiDiscrete

open Verif.Mesh Verif.Tetra Verif.WeakForm Verif.Llg

variable {Z : Type*} [NormedAddCommGroup Z] [NormedSpace ℝ Z] {G : Rule}

/-- part of the anisotropy field of a step proportional to the velocity, divided by `theta dt` -/
noncomputable def anisoRate (m : Prm) (mu0 : ℝ) (U V : V3) : V3 :=
  (2 * m.K / (mu0 * m.Ms) * m.uk.dot V) * m.uk
  - (2 * m.K3 / (mu0 * m.Ms)) * cwise (cwise ⟨m.ex.dot V, m.ey.dot V, m.ez.dot V⟩ m.ex)
      ((⟨1, 1, 1⟩ : V3) - (3 : ℝ) * cwise ⟨m.ex.dot U, m.ey.dot U, m.ez.dot U⟩ ⟨m.ex.dot U, m.ey.dot U, m.ez.dot U⟩)

theorem hAniso_eq (m : Prm) (s : Step) (hg : s.gamma0 ≠ 0) (U V : V3) :
    hAniso m s U V = anisoField m s.mu0 U + (s.theta * s.dt) * anisoRate m s.mu0 U V := by
  have hs : sdt s / s.gamma0 = s.theta * s.dt := by unfold sdt; field_simp
  unfold hAniso anisoField anisoRate
  rw [hs]
  split_ifs with h1 h2 h2 <;> (try simp only [ne_eq, not_not] at h1) <;> (try simp only [ne_eq, not_not] at h2)
  all_goals
    ext <;>
    simp only [anisoUniaxH, anisoCubH, cwise, V3.dot, V3.add_x, V3.add_y, V3.add_z, V3.sub_x, V3.sub_y, V3.sub_z, V3.smul_x,
      V3.smul_y, V3.smul_z, V3.zero_x, V3.zero_y, V3.zero_z, h1, h2] <;> ring

/-- the part of the explicit field proportional to the step, divided by it -/
noncomputable def rateField (G : Rule) (m : Prm) (mu0 theta gamma0 : ℝ) (p u v : Fin 4 → V3) (phiv : Fin 4 → ℝ) (Hst : Fin G.n → V3)
    (j : Fin G.n) : V3 :=
  theta * interpField p phiv + theta * anisoRate m mu0 (interpV G u j) (interpV G v j)
    - (theta * gamma0 * (Hst j).dot (interpV G u j)) * interpV G v j

theorem explicit_eq (m : Prm) (s : Step) (hg : s.gamma0 ≠ 0) (n : Nodal) (Hext Hst : Fin G.n → V3) (j : Fin G.n) :
    explicitField G m s n Hext Hst j = (interpField n.p n.phi + Hext j + anisoField m s.mu0 (interpV G n.u j) + Hst j)
      + s.dt * rateField G m s.mu0 s.theta s.gamma0 n.p n.u n.v n.phiv Hst j := by
  unfold explicitField rateField
  rw [hAniso_eq m s hg]
  ext <;> simp only [V3.add_x, V3.add_y, V3.add_z, V3.sub_x, V3.sub_y, V3.sub_z, V3.smul_x, V3.smul_y, V3.smul_z] <;> ring

/-- component of the field along the magnetization -/
noncomputable def parField (G : Rule) (m : Prm) (mu0 : ℝ) (p u : Fin 4 → V3) (phi : Fin 4 → ℝ) (Hext Hst : Fin G.n → V3)
    (j : Fin G.n) : ℝ :=
  -(2 * m.A / (mu0 * m.Ms)) * ((Tetra.deriv p 0 u).nsq + (Tetra.deriv p 1 u).nsq + (Tetra.deriv p 2 u).nsq)
  + 2 * m.K / (mu0 * m.Ms) * ((interpV G u j).dot m.uk * (interpV G u j).dot m.uk)
  + -(2 * m.K3 / (mu0 * m.Ms)) * (m.ex.dot (interpV G u j) * (m.ex.dot (interpV G u j) * (1 - m.ex.dot (interpV G u j) * m.ex.dot (interpV G u j)))
      + m.ey.dot (interpV G u j) * (m.ey.dot (interpV G u j) * (1 - m.ey.dot (interpV G u j) * m.ey.dot (interpV G u j)))
      + m.ez.dot (interpV G u j) * (m.ez.dot (interpV G u j) * (1 - m.ez.dot (interpV G u j) * m.ez.dot (interpV G u j))))
  + (interpV G u j).dot (interpField p phi + Hext j + Hst j)

theorem parField_eq (m : Prm) (s : Step) (n : Nodal) (Hext Hst : Fin G.n → V3) (j : Fin G.n) :
    uHeff G m s n (fun j => interpField n.p n.phi + Hext j + Hst j) j = parField G m s.mu0 n.p n.u n.phi Hext Hst j := by
  unfold uHeff parField anisoUniaxUH anisoCubUH abis
  dsimp only
  split_ifs with h1 h2 h2 <;> (try simp only [ne_eq, not_not] at h1) <;> (try simp only [ne_eq, not_not] at h2)
  · simp only [V3.dot]
  all_goals (simp only [h1, h2, V3.dot]; ring)

/-- the effective damping is close to the damping -/
theorem alphaEff_close {g dt a h : ℝ} (hg : 0 < g) (hdt : 0 < dt) (ha : 0 < a) : |alphaEff g dt a h - a| ≤ g * dt / 2 * |h| := by
  have hr : 0 < g * dt := mul_pos hg hdt
  have hM : 0 < 2 * a * (1 / 10) / (g * dt) := by positivity
  set M := 2 * a * (1 / 10) / (g * dt) with hMd
  have hx : ∀ x : ℝ, 0 ≤ x → |a / (1 + x) - a| ≤ a * x := by
    intro x hx
    have h1 : (0 : ℝ) < 1 + x := by linarith
    have e : a / (1 + x) - a = -(a * x / (1 + x)) := by field_simp; ring
    rw [e, abs_neg, abs_of_nonneg (by positivity)]
    exact div_le_self (by positivity) (by linarith)
  unfold alphaEff
  dsimp only
  rw [← hMd]
  split_ifs with h1 h2 h3
  · rw [add_sub_cancel_left, abs_of_nonneg (by positivity), abs_of_pos h1]
    exact mul_le_mul_of_nonneg_left h2.le (by positivity)
  · rw [add_sub_cancel_left, abs_of_nonneg (by positivity), abs_of_pos h1]
  · refine (hx _ (by positivity)).trans ?_
    have e : a * (g * dt / (2 * a) * M) = g * dt / 2 * M := by field_simp
    rw [e, abs_of_nonpos (not_lt.mp h1)]
    exact mul_le_mul_of_nonneg_left (by linarith) (by positivity)
  · have h0 := not_lt.mp h1
    have e0 : 1 - g * dt / (2 * a) * h = 1 + g * dt / (2 * a) * (-h) := by ring
    have hn : 0 ≤ g * dt / (2 * a) * (-h) := mul_nonneg (by positivity) (by linarith)
    rw [e0]
    refine (hx _ hn).trans (le_of_eq ?_)
    rw [abs_of_nonpos h0]
    field_simp

/-- the terms of the step which are not in the equation discretised in space, divided by `dt` -/
noncomputable def pert (G : Rule) (prm : ℕ → Prm) (mu0 : ℝ) (tets : List Tet) (p : ℕ → V3) (rate : Tet → Fin G.n → V3) (q : ℝ)
    (v w : ℕ → V3) : ℝ :=
  (tets.map fun t => work G (fun k => p (t.ind k)) (rate t) (fun k => w (t.ind k))).sum
  - q * (tets.map fun t => 2 * (prm t.reg).A / (mu0 * (prm t.reg).Ms) * calcVol G (fun k => p (t.ind k))
      * gradDot (fun k => p (t.ind k)) (fun k => v (t.ind k)) (fun k => w (t.ind k))).sum

theorem work_add_smul (p : Fin 4 → V3) (F F' : Fin G.n → V3) (c : ℝ) (w : Fin 4 → V3) :
    work G p (fun j => F j + c * F' j) w = work G p F w + c * work G p F' w := by
  unfold work
  rw [Finset.mul_sum, ← Finset.sum_add_distrib]
  refine Finset.sum_congr rfl fun j _ => ?_
  rw [add_dot, smul_dot]
  ring

/-- the equation of motion of a step -/
theorem scheme_eq {H : TriElem.Rule} {prm : ℕ → Prm} {sprm : ℕ → SurfPrm} {s : Step} {magN : ℕ → Prop} {tets : List Tet}
    {tris : List (Tri × ℝ)} {nodes : ℕ → Node} {Hext Hst : Tet → Fin G.n → V3} {V : ℝ} {v : ℕ → V3}
    (h : Holds G H prm sprm s magN tets tris nodes Hext Hst none V v) (hg : s.gamma0 ≠ 0) {p u vel : ℕ → V3} {phi phiv : ℕ → ℝ}
    (ht : ∀ t ∈ tets, ∀ k, (nodes (t.ind k)).p = p (t.ind k) ∧ (nodes (t.ind k)).cur.u = u (t.ind k) ∧
      (nodes (t.ind k)).cur.v = vel (t.ind k) ∧ (nodes (t.ind k)).cur.phi = phi (t.ind k) ∧ (nodes (t.ind k)).cur.phiv = phiv (t.ind k))
    (hf : ∀ f ∈ tris, ∀ k, (nodes (f.1.ind k)).p = p (f.1.ind k) ∧ (nodes (f.1.ind k)).cur.u = u (f.1.ind k))
    (w : ℕ → V3) (hw : ∀ i, magN i → (w i).dot (nodes i).cur.u = 0) :
    (tets.map fun t =>
        damping G (fun k => p (t.ind k)) (fun j => alphaEff s.gamma0 s.dt (prm t.reg).alpha
          (parField G (prm t.reg) s.mu0 (fun k => p (t.ind k)) (fun k => u (t.ind k)) (fun k => phi (t.ind k)) (Hext t) (Hst t) j))
          (fun k => v (t.ind k)) (fun k => w (t.ind k))
        + gyration G (fun k => p (t.ind k)) (fun k => u (t.ind k)) (fun k => v (t.ind k)) (fun k => w (t.ind k))).sum
      = totalWork G H prm sprm s.mu0 tets tris p u phi Hext Hst w
        + s.dt * pert G prm s.mu0 tets p (fun t => rateField G (prm t.reg) s.mu0 s.theta s.gamma0 (fun k => p (t.ind k))
            (fun k => u (t.ind k)) (fun k => vel (t.ind k)) (fun k => phiv (t.ind k)) (Hst t))
            (s.prefactor * (s.theta * s.gamma0)) v w := by
  have h1 := h w hw
  have e2 : (tris.map fun f => surfaceWork H (sprm f.1.reg) f.2 (fun i => (nodes (f.1.ind i)).p)
          (fun i => (nodes (f.1.ind i)).cur.u) (fun i => w (f.1.ind i))).sum
      = (tris.map fun f => surfaceWork H (sprm f.1.reg) f.2 (fun k => p (f.1.ind k)) (fun k => u (f.1.ind k))
      (fun k => w (f.1.ind k))).sum := by
    refine congrArg List.sum (List.map_congr_left fun f hf' => ?_)
    simp only [(hf f hf' _).1, (hf f hf' _).2]
  rw [e2] at h1
  unfold totalWork pert
  rw [mul_sub, ← mul_assoc, ← List.sum_map_mul_left, ← List.sum_map_mul_left, ← h1]
  have e3 : ∀ a b c d : ℝ, a + b + (c - d) = (a + c - d) + b := fun a b c d => by ring
  rw [e3, ← List.sum_map_add, ← sub_eq_zero]
  have e4 : ∀ (f g h i : Tet → ℝ), (∀ t ∈ tets, f t = g t - h t + i t) →
      (tets.map f).sum - ((tets.map g).sum - (tets.map h).sum + (tets.map i).sum) = 0 := by
    intro f g h i hh
    rw [congrArg List.sum (List.map_congr_left hh), List.sum_map_add, list_lin tets (fun t => g t - h t) g h 1 (-1) (fun t _ => by ring)]
    ring
  apply e4
  intro t htt
  have hnod : nodalOf nodes t = ⟨fun k => p (t.ind k), fun k => u (t.ind k), fun k => vel (t.ind k), fun k => phi (t.ind k),
      fun k => phiv (t.ind k), fun k => (nodes (t.ind k)).ep, fun k => (nodes (t.ind k)).eq⟩ := by
    unfold nodalOf
    simp only [(ht t htt _).1, (ht t htt _).2.1, (ht t htt _).2.2.1, (ht t htt _).2.2.2.1, (ht t htt _).2.2.2.2]
  have e5 := explicit_eq (G := G) (prm t.reg) s hg (nodalOf nodes t) (Hext t) (Hst t)
  have e6 : effDamping G (prm t.reg) s (nodalOf nodes t) (Hext t) (Hst t) = fun j => alphaEff s.gamma0 s.dt (prm t.reg).alpha
          (parField G (prm t.reg) s.mu0 (fun k => p (t.ind k)) (fun k => u (t.ind k)) (fun k => phi (t.ind k)) (Hext t) (Hst t) j) := by
    funext j
    unfold effDamping
    rw [parField_eq, hnod]
  unfold WeakForm.residual tetWork drift
  rw [funext e5, work_add_smul, gradDot_add_smul, e6, hnod]
  ring

/-! ## smoothness -/

theorem SmoothV.cwise {f g : Z → V3} (hf : SmoothV f) (hg : SmoothV g) : SmoothV fun z => Tetra.cwise (f z) (g z) :=
  ⟨hf.x.mul hg.x, hf.y.mul hg.y, hf.z.mul hg.z⟩

theorem smooth_anisoRate (m : Prm) (mu0 : ℝ) {U V : Z → V3} (hU : SmoothV U) (hV : SmoothV V) :
    SmoothV fun z => anisoRate m mu0 (U z) (V z) := by
  have hd : ∀ {f : Z → V3}, SmoothV f → ∀ a : V3, ContDiff ℝ 1 fun z => a.dot (f z) := fun hf a => (SmoothV.const a).dot hf
  have h3 : ∀ {f : Z → V3}, SmoothV f → SmoothV fun z => (⟨m.ex.dot (f z), m.ey.dot (f z), m.ez.dot (f z)⟩ : V3) :=
    fun hf => ⟨hd hf _, hd hf _, hd hf _⟩
  exact (SmoothV.smul (contDiff_const.mul (hd hV _)) (SmoothV.const _)).sub (SmoothV.smul contDiff_const
    (((h3 hV).cwise (SmoothV.const _)).cwise ((SmoothV.const _).sub (SmoothV.smul contDiff_const ((h3 hU).cwise (h3 hU))))))

section
variable {u v : Z → Fin 4 → V3} {phi phiv : Z → Fin 4 → ℝ} {Hext Hst : Z → Fin G.n → V3} (p : Fin 4 → V3)

theorem smooth_rateField (m : Prm) (mu0 theta gamma0 : ℝ) (hu : ∀ k, SmoothV fun z => u z k) (hv : ∀ k, SmoothV fun z => v z k)
    (hphi : ∀ k, ContDiff ℝ 1 fun z => phiv z k) (hS : ∀ j, SmoothV fun z => Hst z j) (j : Fin G.n) :
    SmoothV fun z => rateField G m mu0 theta gamma0 p (u z) (v z) (phiv z) (Hst z) j :=
  ((SmoothV.smul contDiff_const (smooth_interpField p hphi)).add (SmoothV.smul contDiff_const
    (smooth_anisoRate m mu0 (smooth_interpV hu j) (smooth_interpV hv j)))).sub
    (SmoothV.smul (contDiff_const.mul ((hS j).dot (smooth_interpV hu j))) (smooth_interpV hv j))

theorem smooth_parField (m : Prm) (mu0 : ℝ) (hu : ∀ k, SmoothV fun z => u z k) (hphi : ∀ k, ContDiff ℝ 1 fun z => phi z k)
    (hH : ∀ j, SmoothV fun z => Hext z j) (hS : ∀ j, SmoothV fun z => Hst z j) (j : Fin G.n) :
    ContDiff ℝ 1 fun z => parField G m mu0 p (u z) (phi z) (Hext z) (Hst z) j := by
  have hU := smooth_interpV hu j
  have hd : ∀ a : V3, ContDiff ℝ 1 fun z => a.dot (interpV G (u z) j) := fun a => (SmoothV.const a).dot hU
  have hc : ∀ a : V3, ContDiff ℝ 1 fun z => a.dot (interpV G (u z) j) * (a.dot (interpV G (u z) j)
      * (1 - a.dot (interpV G (u z) j) * a.dot (interpV G (u z) j))) :=
    fun a => (hd a).mul ((hd a).mul (contDiff_const.sub ((hd a).mul (hd a))))
  have he := hU.dot (SmoothV.const m.uk)
  exact (((contDiff_const.mul (((smooth_deriv p hu 0).nsq.add (smooth_deriv p hu 1).nsq).add (smooth_deriv p hu 2).nsq)).add
    (contDiff_const.mul (he.mul he))).add (contDiff_const.mul (((hc m.ex).add (hc m.ey)).add (hc m.ez)))).add
    (hU.dot (((smooth_interpField p hphi).add (hH j)).add (hS j)))

end

end Verif.SemiDiscrete
