import Verif.Model.SpinTorque
import Verif.Spec.WeakForm
import Verif.Props.SpinAccSolve
import Verif.Proofs.Node

/-!
# C84 The torque of the spin accumulation and the balance of spin

`e` is a direction; the total moment along `e` changes by the work on the rotations `u × e`.
-/

namespace Verif.SpinTorque

open Verif.Mesh Verif.MeshElem Verif.Electro Verif.Tetra

/-- field of the rotations about `e` -/
def turn (u : ℕ → V3) (e : V3) (i : ℕ) : V3 := (u i).cross e

/-- rate at which the conduction spins of an element lose spin along `e` by precession about `m`: the precession term of
`spinWeak` for the constant test field `e` -/
noncomputable def precessionLoss (c : Consts) (prm : VolPrm) (p m s : ℕ → V3) (t : Tet) (e : V3) : ℝ :=
  diffusivity c prm / (prm.lsd * prm.lsd) * (Tetra.detJ (nod4 p t) / 6) *
    ((∑ i : Fin 4, e.dot ((s (t.ind i)).cross (m (t.ind i)))) / 4)

/-- rate at which the field `Hst` changes the moment of an element along `e` -/
noncomputable def torque (G : Rule) (gamma0 Ms : ℝ) (p u : ℕ → V3) (Hst : Fin G.n → V3) (t : Tet) (e : V3) : ℝ :=
  gamma0 * Ms * WeakForm.work G (nod4 p t) Hst (nod4 (turn u e) t)

/-- mean over the nodes of an element -/
noncomputable def mean (f : Fin 4 → V3) : V3 := (1 / 4 : ℝ) * (f 0 + f 1 + f 2 + f 3)

variable {G : Rule}

/-- why `torque` is the rate of the moment: in the equation of motion tested with the rotation about `e` the gyration term is the
mean of `v·e` times the volume, `v` being the rate of the magnetization over `gamma0` -/
theorem C84_rate (hG : G.Ok) (p u v : Fin 4 → V3) (hu : ∀ i, (u i).nsq = 1) (hv : ∀ i, (v i).dot (u i) = 0) (e : V3) :
    WeakForm.gyration G p u v (fun i => (u i).cross e) = calcVol G p * ((∑ i, (v i).dot e) / 4) := by
  have h : ∀ i, ((u i).cross (v i)).dot ((u i).cross e) = (v i).dot e := by
    intro i
    have h1 := hu i
    have h2 := hv i
    simp only [V3.nsq, V3.dot, V3.cross] at *
    linear_combination ((v i).x * e.x + (v i).y * e.y + (v i).z * e.z) * h1
      - ((u i).x * e.x + (u i).y * e.y + (u i).z * e.z) * h2
  unfold WeakForm.gyration
  simp only [h]
  rw [sum_weight_interpS hG]

/-- integral of the triple product of two interpolated fields with a constant -/
theorem sum_triple (p s u : Fin 4 → V3) (e : V3) :
    (∑ j, weight rule5 p j * (interpV rule5 s j).dot (interpV rule5 (fun i => (u i).cross e) j) =
      detJ p / 6 * ((∑ i, e.dot ((s i).cross (u i))) / 4)
        - detJ p / 6 / 5 * ∑ i, e.dot ((s i - mean s).cross (u i - mean u))) ∧
    (∑ j, weight rule1 p j * (interpV rule1 s j).dot (interpV rule1 (fun i => (u i).cross e) j) =
      detJ p / 6 * ((∑ i, e.dot ((s i).cross (u i))) / 4)
        - detJ p / 6 / 4 * ∑ i, e.dot ((s i - mean s).cross (u i - mean u))) := by
  constructor
  · unfold weight
    simp only [mul_assoc]
    rw [← Finset.mul_sum, rule5_sum_pds]
    unfold interpV mean
    simp only [rule5_a0, rule5_a1, rule5_a2, rule5_a3, rule5_a4, Fin.sum_univ_four]
    simp [V3.dot, V3.cross]
    ring
  · have e1 : ∀ f : Fin rule1.n → ℝ, ∑ j, weight rule1 p j * f j = weight rule1 p (0 : Fin 1) * f (0 : Fin 1) :=
      fun f => Fin.sum_univ_one (fun j : Fin 1 => weight rule1 p j * f j)
    rw [e1]
    unfold weight interpV mean Rule.a rule1
    simp only [Fin.sum_univ_four]
    simp [V3.dot, V3.cross]
    ring

/-- weight of the second order term: a fifth for the default rule, a quarter for one Gauss point -/
noncomputable def kappa (G : Rule) : ℝ := if G.n = 1 then 1 / 4 else 1 / 5

/-- **C84** What the spins lose by precession is what the magnetization gains, up to a term of second order in the variation over
the element: the loss is integrated with the values at the nodes, the gain with those at the Gauss points. -/
theorem C84_balance (hG : Tetra.Compiled G) (c : Consts) (prm : VolPrm) (gamma0 Ms : ℝ) (hg : gamma0 ≠ 0) (hM : Ms ≠ 0)
    (p u s : ℕ → V3) (t : Tet) (e : V3) :
    torque G gamma0 Ms p u (calcHst G (prefactor c prm gamma0 Ms) s t) t e = precessionLoss c prm p u s t e -
      diffusivity c prm / (prm.lsd * prm.lsd) * (Tetra.detJ (nod4 p t) / 6) * kappa G *
        ∑ i, e.dot ((nod4 s t i - mean (nod4 s t)).cross (nod4 u t i - mean (nod4 u t))) := by
  have hc : gamma0 * Ms * prefactor c prm gamma0 Ms = diffusivity c prm / (prm.lsd * prm.lsd) := by
    unfold prefactor
    by_cases h : prm.lsd = 0
    · simp [h]
    · field_simp
      rfl
  have hw : torque G gamma0 Ms p u (calcHst G (prefactor c prm gamma0 Ms) s t) t e =
      diffusivity c prm / (prm.lsd * prm.lsd) * ∑ j, weight G (nod4 p t) j *
        (interpV G (nod4 s t) j).dot (interpV G (fun i => (nod4 u t i).cross e) j) := by
    rw [← hc]
    unfold torque WeakForm.work calcHst
    rw [Finset.mul_sum, Finset.mul_sum]
    refine Finset.sum_congr rfl fun j _ => ?_
    have e1 : interpV G (nod4 (turn u e) t) j = interpV G (fun i => (nod4 u t i).cross e) j := rfl
    rw [e1]
    simp only [V3.dot, V3.smul_x, V3.smul_y, V3.smul_z]
    ring
  rw [hw]
  unfold precessionLoss
  rcases hG with rfl | rfl
  · rw [(sum_triple _ _ _ _).2]
    have : kappa rule1 = 1 / 4 := by
      unfold kappa
      exact if_pos rfl
    rw [this]
    show _ * (_ * ((∑ i, e.dot ((s (t.ind i)).cross (u (t.ind i)))) / 4) - _) = _
    ring
  · rw [(sum_triple _ _ _ _).1]
    have : kappa rule5 = 1 / 5 := by
      unfold kappa
      exact if_neg (by decide)
    rw [this]
    show _ * (_ * ((∑ i, e.dot ((s (t.ind i)).cross (u (t.ind i)))) / 4) - _) = _
    ring

theorem mean_uniform {f : Fin 4 → V3} {a : V3} (h : ∀ i, f i = a) (i : Fin 4) : f i - mean f = 0 := by
  unfold mean
  simp only [h]
  ext
  · simp only [V3.sub_x, V3.smul_x, V3.add_x, V3.zero_x]; ring
  · simp only [V3.sub_y, V3.smul_y, V3.add_y, V3.zero_y]; ring
  · simp only [V3.sub_z, V3.smul_z, V3.add_z, V3.zero_z]; ring

/-- **C84** (partial: one of the two fields uniform in the element) The balance is exact. -/
theorem C84_exact_partial (hG : Tetra.Compiled G) (c : Consts) (prm : VolPrm) (gamma0 Ms : ℝ) (hg : gamma0 ≠ 0) (hM : Ms ≠ 0)
    (p u s : ℕ → V3) (t : Tet) (e : V3) (h : (∃ a, ∀ i, nod4 u t i = a) ∨ ∃ a, ∀ i, nod4 s t i = a) :
    torque G gamma0 Ms p u (calcHst G (prefactor c prm gamma0 Ms) s t) t e = precessionLoss c prm p u s t e := by
  rw [C84_balance hG c prm gamma0 Ms hg hM]
  have : ∑ i, e.dot ((nod4 s t i - mean (nod4 s t)).cross (nod4 u t i - mean (nod4 u t))) = 0 := by
    apply Finset.sum_eq_zero
    intro i _
    rcases h with ⟨a, h⟩ | ⟨a, h⟩
    · rw [mean_uniform h]; simp [V3.dot, V3.cross]
    · rw [mean_uniform h]; simp [V3.dot, V3.cross]
  rw [this, mul_zero, sub_zero]

/-- **C84** (negation of the exact balance) For every element of positive volume and every material, some unit magnetization and
some spin accumulation exchange a different amount of spin in the two equations. -/
theorem C84_negation (hG : Tetra.Compiled G) (c : Consts) (prm : VolPrm) (gamma0 Ms : ℝ) (hg : gamma0 ≠ 0) (hM : Ms ≠ 0)
    (hD : diffusivity c prm ≠ 0) (hl : prm.lsd ≠ 0) (p : ℕ → V3) (t : Tet) (ht : Function.Injective t.ind)
    (hp : 0 < Tetra.detJ (nod4 p t)) :
    ∃ (u s : ℕ → V3) (e : V3), (∀ i, (u i).nsq = 1) ∧
      torque G gamma0 Ms p u (calcHst G (prefactor c prm gamma0 Ms) s t) t e ≠ precessionLoss c prm p u s t e := by
  refine ⟨fun i => if i = t.ind 0 then ⟨1, 0, 0⟩ else ⟨0, 0, 1⟩, fun i => if i = t.ind 0 then ⟨0, 1, 0⟩ else 0, ⟨0, 0, 1⟩, ?_, ?_⟩
  · intro i
    dsimp only
    split_ifs <;> norm_num [V3.nsq]
  · rw [C84_balance hG c prm gamma0 Ms hg hM]
    intro h
    have h10 : t.ind 1 ≠ t.ind 0 := fun h => absurd (ht h) (by decide)
    have h20 : t.ind 2 ≠ t.ind 0 := fun h => absurd (ht h) (by decide)
    have h30 : t.ind 3 ≠ t.ind 0 := fun h => absurd (ht h) (by decide)
    have hk : 0 < kappa G := by
      unfold kappa
      split_ifs <;> norm_num
    have h0 := sub_eq_self.mp h
    rw [mul_eq_zero] at h0
    rcases h0 with h0 | h0
    · have : diffusivity c prm / (prm.lsd * prm.lsd) * (Tetra.detJ (nod4 p t) / 6) * kappa G ≠ 0 := by positivity
      exact this h0
    · rw [Fin.sum_univ_four] at h0
      simp [nod4, mean, h10, h20, h30, V3.dot, V3.cross] at h0
      norm_num at h0

/-! ## the mesh -/

theorem spinWeak_add {H : TriElem.Rule} {nod : ℕ} {d : SpinData} (h : SpinProblem G H nod d) (m n s w1 w2 : ℕ → V3) :
    spinWeak d m n (fun i => w1 i + w2 i) s = spinWeak d m n w1 s + spinWeak d m n w2 s := by
  have e : ∀ w, spinWeak d m n w s = _ := fun w => spinWeak_eq h ⟨m, n⟩ w s
  rw [e, e, e, ← Finset.sum_add_distrib]
  refine Finset.sum_congr rfl fun r _ => ?_
  have : flat (fun i => w1 i + w2 i) r = flat w1 r + flat w2 r := by
    unfold flat
    generalize Fin.ofNat 3 (r % 3) = a
    fin_cases a <;> rfl
  rw [this, add_mul]

/-- **C84** Spin is conserved: what enters through the nodes `S` where the spin accumulation is imposed (the reaction of the
equations there, for the constant direction `e`) is what relaxes, what is lost by precession, minus what the current produces in
the magnetic elements, plus what leaves through the surfaces. -/
theorem C84_conservation {H : TriElem.Rule} {nod : ℕ} {d : SpinData} (h : SpinProblem G H nod d) (m n s : ℕ → V3) (S : ℕ → Prop) [DecidablePred S]
    (hs : SpinSolution d m n S s) (e : V3) : open Classical in
    spinWeak d m n (fun i => if S i then e else 0) s =
      (d.tets.map fun t =>
        diffusivity d.c (d.vol t.reg) / ((d.vol t.reg).lsf * (d.vol t.reg).lsf) * (Tetra.detJ (nod4 d.p t) / 6) *
            ((∑ i : Fin 4, e.dot (s (t.ind i))) / 4)
          + (if t.isMagnetic d.mag then precessionLoss d.c (d.vol t.reg) d.p m s t e
              - (d.c.mub * (d.vol t.reg).P.val * (d.vol t.reg).sigma / d.c.e) * (Tetra.detJ (nod4 d.p t) / 6) *
                (Tetra.gradV (nod4 d.p t) (nod4 d.V t)).dot (Tetra.gradV (nod4 d.p t) fun i => e.dot (n (t.ind i)))
            else 0)).sum
      + (d.tris.map fun f => TriElem.surf (nod3 d.p f) * ∑ a : Fin 3, flow d.c (d.surf f.reg) a * e.comp a).sum := by
  classical
  have h0 : spinWeak d m n (fun i => if S i then 0 else e) s = 0 := hs _ fun i hi => if_pos hi
  have h1 : spinWeak d m n (fun i => if S i then e else 0) s = spinWeak d m n (fun _ => e) s := by
    have h2 := spinWeak_add h m n s (fun i => if S i then 0 else e) (fun i => if S i then e else 0)
    rw [h0, zero_add] at h2
    rw [← h2]
    congr 1
    funext i
    split_ifs
    · ext <;> simp
    · ext <;> simp
  rw [h1]
  unfold spinWeak
  congr 2
  · refine List.map_congr_left fun t _ => ?_
    dsimp only
    have hg : ∀ a : Fin 3, Tetra.gradV (nod4 d.p t) (comp4 (fun _ => e) a t) = 0 := fun a => gradV_const _ _
    have hz : ∑ a : Fin 3, (Tetra.gradV (nod4 d.p t) (comp4 (fun _ => e) a t)).dot
        (Tetra.gradV (nod4 d.p t) (comp4 s a t)) = 0 := by
      apply Finset.sum_eq_zero
      intro a _
      rw [hg]
      simp [V3.dot]
    rw [hz, mul_zero, zero_add]
    congr 1
    split_ifs
    · congr 2
      unfold Tetra.gradV
      simp only [V3.dot, Fin.sum_univ_four]
      simp
      ring
    · rfl
  · refine List.map_congr_left fun f _ => ?_
    dsimp only
    congr 1
    refine Finset.sum_congr rfl fun a _ => ?_
    ring

/-- **C84** When the spin diffusion solver fails the torque of the next steps is zero, as without spin accumulation. -/
theorem C84_failed (c : Consts) (mag : ℕ → Bool) (vol : ℕ → VolPrm) (gamma0 : ℝ) (Ms : ℕ → ℝ) (x : ℕ → V3) :
    extraField G true c mag vol gamma0 Ms (afterCompute false x) = extraField G false c mag vol gamma0 Ms x := by
  funext t j
  unfold extraField afterCompute calcHst interpV
  simp only [nod4, Fin.sum_univ_four]
  split_ifs <;> simp_all
  ext <;> simp

/-! ## cases -/

/-- on the magnetic tetrahedron of C60 the exact balance fails for some magnetization, and holds for a uniform one -/
example : (∃ (u s : ℕ → V3) (e : V3), (∀ i, (u i).nsq = 1) ∧
    torque rule5 2 3 exD.p u (calcHst rule5 (prefactor exD.c (exD.vol 0) 2 3) s Tetra.exT) Tetra.exT e ≠
      precessionLoss exD.c (exD.vol 0) exD.p u s Tetra.exT e) ∧
    ∀ s e, torque rule5 2 3 exD.p (fun _ => ⟨0, 0, 1⟩) (calcHst rule5 (prefactor exD.c (exD.vol 0) 2 3) s Tetra.exT) Tetra.exT e =
      precessionLoss exD.c (exD.vol 0) exD.p (fun _ => ⟨0, 0, 1⟩) s Tetra.exT e := by
  constructor
  · refine C84_negation (Or.inr rfl) exD.c (exD.vol 0) 2 3 (by norm_num) (by norm_num) ?_ one_ne_zero exD.p Tetra.exT ?_ ?_
    · exact (exD_material Tetra.exT (by simp [exD])).pos.ne'
    · intro i k h
      revert i k
      decide
    · exact exD_problem.oriented Tetra.exT (by simp [exD])
  · intro s e
    exact C84_exact_partial (Or.inr rfl) _ _ 2 3 (by norm_num) (by norm_num) _ _ _ _ _ (Or.inl ⟨⟨0, 0, 1⟩, fun _ => rfl⟩)

/-- and there is a spin accumulation of that mesh, imposed at node 0, to which the balance of spin applies (C60): what enters at the
node is what relaxes and precesses in the one magnetic tetrahedron, minus what the current produces -/
example : ∃ s : ℕ → V3, SpinSolution exD (fun _ => ⟨0, 0, 1⟩) (fun _ => ⟨0, 0, 1⟩) (fun i => i = 0) s := by
  obtain ⟨x, ⟨-, hx⟩, -⟩ := (C60_spin_unique exD_problem exD_material (fun _ => ⟨0, 0, 1⟩) (fun _ => ⟨0, 0, 1⟩) (fun i => i = 0)
    (fun _ => 0)).2 (exD_covered _)
  have := fun e => C84_conservation exD_problem _ _ _ (fun i => i = 0) hx e
  exact ⟨_, hx⟩

end Verif.SpinTorque
