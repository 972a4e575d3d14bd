import Verif.Proofs.Electro
import Verif.Spec.SpinAcc

/-!
# Lemmas on the spin diffusion system
-/

namespace Verif.Electro

open Verif.Mesh Verif.Assembly Verif.SparseMat Verif.Llg

theorem block_idx (a : Fin 3) (i : Fin 4) :
    (Fin.ofNat 3 (((a : ℕ) * 4 + i) / 4), Fin.ofNat 4 (((a : ℕ) * 4 + i) % 4)) = (a, i) := by
  have h1 : ((a : ℕ) * 4 + i) / 4 = a := by omega
  have h2 : ((a : ℕ) * 4 + i) % 4 = i := by omega
  rw [h1, h2, ofNat4, ofNat3]

theorem block_idx3 (a : Fin 3) (i : Fin 3) :
    (Fin.ofNat 3 (((a : ℕ) * 3 + i) / 3), Fin.ofNat 3 (((a : ℕ) * 3 + i) % 3)) = (a, i) := by
  have h1 : ((a : ℕ) * 3 + i) / 3 = a := by omega
  have h2 : ((a : ℕ) * 3 + i) % 3 = i := by omega
  rw [h1, h2, ofNat3, ofNat3]

theorem flat_idx (s : ℕ → V3) (n : ℕ) (a : Fin 3) : flat s (3 * n + a) = (s n).comp a := by
  unfold flat
  have h1 : (3 * n + (a : ℕ)) / 3 = n := by omega
  have h2 : (3 * n + (a : ℕ)) % 3 = a := by omega
  rw [h1, h2, ofNat3]

theorem diagBlock_form (G : Tetra.Rule) (p : Fin 4 → V3) (c : ℝ) (d x y : Fin 4 → ℝ) :
    ∑ i, ∑ k, x i * Tetra.calcDiagBlock G p c d i k * y k =
      c * Tetra.calcVol G p * (Tetra.gradV p x).dot (Tetra.gradV p y) + ∑ i, d i * (x i * y i) := by
  have e : ∀ i k, x i * Tetra.calcDiagBlock G p c d i k * y k =
      x i * (c * Tetra.calcVol G p * (Tetra.daRow p i).dot (Tetra.daRow p k)) * y k +
      (if i = k then d i * (x i * y k) else 0) := by
    intro i k
    unfold Tetra.calcDiagBlock
    have : (Tetra.da p * (Tetra.da p).transpose) i k = (Tetra.daRow p i).dot (Tetra.daRow p k) := by
      rw [Matrix.mul_apply, Fin.sum_univ_three]
      rfl
    rw [this]
    split_ifs <;> ring
  simp only [e, Finset.sum_add_distrib, Finset.sum_ite_eq, Finset.mem_univ, if_true]
  congr 1
  simp only [Tetra.gradV, Fin.sum_univ_four, V3.dot, V3.add_x, V3.add_y, V3.add_z, V3.smul_x, V3.smul_y, V3.smul_z]
  ring

theorem spinMat_pair (G : Tetra.Rule) (c : Consts) (m : VolPrm) (isMag : Bool) (p u : Fin 4 → V3) (w s : Fin 4 → V3)
    (i k : Fin 4) :
    ∑ a : Fin 3, ∑ b : Fin 3, (w i).comp a * spinMat G c m isMag p u (a, i) (b, k) * (s k).comp b =
      ∑ a : Fin 3, (w i).comp a * Tetra.calcDiagBlock G p (diffusionCst c m)
        (fun i => diffusionCst c m / (m.lsf * m.lsf) * Tetra.aw G p i) i k * (s k).comp a +
      (if i = k then (if isMag then diffusionCst c m / (m.lsd * m.lsd) * (Tetra.aw G p i * (w i).dot ((s i).cross (u i)))
        else 0) else 0) := by
  unfold spinMat
  simp only [Fin.sum_univ_three]
  by_cases h : i = k
  · subst h
    cases isMag
    · simp [V3.comp]
    · simp [V3.comp, V3.dot, V3.cross]
      ring
  · simp [h]

/-- the form of the element matrix -/
theorem spinMat_form (G : Tetra.Rule) (hG : Tetra.Compiled G) (c : Consts) (m : VolPrm) (isMag : Bool) (p u : Fin 4 → V3)
    (w s : Fin 4 → V3) :
    ∑ i, ∑ k, ∑ a : Fin 3, ∑ b : Fin 3, (w i).comp a * spinMat G c m isMag p u (a, i) (b, k) * (s k).comp b =
      diffusionCst c m * (Tetra.detJ p / 6) * (∑ a : Fin 3,
        (Tetra.gradV p fun i => (w i).comp a).dot (Tetra.gradV p fun i => (s i).comp a))
      + diffusionCst c m / (m.lsf * m.lsf) * (Tetra.detJ p / 6) * ((∑ i, (w i).dot (s i)) / 4)
      + (if isMag then diffusionCst c m / (m.lsd * m.lsd) * (Tetra.detJ p / 6) *
          ((∑ i, (w i).dot ((s i).cross (u i))) / 4) else 0) := by
  simp only [spinMat_pair, Finset.sum_add_distrib, Finset.sum_ite_eq, Finset.mem_univ, if_true]
  have e1 : ∑ i : Fin 4, ∑ k : Fin 4, ∑ a : Fin 3, (w i).comp a * Tetra.calcDiagBlock G p (diffusionCst c m)
        (fun i => diffusionCst c m / (m.lsf * m.lsf) * Tetra.aw G p i) i k * (s k).comp a =
      ∑ a : Fin 3, ∑ i : Fin 4, ∑ k : Fin 4, (w i).comp a * Tetra.calcDiagBlock G p (diffusionCst c m)
        (fun i => diffusionCst c m / (m.lsf * m.lsf) * Tetra.aw G p i) i k * (s k).comp a := by
    rw [Finset.sum_comm]
    rw [Finset.sum_comm]
    simp only [Finset.sum_comm (s := (Finset.univ : Finset (Fin 4))) (t := (Finset.univ : Finset (Fin 3)))]
  rw [e1]
  have e2 := fun a : Fin 3 => diagBlock_form G p (diffusionCst c m)
    (fun i => diffusionCst c m / (m.lsf * m.lsf) * Tetra.aw G p i) (fun i => (w i).comp a) (fun i => (s i).comp a)
  rw [Finset.sum_congr rfl fun a _ => e2 a]
  simp only [Finset.sum_add_distrib, Tetra.aw_eq hG.ok, Tetra.calcVol_eq hG.ok, Finset.mul_sum]
  congr 1
  · congr 1
    simp only [Fin.sum_univ_three, Fin.sum_univ_four, V3.comp, V3.dot]
    ring
  · cases isMag
    · simp
    · simp only [if_true, Fin.sum_univ_four]
      ring

/-- the form of the element vector -/
theorem spinVec_form (G : Tetra.Rule) (hG : Tetra.Compiled G) (c : Consts) (m : VolPrm) (isMag : Bool) (p u w : Fin 4 → V3)
    (V : Fin 4 → ℝ) :
    ∑ i, ∑ a : Fin 3, (w i).comp a * spinVec G c m isMag p u V (a, i) =
      if isMag then (c.mub * m.P.val * m.sigma / c.e) * (Tetra.detJ p / 6) *
        ∑ i, (Tetra.gradV p V).dot (Tetra.daRow p i) * (w i).dot (u i) else 0 := by
  cases isMag
  · simp [spinVec]
  · have e : ∀ (a : Fin 3) (i : Fin 4), spinVec G c m true p u V (a, i) =
        (c.mub * m.P.val * m.sigma / c.e) * (Tetra.detJ p / 6) * (Tetra.gradV p V).dot (Tetra.daRow p i) * (u i).comp a := by
      intro a i
      unfold spinVec
      rw [if_pos rfl]
      simp only [V3.dot_smul_left]
      rw [← Finset.sum_mul, ← Finset.sum_mul, ← Finset.mul_sum, ← Tetra.calcVol_eq hG.ok]
      rfl
    simp only [e, if_true, Finset.mul_sum]
    refine Finset.sum_congr rfl fun i _ => ?_
    rw [Fin.sum_univ_three]
    simp only [V3.comp, V3.dot]
    ring

/-- the form of the surface vector -/
theorem spinTri_form (H : TriElem.Rule) (hH : H.Ok) (c : Consts) (m : SurfPrm) (p w : Fin 3 → V3) : open Classical in
    ∑ i, ∑ a : Fin 3, (w i).comp a * spinTriVec H c m p (a, i) =
      -(if (norm3 (surfValue c m)).IsFin then TriElem.surf p * ∑ a : Fin 3, (surfValue c m a).val *
        (((w 0).comp a + (w 1).comp a + (w 2).comp a) / 3) else 0) := by
  classical
  by_cases h : (norm3 (surfValue c m)).IsFin
  · have e : ∀ (a : Fin 3) (i : Fin 3), spinTriVec H c m p (a, i) =
        -((surfValue c m a).val * ∑ j, TriElem.weight H p j * H.a i j) := by
      intro a i
      unfold spinTriVec
      rw [if_pos h, Finset.sum_neg_distrib, Finset.mul_sum]
    rw [if_pos h]
    simp only [e]
    rw [Finset.sum_comm, Finset.mul_sum, ← Finset.sum_neg_distrib]
    refine Finset.sum_congr rfl fun a _ => ?_
    have e2 := TriElem.sum_weight_interpS hH p (fun i => (w i).comp a)
    have e3 : ∑ j, TriElem.weight H p j * TriElem.interpS H (fun i => (w i).comp a) j =
        ∑ i, (w i).comp a * ∑ j, TriElem.weight H p j * H.a i j := by
      simp only [TriElem.interpS, Finset.mul_sum]
      rw [Finset.sum_comm]
      exact Finset.sum_congr rfl fun i _ => Finset.sum_congr rfl fun j _ => by ring
    rw [e3, Fin.sum_univ_three, Fin.sum_univ_three] at e2
    rw [Fin.sum_univ_three]
    linear_combination (-(surfValue c m a).val) * e2
  · unfold spinTriVec
    simp only [if_neg h]
    simp

theorem norm3_isFin (v : Fin 3 → Fl) : (norm3 v).IsFin ↔ ∀ b, (v b).IsFin := by
  rw [Fin.forall_fin_succ, Fin.forall_fin_two]
  show (norm3 v).IsFin ↔ (v 0).IsFin ∧ (v 1).IsFin ∧ (v 2).IsFin
  unfold norm3
  generalize v 0 = a
  generalize v 1 = b
  generalize v 2 = c
  have hsq : ∀ x y z : ℝ, ¬ x * x + y * y + z * z < 0 := fun x y z => by
    have := mul_self_nonneg x; have := mul_self_nonneg y; have := mul_self_nonneg z; linarith
  constructor
  · intro h
    rcases a with _ | s | x <;> rcases b with _ | t | y <;> rcases c with _ | r | z
    all_goals first
      | exact ⟨trivial, trivial, trivial⟩
      | (exfalso
         revert h
         simp only [HMul.hMul, HAdd.hAdd, Mul.mul, Add.add, Fl.mul, Fl.add, Fl.sqrt, Fl.IsFin]
         simp)
  · rintro ⟨ha, hb, hc⟩
    rcases a with _ | s | x <;> rcases b with _ | t | y <;> rcases c with _ | r | z
    all_goals first | exact ha.elim | exact hb.elim | exact hc.elim | skip
    show (Fl.sqrt (.fin (x * x + y * y + z * z))).IsFin
    unfold Fl.sqrt
    dsimp only
    rw [if_neg (hsq x y z)]
    trivial

/-- the surface term of the code is the flow of the specification -/
theorem surf_flow (c : Consts) (m : SurfPrm) (S : ℝ) (X : Fin 3 → ℝ) : open Classical in
    (if (norm3 (surfValue c m)).IsFin then S * ∑ a : Fin 3, (surfValue c m a).val * X a else 0) =
      S * ∑ a : Fin 3, flow c m a * X a := by
  classical
  unfold surfValue flow
  simp only [norm3_isFin]
  by_cases h : m.jn.IsFin ∧ ∀ b, (m.uP b).IsFin
  · obtain ⟨h1, h2⟩ := h
    have e : ∀ a, (-m.jn) * .fin (c.mub / c.e) * m.uP a = Fl.fin (-m.jn.val * (c.mub / c.e) * (m.uP a).val) := by
      intro a
      have h3 := h2 a
      revert h1 h3
      generalize m.jn = j
      generalize m.uP a = u
      rcases j with _ | _ | j <;> rcases u with _ | _ | u <;> intro h1 h3
      all_goals first | exact h1.elim | exact h3.elim | rfl
    have hc : m.jn.IsFin ∧ ∀ b, (m.uP b).IsFin := ⟨h1, h2⟩
    simp only [if_pos hc, e]
    rw [if_pos (show ∀ b : Fin 3, (Fl.fin (-m.jn.val * (c.mub / c.e) * (m.uP b).val)).IsFin from fun b => trivial)]
    rfl
  · simp only [if_neg h]
    by_cases h2 : ∀ b, (m.s b).IsFin
    · simp only [if_pos h2]
    · simp only [if_neg h2]
      simp

/-- the weak form with the expressions of the code -/
theorem spinWeak_model (d : SpinData) (m n w s : ℕ → V3) : open Classical in
    spinWeak d m n w s =
  (d.tets.map fun t =>
    let vol := Tetra.detJ (MeshElem.nod4 d.p t) / 6
    let D0 := diffusionCst d.c (d.vol t.reg)
    let lsf := (d.vol t.reg).lsf
    let lsd := (d.vol t.reg).lsd
    D0 * vol * (∑ a : Fin 3, (Tetra.gradV (MeshElem.nod4 d.p t) (comp4 w a t)).dot
      (Tetra.gradV (MeshElem.nod4 d.p t) (comp4 s a t)))
    + D0 / (lsf * lsf) * vol * ((∑ i : Fin 4, (w (t.ind i)).dot (s (t.ind i))) / 4)
    + (if t.isMagnetic d.mag then
        D0 / (lsd * lsd) * vol * ((∑ i : Fin 4, (w (t.ind i)).dot ((s (t.ind i)).cross (m (t.ind i)))) / 4)
        - (d.c.mub * (d.vol t.reg).P.val * (d.vol t.reg).sigma / d.c.e) * vol *
          ∑ i : Fin 4, (Tetra.gradV (MeshElem.nod4 d.p t) (MeshElem.nod4 d.V t)).dot (Tetra.daRow (MeshElem.nod4 d.p t) i)
            * (w (t.ind i)).dot (n (t.ind i))
      else 0)).sum
  + (d.tris.map fun f =>
      if (norm3 (surfValue d.c (d.surf f.reg))).IsFin then
        TriElem.surf (MeshElem.nod3 d.p f) * ∑ a : Fin 3, (surfValue d.c (d.surf f.reg) a).val *
          (((w (f.ind 0)).comp a + (w (f.ind 1)).comp a + (w (f.ind 2)).comp a) / 3)
      else 0).sum := by
  classical
  simp only [surf_flow]
  rfl

end Verif.Electro
