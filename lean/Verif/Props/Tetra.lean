import Mathlib.Algebra.MvPolynomial.Degrees
import Verif.Model.MeshElem
import Verif.Proofs.Simplex
import Verif.Proofs.Tetra
import Verif.Proofs.TriElem

/-!
# C34, C35, C36, C38, C41, C42: finite element computations
-/

namespace Verif.Tetra

open Verif.Mesh Verif.Geom Verif.MeshElem

/-- the two rules the code can be compiled with (`ONE_GAUSS_POINT`) -/
def Compiled (G : Rule) : Prop := G = rule1 ∨ G = rule5

theorem Compiled.ok {G : Rule} (h : Compiled G) : G.Ok := by
  rcases h with rfl | rfl
  · exact rule1_ok
  · exact rule5_ok

theorem detJ_nod (p : ℕ → V3) (t : Tet) : detJ (nod4 p t) = mixedProd p t := detJ_eq _

/-- six times the signed volume of the tetrahedron `(a, b, c, d)` -/
def vol6 (a b c d : V3) : ℝ := (b - a).dot ((c - a).cross (d - a))

/-- **C34** An accepted tetrahedron has a positive determinant, keeps its region and its four vertices (with
multiplicity), and its weights sum to the volume of the tetrahedron read from the file. -/
theorem C34_orientation (G : Rule) (hG : Compiled G) (eps : ℝ) (heps : 0 < eps) (p : ℕ → V3) (t t' : Tet)
    (h : orientate eps p t = some t') :
    0 < detJ (nod4 p t') ∧ t'.reg = t.reg ∧ Multiset.ofList (List.ofFn t'.ind) = Multiset.ofList (List.ofFn t.ind) ∧
    0 < calcVol G (nod4 p t') ∧
    calcVol G (nod4 p t') = |vol6 (p (t.ind 0)) (p (t.ind 1)) (p (t.ind 2)) (p (t.ind 3))| / 6 := by
  have hm : vol6 (p (t.ind 0)) (p (t.ind 1)) (p (t.ind 2)) (p (t.ind 3)) = mixedProd p t := rfl
  rw [calcVol_eq hG.ok, hm, detJ_nod]
  unfold orientate at h
  split_ifs at h with h1 h2
  · cases h
    have e : mixedProd p (swap23 t) = - mixedProd p t := by
      simp [mixedProd, swap23, V3.dot, V3.cross]
      ring
    rw [e, abs_of_neg h2]
    refine ⟨by linarith, rfl, ?_, by linarith, rfl⟩
    simp only [List.ofFn_succ, List.ofFn_zero, Multiset.coe_eq_coe]
    show [t.ind 0, t.ind 1, t.ind 3, t.ind 2].Perm [t.ind 0, t.ind 1, t.ind 2, t.ind 3]
    exact .cons _ (.cons _ (.swap _ _ _))
  · cases h
    have hpos : 0 < mixedProd p t := by
      rcases lt_or_eq_of_le (not_lt.mp h2) with h3 | h3
      · exact h3
      · rw [← h3] at h1
        simp at h1
        linarith
    rw [abs_of_pos hpos]
    exact ⟨hpos, rfl, rfl, by positivity, rfl⟩

/-- **C34** Flat tetrahedrons are rejected, and so are exactly those whose volume is below `eps / 6`. -/
theorem C34_rejected (eps : ℝ) (p : ℕ → V3) (t : Tet) :
    orientate eps p t = none ↔
      |vol6 (p (t.ind 0)) (p (t.ind 1)) (p (t.ind 2)) (p (t.ind 3))| < eps := by
  have hm : vol6 (p (t.ind 0)) (p (t.ind 1)) (p (t.ind 2)) (p (t.ind 3)) = mixedProd p t := rfl
  rw [hm]
  unfold orientate
  split_ifs with h1 h2 <;> simp [h1]

/-- **C35** Hat functions sum to one, their gradients to zero. -/
theorem C35_partition (G : Rule) (p : Fin 4 → V3) :
    (∀ j, ∑ i, G.a i j = 1) ∧ (∀ d, ∑ i, da p i d = 0) := by
  refine ⟨G.a_sum, fun d => ?_⟩
  have h := daRow_sum p
  fin_cases d
  · exact (V3.sum_x _ _).symm.trans (congrArg V3.x h)
  · exact (V3.sum_y _ _).symm.trans (congrArg V3.y h)
  · exact (V3.sum_z _ _).symm.trans (congrArg V3.z h)

/-- **C35** The gradient of an affine field is recovered exactly on every non-degenerate tetrahedron, with the
opposite sign by `interpolation_field`; the interpolated value is the value of the field at the Gauss
point. -/
theorem C35_affine (G : Rule) (p : Fin 4 → V3) (hp : detJ p ≠ 0) (c : ℝ) (g : V3) :
    (∀ j, interpS G (fun i => c + g.dot (p i)) j = c + g.dot (ptGauss G p j)) ∧
    gradV p (fun i => c + g.dot (p i)) = g ∧
    interpField p (fun i => c + g.dot (p i)) = -g := by
  have hg : gradV p (fun i => c + g.dot (p i)) = g := by
    have hd := detJ_eq p
    unfold gradV
    simp only [Fin.sum_univ_four, daRow_eq]
    ext <;> simp [gradNum, V3.cross, V3.dot] <;> field_simp <;> rw [hd] <;> simp [V3.cross, V3.dot] <;> ring
  refine ⟨fun j => ?_, hg, ?_⟩
  · rw [ptGauss, dot_interpV]
    have h := G.a_sum j
    simp only [interpS, add_mul, Finset.sum_add_distrib]
    rw [← Finset.mul_sum, h, mul_one]
  · show - gradV p (fun i => c + g.dot (p i)) = -g
    rw [hg]

/-- **C35** The same for vector fields: `M d` is the derivative of the field along coordinate `d`. -/
theorem C35_affine_vector (G : Rule) (p : Fin 4 → V3) (hp : detJ p ≠ 0) (c : V3) (M : Fin 3 → V3) :
    let F := fun q : V3 => c + q.x * M 0 + q.y * M 1 + q.z * M 2
    (∀ j, interpV G (fun i => F (p i)) j = F (ptGauss G p j)) ∧ ∀ d, deriv p d (fun i => F (p i)) = M d := by
  intro F
  have hx := fun c g => (C35_affine G p hp c g).2.1
  have key : ∀ (c1 : ℝ) (g : V3) (d : Fin 3), ∑ i, da p i d * (c1 + g.dot (p i)) = g.comp d := by
    intro c1 g d
    have h := hx c1 g
    unfold gradV at h
    fin_cases d
    · have := congrArg V3.x h
      simp only [V3.sum_x, V3.smul_x] at this
      refine Eq.trans ?_ this
      exact Finset.sum_congr rfl fun i _ => mul_comm _ _
    · have := congrArg V3.y h
      simp only [V3.sum_y, V3.smul_y] at this
      refine Eq.trans ?_ this
      exact Finset.sum_congr rfl fun i _ => mul_comm _ _
    · have := congrArg V3.z h
      simp only [V3.sum_z, V3.smul_z] at this
      refine Eq.trans ?_ this
      exact Finset.sum_congr rfl fun i _ => mul_comm _ _
  refine ⟨fun j => ?_, fun d => ?_⟩
  · have h := G.a_sum j
    have h' : G.a 0 j = 1 - G.a 1 j - G.a 2 j - G.a 3 j := by
      rw [Fin.sum_univ_four] at h
      linarith
    ext <;> simp [F, interpV, ptGauss, Fin.sum_univ_four, h'] <;> ring
  · have e : ∀ (π : V3 → ℝ), (∀ a b, π (a + b) = π a + π b) → (∀ (k : ℝ) a, π (k * a) = k * π a) →
        ∑ i, da p i d * π (F (p i)) = (⟨π (M 0), π (M 1), π (M 2)⟩ : V3).comp d := by
      intro π h1 h2
      rw [← key (π c) ⟨π (M 0), π (M 1), π (M 2)⟩ d]
      refine Finset.sum_congr rfl fun i _ => ?_
      simp only [F, h1, h2, V3.dot]
      ring
    have ex := e V3.x (fun _ _ => rfl) (fun _ _ => rfl)
    have ey := e V3.y (fun _ _ => rfl) (fun _ _ => rfl)
    have ez := e V3.z (fun _ _ => rfl) (fun _ _ => rfl)
    unfold deriv
    ext
    · simp only [V3.sum_x, V3.smul_x]
      rw [ex]
      fin_cases d <;> rfl
    · simp only [V3.sum_y, V3.smul_y]
      rw [ey]
      fin_cases d <;> rfl
    · simp only [V3.sum_z, V3.smul_z]
      rw [ez]
      fin_cases d <;> rfl

/-- a degree bound on the exponents -/
theorem deg_le {n k : ℕ} {f : MvPolynomial (Fin n) ℝ} (h : f.totalDegree ≤ k) {d : Fin n →₀ ℕ} (hd : d ∈ f.support) :
    ∑ i, d i ≤ k := by
  have := (MvPolynomial.le_totalDegree hd).trans h
  rwa [Finsupp.sum_fintype _ _ (fun _ => rfl)] at this

/-- **C36** The five point rule integrates every polynomial of total degree at most three exactly over the
reference tetrahedron. -/
theorem C36_tetrahedron (f : MvPolynomial (Fin 3) ℝ) (hf : f.totalDegree ≤ 3) :
    ∑ j, rule5.pds j * MvPolynomial.eval ![rule5.u j, rule5.v j, rule5.w j] f =
      Simplex.intTet fun u v w => MvPolynomial.eval ![u, v, w] f := by
  rw [Simplex.polyTet]
  simp only [MvPolynomial.eval_eq', Finset.mul_sum]
  rw [Finset.sum_comm]
  refine Finset.sum_congr rfl fun d hd => ?_
  have hk := deg_le hf hd
  rw [Fin.sum_univ_three] at hk
  have e : ∀ j, rule5.pds j * (f.coeff d * ∏ i, ![rule5.u j, rule5.v j, rule5.w j] i ^ d i) =
      f.coeff d * (rule5.pds j * (rule5.u j ^ d 0 * rule5.v j ^ d 1 * rule5.w j ^ d 2)) := by
    intro j
    rw [Fin.prod_univ_three]
    show rule5.pds j * (f.coeff d * (rule5.u j ^ d 0 * rule5.v j ^ d 1 * rule5.w j ^ d 2)) = _
    ring
  simp only [e]
  rw [← Finset.mul_sum, rule5_sum_pds]
  congr 1
  generalize d 0 = a at *
  generalize d 1 = b at *
  generalize d 2 = c at *
  have hu : rule5.u (0 : Fin 5) = 1 / 4 ∧ rule5.u (1 : Fin 5) = 1 / 6 ∧ rule5.u (2 : Fin 5) = 1 / 6 ∧
    rule5.u (3 : Fin 5) = 1 / 6 ∧ rule5.u (4 : Fin 5) = 1 / 2 := ⟨rfl, rfl, rfl, rfl, rfl⟩
  have hv : rule5.v (0 : Fin 5) = 1 / 4 ∧ rule5.v (1 : Fin 5) = 1 / 6 ∧ rule5.v (2 : Fin 5) = 1 / 6 ∧
    rule5.v (3 : Fin 5) = 1 / 2 ∧ rule5.v (4 : Fin 5) = 1 / 6 := ⟨rfl, rfl, rfl, rfl, rfl⟩
  have hw : rule5.w (0 : Fin 5) = 1 / 4 ∧ rule5.w (1 : Fin 5) = 1 / 6 ∧ rule5.w (2 : Fin 5) = 1 / 2 ∧
    rule5.w (3 : Fin 5) = 1 / 6 ∧ rule5.w (4 : Fin 5) = 1 / 6 := ⟨rfl, rfl, rfl, rfl, rfl⟩
  rw [hu.1, hu.2.1, hu.2.2.1, hu.2.2.2.1, hu.2.2.2.2, hv.1, hv.2.1, hv.2.2.1, hv.2.2.2.1, hv.2.2.2.2,
    hw.1, hw.2.1, hw.2.2.1, hw.2.2.2.1, hw.2.2.2.2]
  clear hu hv hw e hf hd
  have ha : a ≤ 3 := by omega
  have hb : b ≤ 3 := by omega
  have hc : c ≤ 3 := by omega
  interval_cases a <;> interval_cases b <;> interval_cases c <;>
    first
    | (exfalso; omega)
    | norm_num [Nat.factorial]

/-- **C36** The four point rule of the triangle, likewise. -/
theorem C36_triangle (f : MvPolynomial (Fin 2) ℝ) (hf : f.totalDegree ≤ 3) :
    ∑ j, TriElem.rule4.pds j * MvPolynomial.eval ![TriElem.rule4.u j, TriElem.rule4.v j] f =
      Simplex.intTri fun u v => MvPolynomial.eval ![u, v] f := by
  rw [Simplex.polyTri]
  simp only [MvPolynomial.eval_eq', Finset.mul_sum]
  rw [Finset.sum_comm]
  refine Finset.sum_congr rfl fun d hd => ?_
  have hk := deg_le hf hd
  rw [Fin.sum_univ_two] at hk
  have e : ∀ j, TriElem.rule4.pds j * (f.coeff d * ∏ i, ![TriElem.rule4.u j, TriElem.rule4.v j] i ^ d i) =
      f.coeff d * (TriElem.rule4.pds j * (TriElem.rule4.u j ^ d 0 * TriElem.rule4.v j ^ d 1)) := by
    intro j
    rw [Fin.prod_univ_two]
    show TriElem.rule4.pds j * (f.coeff d * (TriElem.rule4.u j ^ d 0 * TriElem.rule4.v j ^ d 1)) = _
    ring
  simp only [e]
  rw [← Finset.mul_sum, TriElem.rule4_sum_pds]
  congr 1
  generalize d 0 = a at *
  generalize d 1 = b at *
  have hu : TriElem.rule4.u (0 : Fin 4) = 1 / 3 ∧ TriElem.rule4.u (1 : Fin 4) = 1 / 5 ∧
    TriElem.rule4.u (2 : Fin 4) = 3 / 5 ∧ TriElem.rule4.u (3 : Fin 4) = 1 / 5 := ⟨rfl, rfl, rfl, rfl⟩
  have hv : TriElem.rule4.v (0 : Fin 4) = 1 / 3 ∧ TriElem.rule4.v (1 : Fin 4) = 1 / 5 ∧
    TriElem.rule4.v (2 : Fin 4) = 1 / 5 ∧ TriElem.rule4.v (3 : Fin 4) = 3 / 5 := ⟨rfl, rfl, rfl, rfl⟩
  rw [hu.1, hu.2.1, hu.2.2.1, hu.2.2.2, hv.1, hv.2.1, hv.2.2.1, hv.2.2.2]
  clear hu hv e hf hd
  have ha : a ≤ 3 := by omega
  have hb : b ≤ 3 := by omega
  interval_cases a <;> interval_cases b <;>
    first
    | (exfalso; omega)
    | norm_num [Nat.factorial]

/-- **C36** The one point rules (compile option `ONE_GAUSS_POINT`) are exact up to degree one, tetrahedron. -/
theorem C36_one_point_tetrahedron (f : MvPolynomial (Fin 3) ℝ) (hf : f.totalDegree ≤ 1) :
    ∑ j, rule1.pds j * MvPolynomial.eval ![rule1.u j, rule1.v j, rule1.w j] f =
      Simplex.intTet fun u v w => MvPolynomial.eval ![u, v, w] f := by
  rw [Simplex.polyTet]
  have h : ∀ g : Fin rule1.n → ℝ, ∑ j, g j = g (0 : Fin 1) := fun g => Fin.sum_univ_one (g : Fin 1 → ℝ)
  have hp : rule1.pds (0 : Fin 1) = 1 / 6 := rfl
  have hu : rule1.u (0 : Fin 1) = 1 / 4 := rfl
  have hv : rule1.v (0 : Fin 1) = 1 / 4 := rfl
  have hw : rule1.w (0 : Fin 1) = 1 / 4 := rfl
  rw [h, hp, hu, hv, hw, MvPolynomial.eval_eq', Finset.mul_sum]
  refine Finset.sum_congr rfl fun d hd => ?_
  have hk := deg_le hf hd
  rw [Fin.sum_univ_three] at hk
  rw [Fin.prod_univ_three]
  show 1 / 6 * (f.coeff d * ((1 / 4) ^ d 0 * (1 / 4) ^ d 1 * (1 / 4) ^ d 2)) = _
  rw [mul_left_comm]
  congr 1
  generalize d 0 = a at *
  generalize d 1 = b at *
  generalize d 2 = c at *
  have ha : a ≤ 1 := by omega
  have hb : b ≤ 1 := by omega
  have hc : c ≤ 1 := by omega
  interval_cases a <;> interval_cases b <;> interval_cases c <;>
    first
    | (exfalso; omega)
    | norm_num [Nat.factorial]

/-- **C36** The one point rule of the triangle. -/
theorem C36_one_point_triangle (f : MvPolynomial (Fin 2) ℝ) (hf : f.totalDegree ≤ 1) :
    ∑ j, TriElem.rule1.pds j * MvPolynomial.eval ![TriElem.rule1.u j, TriElem.rule1.v j] f =
      Simplex.intTri fun u v => MvPolynomial.eval ![u, v] f := by
  rw [Simplex.polyTri]
  have hp : TriElem.rule1.pds (0 : Fin 1) = 1 / 2 := rfl
  have hu : TriElem.rule1.u (0 : Fin 1) = 1 / 3 := rfl
  have hv : TriElem.rule1.v (0 : Fin 1) = 1 / 3 := rfl
  rw [TriElem.rule1_sum, hp, hu, hv, MvPolynomial.eval_eq', Finset.mul_sum]
  refine Finset.sum_congr rfl fun d hd => ?_
  have hk := deg_le hf hd
  rw [Fin.sum_univ_two] at hk
  rw [Fin.prod_univ_two]
  show 1 / 2 * (f.coeff d * ((1 / 3) ^ d 0 * (1 / 3) ^ d 1)) = _
  rw [mul_left_comm]
  congr 1
  generalize d 0 = a at *
  generalize d 1 = b at *
  have ha : a ≤ 1 := by omega
  have hb : b ≤ 1 := by omega
  interval_cases a <;> interval_cases b <;>
    first
    | (exfalso; omega)
    | norm_num [Nat.factorial]

/-- **C38** The effective damping stays within 10 % of the damping. -/
theorem C38_bounds (g dt alpha h : ℝ) (hg : 0 < g) (hdt : 0 < dt) (ha : 0 < alpha) :
    alpha / 1.1 ≤ alphaEff g dt alpha h ∧ alphaEff g dt alpha h ≤ 1.1 * alpha := by
  have hr : 0 < g * dt := by positivity
  have hM : 2 * alpha * (1 / 10) / (g * dt) * (g * dt) = alpha / 5 := by field_simp; norm_num
  have hMpos : 0 < 2 * alpha * (1 / 10) / (g * dt) := by positivity
  unfold alphaEff
  simp only
  generalize 2 * alpha * (1 / 10) / (g * dt) = M at hM hMpos ⊢
  generalize g * dt = r at hr hM ⊢
  have e1 : r / (2 * alpha) * M = 1 / 10 := by
    rw [div_mul_eq_mul_div, mul_comm r M, hM]
    field_simp
    norm_num
  have hlow : alpha / 1.1 ≤ alpha := div_le_self ha.le (by norm_num)
  split_ifs with h1 h2 h2
  · constructor <;> nlinarith
  · have : h * r ≤ M * r := by nlinarith
    have : 0 ≤ h * r := by positivity
    constructor <;> nlinarith
  · rw [e1]
    norm_num
    rw [div_le_iff₀ (by norm_num)]
    nlinarith
  · have h3 : r / (2 * alpha) * h ≤ 0 := mul_nonpos_of_nonneg_of_nonpos (by positivity) (not_lt.mp h1)
    have h4 : -(1 / 10) ≤ r / (2 * alpha) * h := by
      rw [← e1]
      have : 0 < r / (2 * alpha) := by positivity
      nlinarith
    constructor
    · apply div_le_div_of_nonneg_left ha.le (by linarith)
      norm_num
      linarith
    · rw [div_le_iff₀ (by linarith)]
      nlinarith

/-- **C38** It does not decrease when the local field increases. -/
theorem C38_monotone (g dt alpha : ℝ) (hg : 0 < g) (hdt : 0 < dt) (ha : 0 < alpha) :
    Monotone (alphaEff g dt alpha) := by
  intro h h' hh
  have hr : 0 < g * dt := by positivity
  have hMpos : 0 < 2 * alpha * (1 / 10) / (g * dt) := by positivity
  have hM : 2 * alpha * (1 / 10) / (g * dt) * (g * dt) = alpha / 5 := by field_simp; norm_num
  unfold alphaEff
  simp only
  generalize 2 * alpha * (1 / 10) / (g * dt) = M at hM hMpos ⊢
  generalize g * dt = r at hr hM ⊢
  have hk : 0 < r / (2 * alpha) := by positivity
  have low : ∀ x, x ≤ 0 → alpha / (1 - r / (2 * alpha) * x) ≤ alpha := fun x hx => by
    have : r / (2 * alpha) * x ≤ 0 := mul_nonpos_of_nonneg_of_nonpos hk.le hx
    exact div_le_self ha.le (by linarith)
  have lowM : alpha / (1 + r / (2 * alpha) * M) ≤ alpha := div_le_self ha.le (by nlinarith)
  have up : ∀ x, 0 < x → alpha ≤ alpha + r / 2 * x := fun x hx => by nlinarith [mul_pos hr hx]
  split_ifs with h1 h2 h3 h4 h5 h6 h7 h8 h9 h10 h11 h12 <;> first
    | exact le_refl _
    | (exfalso; linarith)
    | nlinarith
    | (exact (low _ (not_lt.mp ‹_›)).trans (up _ ‹_›))
    | (exact (low _ (not_lt.mp ‹_›)).trans (up _ hMpos))
    | (exact lowM.trans (up _ ‹_›))
    | (exact lowM.trans (up _ hMpos))
    | (apply div_le_div_of_nonneg_left ha.le <;> nlinarith)

/-- **C38** It is the damping itself when the local field vanishes. -/
theorem C38_zero (g dt alpha : ℝ) (hg : 0 < g) (hdt : 0 < dt) (ha : 0 < alpha) : alphaEff g dt alpha 0 = alpha := by
  have hM : 0 < 2 * alpha * (1 / 10) / (g * dt) := by positivity
  unfold alphaEff
  simp only
  rw [if_neg (lt_irrefl _), if_neg (by linarith)]
  simp

/-- the five point rule integrates the square of an interpolated quantity bounded by `c` in absolute value at
the nodes to at most `c²` times the volume; so does the one point rule -/
theorem sum_sq_bounds {G : Rule} (hG : Compiled G) (p : Fin 4 → V3) (hp : 0 < detJ p) (f : Fin 4 → ℝ)
    (hf : ∀ i, |f i| ≤ 1) :
    0 ≤ ∑ j, weight G p j * (interpS G f j * interpS G f j) ∧
    ∑ j, weight G p j * (interpS G f j * interpS G f j) ≤ calcVol G p := by
  have hv : 0 < calcVol G p := by rw [calcVol_eq hG.ok]; positivity
  have hsq : ∀ i, f i * f i ≤ 1 := fun i => by
    have := abs_le.mp (hf i)
    nlinarith
  have hS : |f 0 + f 1 + f 2 + f 3| ≤ 4 := by
    have := abs_le.mp (hf 0); have := abs_le.mp (hf 1); have := abs_le.mp (hf 2); have := abs_le.mp (hf 3)
    rw [abs_le]
    constructor <;> linarith
  have hS2 : (f 0 + f 1 + f 2 + f 3) * (f 0 + f 1 + f 2 + f 3) ≤ 16 := by
    have := abs_le.mp hS
    nlinarith
  rcases hG with rfl | rfl
  · have h : ∀ g : Fin rule1.n → ℝ, ∑ j, g j = g (0 : Fin 1) := fun g => Fin.sum_univ_one (g : Fin 1 → ℝ)
    have ha : ∀ i, rule1.a i (0 : Fin 1) = 1 / 4 := by
      intro i
      have e : rule1.a i (0 : Fin 1) = ![(1 : ℝ) - 1 / 4 - 1 / 4 - 1 / 4, 1 / 4, 1 / 4, 1 / 4] i := rfl
      rw [e]
      fin_cases i <;> norm_num
    unfold calcVol at hv ⊢
    rw [h] at hv ⊢
    rw [h]
    generalize weight rule1 p (0 : Fin 1) = w at hv ⊢
    simp only [interpS, ha, Fin.sum_univ_four]
    constructor
    · exact mul_nonneg hv.le (mul_self_nonneg _)
    · nlinarith
  · rw [sum_weight_sq]
    simp only [Fin.sum_univ_four]
    have h0 := hsq 0
    have h1 := hsq 1
    have h2 := hsq 2
    have h3 := hsq 3
    constructor
    · have := mul_self_nonneg (f 0 + f 1 + f 2 + f 3)
      have := mul_self_nonneg (f 0); have := mul_self_nonneg (f 1)
      have := mul_self_nonneg (f 2); have := mul_self_nonneg (f 3)
      apply div_nonneg _ (by norm_num)
      apply mul_nonneg hv.le
      linarith
    · rw [div_le_iff₀ (by norm_num)]
      nlinarith

/-- Cauchy-Schwarz for a unit vector and a vector of norm at most one -/
theorem abs_dot_le {k u : V3} (hk : k.nsq = 1) (hu : u.nsq ≤ 1) : |k.dot u| ≤ 1 := by
  unfold V3.nsq at hk hu
  have : k.dot u * k.dot u ≤ 1 := by
    unfold V3.dot
    nlinarith [mul_self_nonneg (k.x * u.y - k.y * u.x), mul_self_nonneg (k.x * u.z - k.z * u.x),
      mul_self_nonneg (k.y * u.z - k.z * u.y), mul_self_nonneg u.x, mul_self_nonneg u.y, mul_self_nonneg u.z]
  exact abs_le_one_iff_mul_self_le_one.mpr this

/-- **C42** Bounds of the uniaxial anisotropy energy of a tetrahedron. -/
theorem C42_bounds (G : Rule) (hG : Compiled G) (m : Prm) (hK : 0 ≤ m.K) (huk : m.uk.nsq = 1) (p u : Fin 4 → V3)
    (hp : 0 < detJ p) (hu : ∀ i, (u i).nsq ≤ 1) :
    -m.K * calcVol G p ≤ uniaxialEnergy G m p u ∧ uniaxialEnergy G m p u ≤ 0 := by
  have h := sum_sq_bounds hG p hp (fun i => m.uk.dot (u i)) (fun i => abs_dot_le huk (hu i))
  unfold uniaxialEnergy
  simp only [dot_interpV]
  constructor <;> nlinarith [h.1, h.2]

/-- **C42** The energy does not change when the magnetization is reversed, nor when the axis is. -/
theorem C42_even (G : Rule) (m : Prm) (p u : Fin 4 → V3) :
    uniaxialEnergy G m p (fun i => -u i) = uniaxialEnergy G m p u ∧
    uniaxialEnergy G { m with uk := -m.uk } p u = uniaxialEnergy G m p u := by
  constructor <;> unfold uniaxialEnergy <;> simp only [dot_interpV] <;> congr 1 <;>
    refine Finset.sum_congr rfl fun j _ => ?_ <;> congr 1
  · have : interpS G (fun i => m.uk.dot (-u i)) j = - interpS G (fun i => m.uk.dot (u i)) j := by
      simp only [interpS, V3.dot, Fin.sum_univ_four, V3.neg_x, V3.neg_y, V3.neg_z]
      ring
    rw [this]
    ring
  · have : interpS G (fun i => (-m.uk).dot (u i)) j = - interpS G (fun i => m.uk.dot (u i)) j := by
      simp only [interpS, V3.dot, Fin.sum_univ_four, V3.neg_x, V3.neg_y, V3.neg_z]
      ring
    rw [this]
    ring

/-- finite differences along the edges -/
theorem dot_daRow (p : Fin 4 → V3) (hp : detJ p ≠ 0) (k : Fin 4) (c : Fin 4 → ℝ) :
    ∑ i, (daRow p i).dot (p k - p 0) * c i = c k - c 0 := by
  have hd := detJ_eq p
  simp only [Fin.sum_univ_four, daRow_eq]
  fin_cases k <;> simp [gradNum, V3.cross, V3.dot] <;> field_simp <;> rw [hd] <;> simp [V3.cross, V3.dot] <;> ring

/-- the gradient of the interpolated field vanishes exactly when the nodal values are the same -/
theorem C41_gradient (p u : Fin 4 → V3) (hp : detJ p ≠ 0) : (∀ d, deriv p d u = 0) ↔ ∀ i, u i = u 0 := by
  constructor
  · intro h k
    have key : ∀ π : V3 → ℝ, (∀ d, ∑ i, da p i d * π (u i) = 0) → π (u k) = π (u 0) := by
      intro π hπ
      have h1 := dot_daRow p hp k (fun i => π (u i))
      have h2 : ∑ i, (daRow p i).dot (p k - p 0) * π (u i) =
          (p k - p 0).x * ∑ i, da p i 0 * π (u i) + (p k - p 0).y * ∑ i, da p i 1 * π (u i)
            + (p k - p 0).z * ∑ i, da p i 2 * π (u i) := by
        simp only [Finset.mul_sum, ← Finset.sum_add_distrib]
        refine Finset.sum_congr rfl fun i _ => ?_
        simp only [V3.dot, daRow]
        ring
      rw [h2, hπ, hπ, hπ] at h1
      linarith
    ext
    · exact key V3.x fun d => by have := congrArg V3.x (h d); simpa [deriv] using this
    · exact key V3.y fun d => by have := congrArg V3.y (h d); simpa [deriv] using this
    · exact key V3.z fun d => by have := congrArg V3.z (h d); simpa [deriv] using this
  · intro h d
    have hs := (C35_partition rule5 p).2 d
    unfold deriv
    ext
    · simp only [V3.sum_x, V3.smul_x]
      rw [Finset.sum_congr rfl fun i _ => by rw [h i], ← Finset.sum_mul, hs]
      simp
    · simp only [V3.sum_y, V3.smul_y]
      rw [Finset.sum_congr rfl fun i _ => by rw [h i], ← Finset.sum_mul, hs]
      simp
    · simp only [V3.sum_z, V3.smul_z]
      rw [Finset.sum_congr rfl fun i _ => by rw [h i], ← Finset.sum_mul, hs]
      simp

theorem nsq_nonneg (a : V3) : 0 ≤ a.nsq := by
  unfold V3.nsq
  nlinarith [mul_self_nonneg a.x, mul_self_nonneg a.y, mul_self_nonneg a.z]

theorem nsq_eq_zero {a : V3} (h : a.nsq = 0) : a = 0 := by
  unfold V3.nsq at h
  have hx := mul_self_nonneg a.x
  have hy := mul_self_nonneg a.y
  have hz := mul_self_nonneg a.z
  ext
  · exact mul_self_eq_zero.mp (by linarith)
  · exact mul_self_eq_zero.mp (by linarith)
  · exact mul_self_eq_zero.mp (by linarith)

theorem exchangeEnergy_eq (G : Rule) (m : Prm) (p u : Fin 4 → V3) :
    exchangeEnergy G m p u =
      m.A * calcVol G p * ((deriv p 0 u).nsq + (deriv p 1 u).nsq + (deriv p 2 u).nsq) := by
  unfold exchangeEnergy calcVol
  rw [← Finset.sum_mul]
  ring

/-- **C41** The exchange energy of a mesh of positively oriented tetrahedrons is not negative. -/
theorem C41_nonneg (G : Rule) (hG : Compiled G) (p : ℕ → V3) (mag : ℕ → Bool) (prm : ℕ → Prm) (tets : List Tet)
    (u : ℕ → V3) (hA : ∀ t ∈ tets, mag t.reg = true → 0 ≤ (prm t.reg).A)
    (hp : ∀ t ∈ tets, 0 < detJ (nod4 p t)) : 0 ≤ MeshElem.exchangeEnergy G p mag prm tets u := by
  unfold MeshElem.exchangeEnergy
  apply List.sum_nonneg
  intro e he
  obtain ⟨t, ht, rfl⟩ := List.mem_map.mp he
  obtain ⟨ht1, ht2⟩ := List.mem_filter.mp ht
  rw [exchangeEnergy_eq, calcVol_eq hG.ok]
  have h1 := hA t ht1 ht2
  have h2 := hp t ht1
  have := nsq_nonneg (deriv (nod4 p t) 0 (nod4 u t))
  have := nsq_nonneg (deriv (nod4 p t) 1 (nod4 u t))
  have := nsq_nonneg (deriv (nod4 p t) 2 (nod4 u t))
  positivity

/-- **C41** It vanishes exactly when the magnetization has the same value at the four nodes of every magnetic
tetrahedron, that is (`C41_gradient`) when its gradient is zero there. -/
theorem C41_zero_iff (G : Rule) (hG : Compiled G) (p : ℕ → V3) (mag : ℕ → Bool) (prm : ℕ → Prm) (tets : List Tet)
    (u : ℕ → V3) (hA : ∀ t ∈ tets, mag t.reg = true → 0 < (prm t.reg).A)
    (hp : ∀ t ∈ tets, 0 < detJ (nod4 p t)) :
    MeshElem.exchangeEnergy G p mag prm tets u = 0 ↔
      ∀ t ∈ tets, mag t.reg = true → ∀ i, u (t.ind i) = u (t.ind 0) := by
  have hnn : ∀ t ∈ tets, mag t.reg = true → 0 ≤ exchangeEnergy G (prm t.reg) (nod4 p t) (nod4 u t) := by
    intro t ht1 ht2
    rw [exchangeEnergy_eq, calcVol_eq hG.ok]
    have h1 := hA t ht1 ht2
    have h2 := hp t ht1
    have := nsq_nonneg (deriv (nod4 p t) 0 (nod4 u t))
    have := nsq_nonneg (deriv (nod4 p t) 1 (nod4 u t))
    have := nsq_nonneg (deriv (nod4 p t) 2 (nod4 u t))
    positivity
  have hz : ∀ t ∈ tets, mag t.reg = true →
      (exchangeEnergy G (prm t.reg) (nod4 p t) (nod4 u t) = 0 ↔ ∀ i, u (t.ind i) = u (t.ind 0)) := by
    intro t ht1 ht2
    rw [exchangeEnergy_eq, calcVol_eq hG.ok]
    have h1 := hA t ht1 ht2
    have h2 := hp t ht1
    have e := C41_gradient (nod4 p t) (nod4 u t) h2.ne'
    refine Iff.trans ?_ e
    have k0 := nsq_nonneg (deriv (nod4 p t) 0 (nod4 u t))
    have k1 := nsq_nonneg (deriv (nod4 p t) 1 (nod4 u t))
    have k2 := nsq_nonneg (deriv (nod4 p t) 2 (nod4 u t))
    constructor
    · intro h
      have h3 : (prm t.reg).A * (detJ (nod4 p t) / 6) ≠ 0 := by positivity
      have h4 := (mul_eq_zero.mp h).resolve_left h3
      have a0 : (deriv (nod4 p t) 0 (nod4 u t)).nsq = 0 := by linarith
      have a1 : (deriv (nod4 p t) 1 (nod4 u t)).nsq = 0 := by linarith
      have a2 : (deriv (nod4 p t) 2 (nod4 u t)).nsq = 0 := by linarith
      intro d
      fin_cases d
      · exact nsq_eq_zero a0
      · exact nsq_eq_zero a1
      · exact nsq_eq_zero a2
    · intro h
      rw [h 0, h 1, h 2]
      simp [V3.nsq]
  unfold MeshElem.exchangeEnergy
  constructor
  · intro h t ht1 ht2
    refine (hz t ht1 ht2).mp (List.all_zero_of_le_zero_le_of_sum_eq_zero ?_ h
      (List.mem_map.mpr ⟨t, List.mem_filter.mpr ⟨ht1, ht2⟩, rfl⟩))
    intro e he
    obtain ⟨t, ht, rfl⟩ := List.mem_map.mp he
    obtain ⟨ht1, ht2⟩ := List.mem_filter.mp ht
    exact hnn t ht1 ht2
  · intro h
    apply List.sum_eq_zero
    intro e he
    obtain ⟨t, ht, rfl⟩ := List.mem_map.mp he
    obtain ⟨ht1, ht2⟩ := List.mem_filter.mp ht
    exact (hz t ht1 ht2).mpr (h t ht1 ht2)

/-! ## concrete cases -/

/-- the reference tetrahedron -/
def exP : ℕ → V3
  | 0 => ⟨0, 0, 0⟩
  | 1 => ⟨1, 0, 0⟩
  | 2 => ⟨0, 1, 0⟩
  | _ => ⟨0, 0, 1⟩

def exT : Tet := ⟨![0, 1, 2, 3], 0⟩
def exT' : Tet := ⟨![0, 1, 3, 2], 0⟩

theorem ex_detJ : detJ (nod4 exP exT) = 1 := by
  rw [detJ_eq]
  simp [nod4, exT, exP, V3.dot, V3.cross]

/-- C34: a tetrahedron given with the wrong orientation is accepted and reoriented -/
example : orientate (1 / 10) exP exT' = some (swap23 exT') := by
  have e : mixedProd exP exT' = -1 := by simp [mixedProd, exT', exP, V3.dot, V3.cross]
  unfold orientate
  rw [e, if_neg (by norm_num), if_pos (by norm_num)]

/-- C35: hypotheses hold on the reference tetrahedron -/
example : detJ (nod4 exP exT) ≠ 0 := by rw [ex_detJ]; norm_num

/-- C36: a polynomial of degree three, `u v w`, whose integral is 1/720 -/
example : Simplex.intTet (fun u v w => u ^ 1 * v ^ 1 * w ^ 1) = 1 / 720 := by
  rw [Simplex.monoTet]
  norm_num [Nat.factorial]

/-- C36: the bound is sharp, degree four is not integrated exactly (`u ^ 4`) -/
example : ∑ j, rule5.pds j * rule5.u j ^ 4 ≠ Simplex.intTet fun u v w => u ^ 4 * v ^ 0 * w ^ 0 := by
  rw [Simplex.monoTet, rule5_sum_pds]
  have hu : rule5.u (0 : Fin 5) = 1 / 4 ∧ rule5.u (1 : Fin 5) = 1 / 6 ∧ rule5.u (2 : Fin 5) = 1 / 6 ∧
    rule5.u (3 : Fin 5) = 1 / 6 ∧ rule5.u (4 : Fin 5) = 1 / 2 := ⟨rfl, rfl, rfl, rfl, rfl⟩
  rw [hu.1, hu.2.1, hu.2.2.1, hu.2.2.2.1, hu.2.2.2.2]
  norm_num [Nat.factorial]

/-- C38: the upper bound is reached -/
example : alphaEff 1 1 1 5 = 1.1 := by
  unfold alphaEff
  norm_num

/-- C41, C42: a magnetic mesh with a positive exchange energy -/
example : MeshElem.exchangeEnergy rule5 exP (fun _ => true) (fun _ => ⟨1, 1, 1, 1, ⟨0, 0, 1⟩, 0, 0, 0, 0⟩) [exT]
    (fun i => if i = 0 then ⟨1, 0, 0⟩ else ⟨0, 0, 1⟩) ≠ 0 := by
  rw [Ne, C41_zero_iff rule5 (Or.inr rfl) _ _ _ _ _ (by simp) (by simp [ex_detJ])]
  intro h
  have := h exT (by simp) rfl 1
  simp [exT] at this

end Verif.Tetra
