import Verif.Proofs.ContinuumPot
import Verif.Props.ContinuumLlg
import Verif.Props.ElectroSolve

/-!
# C96: the electric potential converges to that of the continuum

`WeakPotential` is the problem assembled and solved by the code (C57, C59).
-/

namespace Verif.Continuum

open MeasureTheory Verif.Mesh Verif.MeshElem Verif.Tetra Verif.Rounded Verif.Electro

variable {p : ℕ → V3} {sigma J : ℕ → ℝ} {tets : List Tet} {tris : List Tri} {S : ℕ → Prop}

theorem gradV_sub (q : Fin 4 → V3) (f g : Fin 4 → ℝ) : gradV q (fun i => f i - g i) = gradV q f - gradV q g := by
  unfold gradV
  ext <;> simp [Fin.sum_univ_four] <;> ring

theorem sum_add_map {α : Type} (l : List α) (f g : α → ℝ) : (l.map fun a => f a + g a).sum = (l.map f).sum + (l.map g).sum := by
  induction l with
  | nil => simp
  | cons a l ih =>
    simp only [List.map_cons, List.sum_cons, ih]
    ring

theorem volume_oriented (hor : ∀ t ∈ tets, 0 < detJ (nod4 p t)) {t : Tet} (ht : t ∈ tets) :
    detJ (nod4 p t) / 6 = tetVolume (nod4 p t) := by
  rw [tetVolume_eq, abs_of_pos (hor t ht)]

/-- the weak form of the mesh, with Lebesgue volumes -/
theorem weakForm_integral (hor : ∀ t ∈ tets, 0 < detJ (nod4 p t)) (w V : ℕ → ℝ) :
    weakForm p sigma J tets tris w V =
      (tets.map fun t => sigma t.reg * (tetVolume (nod4 p t) *
        (gradV (nod4 p t) (nod4 V t)).dot (gradV (nod4 p t) (nod4 w t)))).sum
      + (tris.map fun f => J f.reg * triAffine (nod3 p f) (nod3 w f)).sum := by
  unfold weakForm
  congr 2
  · refine List.map_congr_left fun t ht => ?_
    rw [volume_oriented hor ht, dot_comm']
    ring
  · refine List.map_congr_left fun f _ => ?_
    rw [triAffine_eq, surf_eq]
    simp only [nod3]
    ring

theorem gentle_grad {B : V3 → Prop} {phi : V3 → ℝ} {g : V3 → V3} {P N : ℝ} (h : SmoothPot B phi g P N) : Gentle B g P N :=
  ⟨h.bound, h.lip⟩

/-- Pythagoras: the error of another field is that of the solution plus their distance -/
theorem error_split (hor : ∀ t ∈ tets, 0 < detJ (nod4 p t)) {g : ℕ → V3 → V3} {P N : ℝ}
    (hg : ∀ t ∈ tets, Gentle (InTet (nod4 p t)) (g t.reg) P N) (hO : Ohm p sigma J tets tris S g) {V U : ℕ → ℝ}
    (hV : WeakPotential p sigma J tets tris S V) (hU : ∀ i, S i → U i = V i) :
    gradError p sigma tets g U = gradError p sigma tets g V
      + (tets.map fun t => sigma t.reg * (tetVolume (nod4 p t) *
          (gradV (nod4 p t) (nod4 V t) - gradV (nod4 p t) (nod4 U t)).norm ^ 2)).sum := by
  have hw : ∀ i, S i → (fun k => V k - U k) i = 0 := fun i hi => by
    show V i - U i = 0
    rw [hU i hi, sub_self]
  have h1 := hO _ hw
  have h2 := hV _ hw
  rw [weakForm_integral hor] at h2
  unfold weakOhm at h1
  have e : ∀ t, gradV (nod4 p t) (nod4 (fun k => V k - U k) t) = gradV (nod4 p t) (nod4 V t) - gradV (nod4 p t) (nod4 U t) := fun t =>
    gradV_sub _ _ _
  simp only [e] at h1 h2
  have h3 : gradError p sigma tets g U = (tets.map fun t =>
      (sigma t.reg * tetIntegral (nod4 p t) (fun x => (g t.reg x - gradV (nod4 p t) (nod4 V t)).norm ^ 2)
      + sigma t.reg * (tetVolume (nod4 p t) * (gradV (nod4 p t) (nod4 V t) - gradV (nod4 p t) (nod4 U t)).norm ^ 2))
      + (2 * (sigma t.reg * tetIntegral (nod4 p t) (fun x => (g t.reg x).dot (gradV (nod4 p t) (nod4 V t) - gradV (nod4 p t) (nod4 U t))))
        + -2 * (sigma t.reg * (tetVolume (nod4 p t) *
            (gradV (nod4 p t) (nod4 V t)).dot (gradV (nod4 p t) (nod4 V t) - gradV (nod4 p t) (nod4 U t)))))).sum := by
    unfold gradError
    congr 1
    refine List.map_congr_left fun t ht => ?_
    rw [tet_square (hg t ht) (gradV (nod4 p t) (nod4 U t)) (gradV (nod4 p t) (nod4 V t))]
    ring
  rw [h3, sum_add_map, sum_add_map, sum_add_map, List.sum_map_mul_left, List.sum_map_mul_left]
  unfold gradError
  linarith

theorem sum_nonneg' {α : Type} (l : List α) (f : α → ℝ) (h : ∀ a ∈ l, 0 ≤ f a) : 0 ≤ (l.map f).sum := by
  apply List.sum_nonneg
  intro x hx
  obtain ⟨a, ha, rfl⟩ := List.mem_map.mp hx
  exact h a ha

/-- **C96** No field of nodal values with the same values on the electrode is closer to the potential of the continuum than the
solution of the discrete problem, in the mean square of the gradient. -/
theorem C96_best (hor : ∀ t ∈ tets, 0 < detJ (nod4 p t)) (hs : ∀ t ∈ tets, 0 ≤ sigma t.reg) {g : ℕ → V3 → V3} {P N : ℝ}
    (hg : ∀ t ∈ tets, Gentle (InTet (nod4 p t)) (g t.reg) P N) (hO : Ohm p sigma J tets tris S g) {V U : ℕ → ℝ}
    (hV : WeakPotential p sigma J tets tris S V) (hU : ∀ i, S i → U i = V i) :
    gradError p sigma tets g V ≤ gradError p sigma tets g U := by
  rw [error_split hor hg hO hV hU]
  refine le_add_of_nonneg_right (sum_nonneg' _ _ fun t ht => ?_)
  exact mul_nonneg (hs t ht) (mul_nonneg (tetVolume_nonneg _) (sq_nonneg _))

/-- **C96** The gradient of the solution converges to that of the smooth potential `phi` of the continuum, at first order in the size of
the elements. -/
theorem C96_converges (hor : ∀ t ∈ tets, 0 < detJ (nod4 p t)) (hs : ∀ t ∈ tets, 0 ≤ sigma t.reg) {phi : V3 → ℝ} {g : ℕ → V3 → V3}
    {h κ P N : ℝ} (h0 : 0 < h) (hr : ∀ t ∈ tets, Regular h κ (nod4 p t)) (hN : 0 ≤ N)
    (hg : ∀ t ∈ tets, SmoothPot (InTet (nod4 p t)) phi (g t.reg) P N) (hO : Ohm p sigma J tets tris S g) {V : ℕ → ℝ}
    (hV : WeakPotential p sigma J tets tris S V) (hU : ∀ i, S i → V i = phi (p i)) :
    gradError p sigma tets g V ≤
      (tets.map fun t => sigma t.reg * tetVolume (nod4 p t)).sum * ((κ / 4 + 1) * N * h) ^ 2 := by
  refine (C96_best hor hs (fun t ht => gentle_grad (hg t ht)) hO hV (U := fun i => phi (p i)) fun i hi => (hU i hi).symm).trans ?_
  unfold gradError
  rw [← List.sum_map_mul_right]
  refine List.sum_le_sum fun t ht => ?_
  rw [mul_assoc]
  refine mul_le_mul_of_nonneg_left ?_ (hs t ht)
  refine tetIntegral_le (integrable_of_lip fun x y hx hy => sq_lip (gentle_grad (hg t ht)) _ hx hy) fun x hx => ?_
  have h1 := C94_field (hor t ht) h0 (hr t ht) (hg t ht) hN x hx
  have e : interpField (nod4 p t) (fun i => phi (nod4 p t i)) - -g t.reg x =
      g t.reg x - gradV (nod4 p t) (nod4 (fun i => phi (p i)) t) := by
    unfold interpField gradV
    ext <;> simp [nod4] <;> ring
  rw [e] at h1
  exact pow_le_pow_left₀ (norm_nonneg _) h1 2

/-- **C96** The dissipated power converges at first order too. -/
theorem C96_power (hor : ∀ t ∈ tets, 0 < detJ (nod4 p t)) (hs : ∀ t ∈ tets, 0 ≤ sigma t.reg) {phi : V3 → ℝ} {g : ℕ → V3 → V3}
    {h κ P N : ℝ} (h0 : 0 < h) (hP : 0 ≤ P) (hr : ∀ t ∈ tets, Regular h κ (nod4 p t)) (hN : 0 ≤ N)
    (hg : ∀ t ∈ tets, SmoothPot (InTet (nod4 p t)) phi (g t.reg) P N) (hO : Ohm p sigma J tets tris S g) {V : ℕ → ℝ}
    (hV : WeakPotential p sigma J tets tris S V) (hU : ∀ i, S i → V i = phi (p i)) :
    |power p sigma tets g - meshPower p sigma tets V| ≤
      (tets.map fun t => sigma t.reg * tetVolume (nod4 p t)).sum * ((((κ / 4 + 1) * N) ^ 2 * (h + P) + P) * h) := by
  have hc := C96_converges hor hs h0 hr hN hg hO hV hU
  have h1 := sum_near tets (fun t => sigma t.reg * tetIntegral (nod4 p t) (fun x => (g t.reg x).norm ^ 2))
    (fun t => sigma t.reg * tetVolume (nod4 p t) * (gradV (nod4 p t) (nod4 V t)).norm ^ 2)
    (fun t => (1 + P / h) * (sigma t.reg * tetIntegral (nod4 p t) (fun x => (g t.reg x - gradV (nod4 p t) (nod4 V t)).norm ^ 2))
      + (sigma t.reg * tetVolume (nod4 p t)) * (P * h)) fun t ht => by
      rw [mul_assoc, ← mul_sub, abs_mul, abs_of_nonneg (hs t ht)]
      have := mul_le_mul_of_nonneg_left (tet_power (gentle_grad (hg t ht)) (gradV (nod4 p t) (nod4 V t)) h0) (hs t ht)
      linarith
  refine h1.trans ?_
  rw [sum_add_map, List.sum_map_mul_left, List.sum_map_mul_right]
  have h2 := mul_le_mul_of_nonneg_left hc (show 0 ≤ 1 + P / h by positivity)
  unfold gradError at h2
  refine (add_le_add_left h2 _).trans (le_of_eq ?_)
  field_simp

/-- **C96** Among the fields of nodal values with the same values on the electrode, the solution minimises half of the dissipated power
plus the power given to the injected currents. -/
theorem C96_minimum (hor : ∀ t ∈ tets, 0 < detJ (nod4 p t)) (hs : ∀ t ∈ tets, 0 ≤ sigma t.reg) {V U : ℕ → ℝ}
    (hV : WeakPotential p sigma J tets tris S V) (hU : ∀ i, S i → U i = V i) :
    meshPower p sigma tets V / 2 + injected p J tris V ≤ meshPower p sigma tets U / 2 + injected p J tris U := by
  have h2 := hV (fun k => U k - V k) fun i hi => by
    show U i - V i = 0
    rw [hU i hi, sub_self]
  rw [weakForm_integral hor] at h2
  have e : ∀ t, gradV (nod4 p t) (nod4 (fun k => U k - V k) t) = gradV (nod4 p t) (nod4 U t) - gradV (nod4 p t) (nod4 V t) := fun t =>
    gradV_sub _ _ _
  simp only [e] at h2
  have e1 : injected p J tris U = injected p J tris V + (tris.map fun f => J f.reg * triAffine (nod3 p f) (nod3 (fun k => U k - V k) f)).sum := by
    unfold injected
    rw [← sum_add_map]
    congr 1
    refine List.map_congr_left fun f _ => ?_
    rw [triAffine_eq]
    simp only [nod3]
    ring
  have e2 : meshPower p sigma tets U = meshPower p sigma tets V
      + (tets.map fun t => sigma t.reg * (tetVolume (nod4 p t) *
          (gradV (nod4 p t) (nod4 U t) - gradV (nod4 p t) (nod4 V t)).norm ^ 2)).sum
      + 2 * (tets.map fun t => sigma t.reg * (tetVolume (nod4 p t) *
        (gradV (nod4 p t) (nod4 V t)).dot (gradV (nod4 p t) (nod4 U t) - gradV (nod4 p t) (nod4 V t)))).sum := by
    unfold meshPower
    rw [← List.sum_map_mul_left, ← sum_add_map, ← sum_add_map]
    congr 1
    refine List.map_congr_left fun t _ => ?_
    rw [norm_sq, norm_sq, norm_sq]
    simp only [V3.nsq, V3.dot, V3.sub_x, V3.sub_y, V3.sub_z]
    ring
  have h3 := sum_nonneg' tets (fun t => sigma t.reg * (tetVolume (nod4 p t) *
          (gradV (nod4 p t) (nod4 U t) - gradV (nod4 p t) (nod4 V t)).norm ^ 2)) fun t ht =>
    mul_nonneg (hs t ht) (mul_nonneg (tetVolume_nonneg _) (sq_nonneg _))
  rw [e1, e2]
  linarith

/-- **C96** Joule: with the potential `V0` on the whole electrode, the dissipated power is the sum over the surfaces of injected current
times potential difference. -/
theorem C96_joule (hor : ∀ t ∈ tets, 0 < detJ (nod4 p t)) {V : ℕ → ℝ} (hV : WeakPotential p sigma J tets tris S V) {V0 : ℝ}
    (hS : ∀ i, S i → V i = V0) :
    meshPower p sigma tets V =
      (tris.map fun f => J f.reg * triArea (nod3 p f) * (V0 - (V (f.ind 0) + V (f.ind 1) + V (f.ind 2)) / 3)).sum := by
  have h2 := hV (fun k => V k - V0) fun i hi => by
    show V i - V0 = 0
    rw [hS i hi, sub_self]
  rw [weakForm_integral hor] at h2
  have z : ∀ t : Tet, gradV (nod4 p t) (nod4 (fun k => V k - V0) t) = gradV (nod4 p t) (nod4 V t) := fun t => by
    have := gradV_sub (nod4 p t) (nod4 V t) (fun _ => V0)
    rw [gradV_const] at this
    have e : gradV (nod4 p t) (nod4 V t) - 0 = gradV (nod4 p t) (nod4 V t) := by ext <;> simp
    rw [e] at this
    exact this
  simp only [z] at h2
  have e1 : meshPower p sigma tets V = (tets.map fun t => sigma t.reg * (tetVolume (nod4 p t) *
        (gradV (nod4 p t) (nod4 V t)).dot (gradV (nod4 p t) (nod4 V t)))).sum := by
    unfold meshPower
    congr 1
    refine List.map_congr_left fun t _ => ?_
    rw [norm_sq]
    simp only [V3.nsq, V3.dot]
    ring
  have e2 : (tris.map fun f => J f.reg * triArea (nod3 p f) * (V0 - (V (f.ind 0) + V (f.ind 1) + V (f.ind 2)) / 3)).sum =
      -(tris.map fun f => J f.reg * triAffine (nod3 p f) (nod3 (fun k => V k - V0) f)).sum := by
    rw [← sum_map_neg']
    congr 1
    refine List.map_congr_left fun f _ => ?_
    rw [triAffine_eq]
    simp only [nod3]
    ring
  rw [e1, e2]
  linarith

/-! ## example: the potential `x` on the reference tetrahedron; a current of density 1 through the face `x = 0`, the other three nodes
on the electrode -/

def exFace : List Tri := [⟨![0, 2, 3], 1⟩]

theorem exPot_or : ∀ t ∈ [exT], 0 < detJ (nod4 Tetra.exP t) := by
  intro t ht
  rw [List.mem_singleton] at ht
  subst ht
  rw [ex_detJ]
  norm_num

theorem exPot_volume : tetVolume (nod4 Tetra.exP exT) = 1 / 6 := by
  rw [tetVolume_eq, ex_detJ]
  norm_num

theorem exPot_area : triArea (nod3 Tetra.exP ⟨![0, 2, 3], 1⟩) = 1 / 2 := by
  have : ((nod3 Tetra.exP ⟨![0, 2, 3], 1⟩ 1 - nod3 Tetra.exP ⟨![0, 2, 3], 1⟩ 0).cross
      (nod3 Tetra.exP ⟨![0, 2, 3], 1⟩ 2 - nod3 Tetra.exP ⟨![0, 2, 3], 1⟩ 0)).norm = 1 := by
    simp [nod3, Tetra.exP, V3.cross, V3.norm, V3.nsq]
  rw [triArea, this]

theorem exPot_grad (w : ℕ → ℝ) (hw : ∀ i, i ≠ 0 → w i = 0) : axX.dot (gradV (nod4 Tetra.exP exT) (nod4 w exT)) = -w 0 := by
  have h := C35_affine rule1 (nod4 Tetra.exP exT) (exPot_or exT (by simp)).ne' (w 0) ⟨-w 0, -w 0, -w 0⟩
  have e : (fun i => w 0 + (⟨-w 0, -w 0, -w 0⟩ : V3).dot (nod4 Tetra.exP exT i)) = nod4 w exT := by
    funext i
    fin_cases i
    · simp [nod4, exT, Tetra.exP, V3.dot]
    · simp [nod4, exT, Tetra.exP, V3.dot, hw 1]
    · simp [nod4, exT, Tetra.exP, V3.dot, hw 2]
    · simp [nod4, exT, Tetra.exP, V3.dot, hw 3]
  rw [e] at h
  rw [h.2.1]
  simp [axX, V3.dot]

theorem exPot_ohm : Ohm Tetra.exP (fun _ => 1) (fun _ => 1) [exT] exFace (· ≠ 0) (fun _ _ => axX) := by
  intro w hw
  have h1 := exPot_grad w hw
  simp only [weakOhm, exFace, List.map_cons, List.map_nil, List.sum_cons, List.sum_nil, h1, tetIntegral_const, exPot_volume, triAffine_eq,
    exPot_area]
  simp [nod3, hw 2, hw 3]
  ring

theorem exPot_gradV : gradV (nod4 Tetra.exP exT) (nod4 (fun i => axX.dot (Tetra.exP i)) exT) = axX := by
  have h := (C35_affine rule1 (nod4 Tetra.exP exT) (exPot_or exT (by simp)).ne' 0 axX).2.1
  simp only [zero_add] at h
  exact h

theorem exPot_weak : WeakPotential Tetra.exP (fun _ => 1) (fun _ => 1) [exT] exFace (· ≠ 0) (fun i => axX.dot (Tetra.exP i)) := by
  intro w hw
  have h1 := exPot_grad w hw
  rw [weakForm_integral exPot_or]
  simp only [exFace, List.map_cons, List.map_nil, List.sum_cons, List.sum_nil, exPot_gradV, h1, exPot_volume, triAffine_eq,
    exPot_area]
  simp [nod3, hw 2, hw 3]
  ring

theorem exPot_shape : ∀ t ∈ [exT], Regular 2 48 (nod4 Tetra.exP t) := by
  intro t ht
  rw [List.mem_singleton] at ht
  subst ht
  refine ⟨fun i j => norm_le (by norm_num) ?_, ?_⟩
  · fin_cases i <;> fin_cases j <;> norm_num [nod4, exT, Tetra.exP, V3.nsq]
  · rw [exPot_volume]
    norm_num

/-- C96 -/
example := C96_converges exPot_or (fun _ _ => zero_le_one) (by norm_num) exPot_shape zero_le_one
  (fun _ _ => linear_pot _ ax_norm.1.le zero_le_one) exPot_ohm exPot_weak fun _ _ => rfl

example := C96_power exPot_or (fun _ _ => zero_le_one) (by norm_num) zero_le_one exPot_shape zero_le_one
  (fun _ _ => linear_pot _ ax_norm.1.le zero_le_one) exPot_ohm exPot_weak fun _ _ => rfl

example := C96_minimum exPot_or (fun _ _ => zero_le_one) exPot_weak (U := fun i => if i = 0 then 5 else axX.dot (Tetra.exP i))
  fun _ hi => if_neg hi

/-- the power is not zero -/
example : meshPower Tetra.exP (fun _ => 1) [exT] (fun i => axX.dot (Tetra.exP i)) = 1 / 6 := by
  simp only [meshPower, List.map_cons, List.map_nil, List.sum_cons, List.sum_nil, exPot_gradV, exPot_volume, ax_norm.1]
  norm_num

/-- C96: potential 0 on the electrode, nodes 1 to 3; the same current -/
example : ∃ V : ℕ → ℝ, WeakPotential Tetra.exP (fun _ => 1) (fun _ => 1) [exT] exFace (· ≠ 0) V ∧ (∀ i, i ≠ 0 → V i = 0) ∧
    meshPower Tetra.exP (fun _ => 1) [exT] V = 1 / 18 := by
  let V : ℕ → ℝ := fun i => if i = 0 then -1 / 3 else 0
  have hV : ∀ i, i ≠ 0 → V i = 0 := fun i hi => if_neg hi
  have hw : WeakPotential Tetra.exP (fun _ => 1) (fun _ => 1) [exT] exFace (· ≠ 0) V := by
    intro w hw
    have g : ∀ w : ℕ → ℝ, (∀ i, i ≠ 0 → w i = 0) → gradV (nod4 Tetra.exP exT) (nod4 w exT) = ⟨-w 0, -w 0, -w 0⟩ := by
      intro w hw
      have h := C35_affine rule1 (nod4 Tetra.exP exT) (exPot_or exT (by simp)).ne' (w 0) ⟨-w 0, -w 0, -w 0⟩
      have e : (fun i => w 0 + (⟨-w 0, -w 0, -w 0⟩ : V3).dot (nod4 Tetra.exP exT i)) = nod4 w exT := by
        funext i
        fin_cases i
        · simp [nod4, exT, Tetra.exP, V3.dot]
        · simp [nod4, exT, Tetra.exP, V3.dot, hw 1]
        · simp [nod4, exT, Tetra.exP, V3.dot, hw 2]
        · simp [nod4, exT, Tetra.exP, V3.dot, hw 3]
      rw [e] at h
      exact h.2.1
    rw [weakForm_integral exPot_or]
    simp only [exFace, List.map_cons, List.map_nil, List.sum_cons, List.sum_nil, g V hV, g w hw, exPot_volume, triAffine_eq, exPot_area]
    simp [nod3, hw 2, hw 3, V3.dot, V]
    ring
  refine ⟨V, hw, hV, ?_⟩
  rw [C96_joule exPot_or hw hV]
  simp only [exFace, List.map_cons, List.map_nil, List.sum_cons, List.sum_nil, exPot_area]
  simp [V]
  norm_num

end Verif.Continuum
