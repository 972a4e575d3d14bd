import Verif.Proofs.ContinuumLlg
import Verif.Props.Continuum

/-!
# C95: the equation of motion solved on the mesh is an approximation of the continuous one

All fields are smooth on every element and the nodes (or Gauss points) hold their samples. `Velocity` is the equation the code
solves once the time step is refined (C81).
-/

namespace Verif.Continuum

open MeasureTheory Verif.Mesh Verif.MeshElem Verif.MeshCheck Verif.Tetra Verif.Rounded Verif.Llg Verif.WeakForm Verif.SemiDiscrete

/-- the equation of motion on the mesh: damping plus gyration minus the work of all fields in the displacement `w`, for fields sampled
at the nodes and at the Gauss points -/
noncomputable def meshLlg (G : Rule) (H : TriElem.Rule) (prm : ℕ → Prm) (sprm : ℕ → Llg.SurfPrm) (mu0 : ℝ) (p : ℕ → V3) (tets : List Tet)
    (tris : List (Tri × ℝ)) (q : Fields) (w : V3 → V3) : ℝ :=
  (tets.map fun t =>
    damping G (fun k => p (t.ind k)) (fun _ => (prm t.reg).alpha) (fun k => q.v (p (t.ind k))) (fun k => w (p (t.ind k)))
    + gyration G (fun k => p (t.ind k)) (fun k => q.u (p (t.ind k))) (fun k => q.v (p (t.ind k))) (fun k => w (p (t.ind k)))).sum
  - totalWork G H prm sprm mu0 tets tris p (fun i => q.u (p i)) (fun i => q.phi (p i)) (fun t j => q.F (ptGauss G (nod4 p t) j))
      (fun t j => q.S (ptGauss G (nod4 p t) j)) (fun i => w (p i))

/-- a fine mesh of well shaped elements on which all fields are smooth; derivatives may jump from region to region -/
structure FineLlg (prm : ℕ → Prm) (sprm : ℕ → Llg.SurfPrm) (p : ℕ → V3) (tets : List Tet) (tris : List (Tri × ℝ)) (q : Fields) (w : V3 → V3)
    (E : ℕ → Fin 3 → V3 → V3) (h κ P N L : ℝ) : Prop where
  pos : 0 < h
  one_le : 1 ≤ P
  slope_nonneg : 0 ≤ N
  curv_nonneg : 0 ≤ L
  orient : ∀ t ∈ tets, 0 < detJ (nod4 p t)
  shape : ∀ t ∈ tets, Regular h κ (nod4 p t)
  axes : ∀ t ∈ tets, Axes (prm t.reg)
  smooth : ∀ t ∈ tets, SmoothFields (InTet (nod4 p t)) q t.reg w (E t.reg) P N L
  uk : ∀ f ∈ tris, (sprm f.1.reg).uk.norm ≤ 1
  edge : ∀ f ∈ tris, ∀ i j, (nod3 p f.1 i - nod3 p f.1 j).norm ≤ h
  gentleU : ∀ f ∈ tris, Gentle (InTri (nod3 p f.1)) q.u 1 N
  gentleW : ∀ f ∈ tris, Gentle (InTri (nod3 p f.1)) w P N

/-- constant in front of `h` -/
noncomputable def llgConst (prm : ℕ → Prm) (sprm : ℕ → Llg.SurfPrm) (mu0 : ℝ) (p : ℕ → V3) (tets : List Tet) (tris : List (Tri × ℝ))
    (κ P N L h : ℝ) : ℝ :=
  (tets.map fun t => tetVolume (nod4 p t) * llgRate (prm t.reg) mu0 κ P N L h).sum
  + (tris.map fun f => |2 * (sprm f.1.reg).Ks / f.2| * (triArea (nod3 p f.1) * (25 / 8 * (2 * P * N)))).sum

theorem sum_map_sub' {α : Type} (l : List α) (f g : α → ℝ) :
    (l.map fun a => f a - g a).sum = (l.map f).sum - (l.map g).sum := by
  induction l with
  | nil => simp
  | cons a l ih =>
    simp only [List.map_cons, List.sum_cons, ih]
    ring

variable {G : Rule} (hG : Compiled G) {H : TriElem.Rule} (hH : TriCompiled H) {prm : ℕ → Prm} {sprm : ℕ → Llg.SurfPrm} {mu0 : ℝ}
  {p : ℕ → V3} {tets : List Tet} {tris : List (Tri × ℝ)} {q : Fields} {w : V3 → V3} {E : ℕ → Fin 3 → V3 → V3} {h κ P N L : ℝ}

include hG hH

/-- **C95** Tested with any smooth displacement, the equation of motion on the mesh differs from the weak Landau-Lifshitz-Gilbert
equation of the continuum by at most a constant times the size of the elements. -/
theorem C95_consistent (hf : FineLlg prm sprm p tets tris q w E h κ P N L) :
    |meshLlg G H prm sprm mu0 p tets tris q w - weakLlg prm sprm mu0 p tets tris q w E| ≤
      llgConst prm sprm mu0 p tets tris κ P N L h * h := by
  have n1 := sum_near tets _ _ _ fun t ht =>
    tetLlg_near hG (hf.orient t ht) hf.pos (hf.shape t ht) hf.one_le hf.slope_nonneg hf.curv_nonneg (hf.smooth t ht) (mu0 := mu0) (hf.axes t ht)
  have n2 := sum_near tris (fun f => surfaceWork H (sprm f.1.reg) f.2 (fun k => p (f.1.ind k)) (fun k => q.u (p (f.1.ind k)))
      (fun k => w (p (f.1.ind k))))
    (fun f => 2 * (sprm f.1.reg).Ks / f.2 *
      triIntegral (nod3 p f.1) (fun x => (sprm f.1.reg).uk.dot (q.u x) * (sprm f.1.reg).uk.dot (w x)))
    (fun f => |2 * (sprm f.1.reg).Ks / f.2| * (triArea (nod3 p f.1) * (25 / 8 * (2 * P * N * h)))) fun f hf' => by
      rw [surfaceWork, ← mul_sub, abs_mul]
      exact mul_le_mul_of_nonneg_left
        (surface_near hH (hf.uk f hf') hf.one_le hf.slope_nonneg (hf.gentleU f hf') (hf.gentleW f hf') (hf.edge f hf')) (abs_nonneg _)
  have e : meshLlg G H prm sprm mu0 p tets tris q w =
      (tets.map fun t => (damping G (nod4 p t) (fun _ => (prm t.reg).alpha) (fun i => q.v (nod4 p t i)) (fun i => w (nod4 p t i))
        + gyration G (nod4 p t) (fun i => q.u (nod4 p t i)) (fun i => q.v (nod4 p t i)) (fun i => w (nod4 p t i))
        - tetWork G (prm t.reg) mu0 (nod4 p t) (fun i => q.u (nod4 p t i)) (fun i => q.phi (nod4 p t i))
            (fun j => q.F (ptGauss G (nod4 p t) j)) (fun j => q.S (ptGauss G (nod4 p t) j)) (fun i => w (nod4 p t i)))).sum
      - (tris.map fun f => surfaceWork H (sprm f.1.reg) f.2 (fun k => p (f.1.ind k)) (fun k => q.u (p (f.1.ind k)))
          (fun k => w (p (f.1.ind k)))).sum := by
    rw [sum_map_sub', meshLlg, totalWork, ← sub_sub]
    rfl
  have e2 : llgConst prm sprm mu0 p tets tris κ P N L h * h =
      (tets.map fun t => tetVolume (nod4 p t) * (llgRate (prm t.reg) mu0 κ P N L h * h)).sum
      + (tris.map fun f => |2 * (sprm f.1.reg).Ks / f.2| * (triArea (nod3 p f.1) * (25 / 8 * (2 * P * N * h)))).sum := by
    rw [llgConst, add_mul, ← List.sum_map_mul_right, ← List.sum_map_mul_right]
    congr 2
    · exact List.map_congr_left fun t _ => by ring
    · exact List.map_congr_left fun f _ => by ring
  rw [e, e2, weakLlg]
  rw [abs_le] at n1 n2 ⊢
  constructor <;> linarith [n1.1, n1.2, n2.1, n2.2]

omit hG hH in
theorem damping_sub (q : Fin 4 → V3) (a : Fin G.n → ℝ) (v v' w : Fin 4 → V3) :
    damping G q a (fun i => v i - v' i) w = damping G q a v w - damping G q a v' w := by
  simp only [damping, interpS, ← Finset.sum_sub_distrib]
  refine Finset.sum_congr rfl fun j _ => ?_
  rw [← mul_sub, ← Finset.sum_sub_distrib]
  congr 1
  refine Finset.sum_congr rfl fun i _ => ?_
  simp only [V3.dot, V3.sub_x, V3.sub_y, V3.sub_z]
  ring

omit hG hH in
theorem gyration_sub (q u v v' w : Fin 4 → V3) :
    gyration G q u (fun i => v i - v' i) w = gyration G q u v w - gyration G q u v' w := by
  simp only [gyration, interpS, ← Finset.sum_sub_distrib]
  refine Finset.sum_congr rfl fun j _ => ?_
  rw [← mul_sub, ← Finset.sum_sub_distrib]
  congr 1
  refine Finset.sum_congr rfl fun i _ => ?_
  simp only [V3.dot, V3.cross, V3.sub_x, V3.sub_y, V3.sub_z]
  ring

/-- **C95** If the smooth fields satisfy the Landau-Lifshitz-Gilbert equation of the continuum for a displacement `w` orthogonal to the
magnetization, the velocity `V` computed on the mesh from the same samples differs from the true one by a field on which damping and
gyration do little work in this displacement: at most a constant times the size of the elements. -/
theorem C95_velocity (hf : FineLlg prm sprm p tets tris q w E h κ P N L) {magN : ℕ → Prop}
    (hw : ∀ i, magN i → (w (p i)).dot (q.u (p i)) = 0) (hq : weakLlg prm sprm mu0 p tets tris q w E = 0) {V : ℕ → V3}
    (hV : Velocity G H prm sprm mu0 magN tets tris p (fun i => q.u (p i)) (fun i => q.phi (p i))
      (fun t j => q.F (ptGauss G (nod4 p t) j)) (fun t j => q.S (ptGauss G (nod4 p t) j)) V) :
    |(tets.map fun t =>
        damping G (fun k => p (t.ind k)) (fun _ => (prm t.reg).alpha) (fun k => V (t.ind k) - q.v (p (t.ind k))) (fun k => w (p (t.ind k)))
        + gyration G (fun k => p (t.ind k)) (fun k => q.u (p (t.ind k))) (fun k => V (t.ind k) - q.v (p (t.ind k)))
            (fun k => w (p (t.ind k)))).sum| ≤
      llgConst prm sprm mu0 p tets tris κ P N L h * h := by
  have h1 := C95_consistent hG hH (mu0 := mu0) hf
  have h2 := hV.2 (fun i => w (p i)) hw
  rw [hq, sub_zero, meshLlg, ← h2, abs_sub_comm, ← sum_map_sub'] at h1
  refine le_trans (le_of_eq ?_) h1
  congr 2
  refine List.map_congr_left fun t _ => ?_
  rw [damping_sub, gyration_sub]
  ring

/-- **C95** For every precision there is a size of element below which the equation of motion on every mesh of well shaped elements is
that close to the continuous one. `W` bounds the constants of the materials times the volumes and areas. -/
theorem C95_refine {W : ℝ} (hW : 0 ≤ W) (ε : ℝ) (hε : 0 < ε) :
    ∃ h0 > 0, ∀ (p : ℕ → V3) (tets : List Tet) (tris : List (Tri × ℝ)) (h : ℝ), h ≤ h0 →
      FineLlg prm sprm p tets tris q w E h κ P N L → llgConst prm sprm mu0 p tets tris κ P N L 1 ≤ W →
      |meshLlg G H prm sprm mu0 p tets tris q w - weakLlg prm sprm mu0 p tets tris q w E| ≤ ε := by
  refine ⟨min 1 (ε / (W + 1)), lt_min one_pos (by positivity), ?_⟩
  intro p tets tris h hh hf hc
  have h1 : h ≤ 1 := hh.trans (min_le_left _ _)
  have h2 : h * (W + 1) ≤ ε := by
    rw [← le_div_iff₀ (by positivity)]
    exact hh.trans (min_le_right _ _)
  have hp := hf.pos
  have hm : llgConst prm sprm mu0 p tets tris κ P N L h ≤ llgConst prm sprm mu0 p tets tris κ P N L 1 := by
    unfold llgConst
    refine add_le_add_left (List.sum_le_sum fun t ht => ?_) _
    have hk := kappa_nonneg hf.pos (hf.shape t ht)
    have hN := hf.slope_nonneg
    have hL := hf.curv_nonneg
    have hv : 0 ≤ tetVolume (nod4 p t) := by rw [tetVolume_eq]; positivity
    refine mul_le_mul_of_nonneg_left ?_ hv
    unfold llgRate
    gcongr
  refine (C95_consistent hG hH hf).trans ?_
  have := mul_le_mul_of_nonneg_right (hm.trans hc) hp.le
  nlinarith

omit hG hH

/-! ## examples on the two elements `exT2` shrunk by any factor, with one surface triangle -/

def axX : V3 := ⟨1, 0, 0⟩
def axY : V3 := ⟨0, 1, 0⟩
def axZ : V3 := ⟨0, 0, 1⟩

noncomputable def exMat (_ : ℕ) : Prm := ⟨1 / 2, 1, 1, 1, axZ, 1, axX, axY, axZ⟩

def exSurf (_ : ℕ) : Llg.SurfPrm := ⟨1, axZ⟩

def exTri : List (Tri × ℝ) := [(⟨![0, 1, 2], 0⟩, 1)]

theorem ax_norm : axX.norm = 1 ∧ axY.norm = 1 ∧ axZ.norm = 1 := by
  simp [V3.norm, V3.nsq, axX, axY, axZ]

theorem exMat_axes (r : ℕ) : Axes (exMat r) := ⟨ax_norm.2.2.le, ax_norm.1.le, ax_norm.2.1.le, ax_norm.2.2.le⟩

theorem turn_vec (B : V3 → Prop) : SmoothVec B turn turnD 1 1 6 :=
  ⟨fun x hx => ((turn_smooth B).unit x hx).le, (turn_smooth B).slope, (turn_smooth B).bound, (turn_smooth B).taylor, (turn_smooth B).lip⟩

/-- the same field a quarter of a turn ahead -/
noncomputable def ahead (x : V3) : V3 := turn (x + ⟨Real.pi / 2, 0, 0⟩)

noncomputable def aheadD (d : Fin 3) (x : V3) : V3 := turnD d (x + ⟨Real.pi / 2, 0, 0⟩)

theorem ahead_vec (B : V3 → Prop) : SmoothVec B ahead aheadD 1 1 6 := by
  have h := turn_vec fun _ => True
  have e : ∀ x y s : V3, y + s - (x + s) = y - x := fun x y s => by ext <;> simp
  refine ⟨fun x _ => h.size _ trivial, fun x y _ _ => ?_, fun d x _ => h.bound d _ trivial, fun x y _ _ => ?_, fun d x y _ _ => ?_⟩
  · have := h.slope (x + ⟨Real.pi / 2, 0, 0⟩) (y + ⟨Real.pi / 2, 0, 0⟩) trivial trivial
    rwa [e] at this
  · have := h.taylor (x + ⟨Real.pi / 2, 0, 0⟩) (y + ⟨Real.pi / 2, 0, 0⟩) trivial trivial
    rwa [e] at this
  · have := h.lip d (x + ⟨Real.pi / 2, 0, 0⟩) (y + ⟨Real.pi / 2, 0, 0⟩) trivial trivial
    rwa [e] at this

/-- `w` is orthogonal to `u` -/
example (x : V3) : (ahead x).dot (turn x) = 0 := by
  simp only [ahead, turn, V3.dot, V3.add_x, Real.cos_add_pi_div_two, Real.sin_add_pi_div_two]
  ring

theorem const_gentle (B : V3 → Prop) {c : V3} {P N : ℝ} (h : c.norm ≤ P) (hN : 0 ≤ N) : Gentle B (fun _ => c) P N :=
  ⟨fun _ _ => h, fun x y _ _ => by
    have : (c - c).norm = 0 := by simp [V3.norm, V3.nsq]
    rw [this]
    exact mul_nonneg hN (norm_nonneg _)⟩

theorem linear_pot (B : V3 → Prop) {c : V3} {P N : ℝ} (h : c.norm ≤ P) (hN : 0 ≤ N) :
    SmoothPot B (fun x => c.dot x) (fun _ => c) P N := by
  have g := const_gentle B h hN
  refine ⟨g.bound, fun x y _ _ => ?_, g.lip⟩
  have : c.dot y - (c.dot x + c.dot (y - x)) = 0 := by
    simp only [V3.dot, V3.sub_x, V3.sub_y, V3.sub_z]
    ring
  rw [this, abs_zero]
  positivity

/-- a turning magnetization in a uniform demagnetizing field, an applied field along `x` and a torque along `y` -/
noncomputable def exTurn : Fields := ⟨turn, fun _ => turnD, ahead, fun x => axZ.dot x, fun _ _ => axZ, fun _ => axX, fun _ => axY⟩

theorem ex_tri_edge (s : ℝ) (hs : 0 < s) : ∀ f ∈ exTri, ∀ i j, (nod3 (exShrunk s) f.1 i - nod3 (exShrunk s) f.1 j).norm ≤ 2 * s := by
  intro f hf i j
  simp only [exTri, List.mem_singleton] at hf
  subst hf
  have hi : ∀ i, (![0, 1, 2] : Fin 3 → ℕ) i < 5 := by decide
  have e : nod3 (exShrunk s) ⟨![0, 1, 2], 0⟩ i - nod3 (exShrunk s) ⟨![0, 1, 2], 0⟩ j =
      s * (exP2 ((![0, 1, 2] : Fin 3 → ℕ) i) - exP2 ((![0, 1, 2] : Fin 3 → ℕ) j)) := by
    ext <;> simp [nod3, exShrunk] <;> ring
  show (nod3 (exShrunk s) ⟨![0, 1, 2], 0⟩ i - nod3 (exShrunk s) ⟨![0, 1, 2], 0⟩ j).norm ≤ 2 * s
  rw [e, norm_smul', abs_of_pos hs]
  have h1 : (exP2 ((![0, 1, 2] : Fin 3 → ℕ) i) - exP2 ((![0, 1, 2] : Fin 3 → ℕ) j)).norm ≤ 2 :=
    norm_le (by norm_num) ((ex2_edge _ _ (hi i) (hi j)).trans (by norm_num))
  nlinarith

theorem ex_mem {t : Tet} (ht : t ∈ exT2) : t ∈ magTet (fun _ => true) exT2 := by
  simpa [magTet, Tet.isMagnetic] using ht

theorem exTurn_fine (s : ℝ) (hs : 0 < s) :
    FineLlg exMat exSurf (exShrunk s) exT2 exTri exTurn ahead (fun _ => aheadD) (2 * s) 48 1 1 6 where
  pos := by linarith
  one_le := le_rfl
  slope_nonneg := zero_le_one
  curv_nonneg := by norm_num
  orient t ht := (ex_fine s hs).orient t (ex_mem ht)
  shape t ht := (ex_fine s hs).shape t (ex_mem ht)
  axes _ _ := exMat_axes _
  smooth _ _ := ⟨turn_vec _, ⟨(ahead_vec _).size, (ahead_vec _).slope⟩, linear_pot _ ax_norm.2.2.le zero_le_one,
    const_gentle _ ax_norm.1.le zero_le_one, const_gentle _ ax_norm.2.1.le zero_le_one, ahead_vec _⟩
  uk _ _ := ax_norm.2.2.le
  edge := ex_tri_edge s hs
  gentleU _ _ := ⟨(turn_vec _).size, (turn_vec _).slope⟩
  gentleW _ _ := ⟨(ahead_vec _).size, (ahead_vec _).slope⟩

/-- C95: the equation of motion on the shrunk meshes -/
example (s : ℝ) (hs : 0 < s) := C95_consistent (Or.inr rfl) (Or.inr rfl) (G := rule5) (H := TriElem.rule4) (mu0 := 1) (exTurn_fine s hs)

/-- a uniform magnetization along `z`, precessing: `alpha v + u × v` is the transverse part of the applied field -/
noncomputable def exUniform : Fields :=
  ⟨fun _ => axZ, fun _ _ _ => 0, fun _ => ⟨1, 1, 0⟩, fun x => axZ.dot x, fun _ _ => axZ, fun _ => ⟨-1 / 2, 3 / 2, 5⟩, fun _ => 0⟩

theorem exUniform_fine (s : ℝ) (hs : 0 < s) :
    FineLlg exMat exSurf (exShrunk s) exT2 exTri exUniform turn (fun _ => turnD) (2 * s) 48 6 1 6 where
  pos := by linarith
  one_le := by norm_num
  slope_nonneg := zero_le_one
  curv_nonneg := by norm_num
  orient t ht := (ex_fine s hs).orient t (ex_mem ht)
  shape t ht := (ex_fine s hs).shape t (ex_mem ht)
  axes _ _ := exMat_axes _
  smooth t _ := by
    have z : ∀ c : V3, c - c = 0 := fun c => by ext <;> simp
    have z0 : (0 : V3).norm = 0 := by simp [V3.norm, V3.nsq]
    refine ⟨⟨fun _ _ => ax_norm.2.2.le, (const_gentle _ ax_norm.2.2.le zero_le_one).lip, fun d x _ => ?_, fun x y _ _ => ?_,
      fun d x y _ _ => ?_⟩, const_gentle _ (norm_le (by norm_num) (by norm_num [V3.nsq])) zero_le_one,
      linear_pot _ (by rw [ax_norm.2.2]; norm_num) zero_le_one,
      const_gentle _ (norm_le (by norm_num) (by norm_num [V3.nsq])) zero_le_one,
      const_gentle _ (norm_le (by norm_num) (by norm_num [V3.nsq])) zero_le_one, (turn_vec _).mono (by norm_num)⟩
    · show (0 : V3).norm ≤ 1
      rw [z0]
      exact zero_le_one
    · have e : axZ - (axZ + (y - x).x * (0 : V3) + (y - x).y * (0 : V3) + (y - x).z * (0 : V3)) = 0 := by ext <;> simp
      show (axZ - (axZ + (y - x).x * (0 : V3) + (y - x).y * (0 : V3) + (y - x).z * (0 : V3))).norm ≤ _
      rw [e, z0]
      positivity
    · show ((0 : V3) - 0).norm ≤ _
      rw [z, z0]
      exact mul_nonneg (by norm_num) (norm_nonneg _)
  uk _ _ := ax_norm.2.2.le
  edge := ex_tri_edge s hs
  gentleU _ _ := const_gentle _ ax_norm.2.2.le zero_le_one
  gentleW _ _ := ⟨fun x hx => ((turn_vec _).size x hx).trans (by norm_num), (turn_vec _).slope⟩

theorem exUniform_aniso : SemiDiscrete.anisoField (exMat 0) 1 axZ = (2 : ℝ) * axZ := by
  ext <;> simp [SemiDiscrete.anisoField, exMat, axX, axY, axZ, V3.dot]

/-- it satisfies the continuous equation for the displacement `turn` -/
theorem exUniform_weak (s : ℝ) : weakLlg exMat exSurf 1 (exShrunk s) exT2 exTri exUniform turn (fun _ => turnD) = 0 := by
  have z : ∀ q, tetIntegral q (fun _ => (0 : ℝ)) = 0 := fun q => by simp [tetIntegral]
  have hx : ∀ q, IntegrableOn (fun x => (turn (ofPt x)).x) (tetSet q) := fun q =>
    integrable_of_lip (f := fun x => (turn x).x) (K := 1) fun x y hx hy =>
      ((abs_le_of_sq_le_sq' (x_le (turn y - turn x)) (norm_nonneg _)) |> abs_le.mpr).trans ((turn_vec _).slope x y hx hy)
  have hy : ∀ q, IntegrableOn (fun x => (turn (ofPt x)).y) (tetSet q) := fun q =>
    integrable_of_lip (f := fun x => (turn x).y) (K := 1) fun x y hx hy => by
      have h : (turn y - turn x).y ^ 2 ≤ (turn y - turn x).norm ^ 2 := by
        rw [norm_sq]
        simp only [V3.nsq]
        nlinarith [mul_self_nonneg (turn y - turn x).x, mul_self_nonneg (turn y - turn x).z]
      exact ((abs_le_of_sq_le_sq' h (norm_nonneg _)) |> abs_le.mpr).trans ((turn_vec _).slope x y hx hy)
  have hlin : ∀ (q : Fin 4 → V3) (a b : ℝ), tetIntegral q (fun x => a * (turn x).x + b * (turn x).y) =
      a * tetIntegral q (fun x => (turn x).x) + b * tetIntegral q (fun x => (turn x).y) := fun q a b => by
    unfold tetIntegral
    rw [integral_add ((hx q).const_mul a) ((hy q).const_mul b), integral_const_mul, integral_const_mul]
  have h1 : ∀ r, gradDens (exUniform.D r) turnD = fun _ => 0 := fun r => by
    funext x
    simp [gradDens, V3.dot, exUniform]
  have h2 : ∀ x : V3, axZ.dot axZ * axZ.dot (turn x) = 0 := fun x => by simp [turn, axZ, V3.dot]
  have h3 : (fun x => (exUniform.v x).dot (turn x)) = fun x => 1 * (turn x).x + 1 * (turn x).y := by
    funext x
    simp [exUniform, V3.dot]
  have h4 : (fun x => ((exUniform.u x).cross (exUniform.v x)).dot (turn x)) = fun x => -1 * (turn x).x + 1 * (turn x).y := by
    funext x
    simp [exUniform, V3.dot, V3.cross, axZ]
  have h5 : ∀ r r', (fun x => (localField (exMat r) 1 exUniform r' x).dot (turn x)) =
      fun x => -1 / 2 * (turn x).x + 3 / 2 * (turn x).y := fun r r' => by
    funext x
    have : SemiDiscrete.anisoField (exMat r) 1 axZ = (2 : ℝ) * axZ := exUniform_aniso
    simp only [localField, exUniform, this]
    simp [V3.dot, axZ, turn]
  have ht : ∀ q, triIntegral q (fun x => axZ.dot (exUniform.u x) * axZ.dot (turn x)) = 0 := fun q => by
    simp only [exUniform, h2]
    simp [triIntegral]
  rw [weakLlg]
  simp only [h1, h3, h4, h5, z, hlin, exSurf, ht, mul_zero, zero_add]
  simp only [exMat]
  have : ∀ t : Tet, (1 / 2 * (1 * tetIntegral (nod4 (exShrunk s) t) (fun x => (turn x).x) + 1 * tetIntegral (nod4 (exShrunk s) t) (fun x => (turn x).y))
      + (-1 * tetIntegral (nod4 (exShrunk s) t) (fun x => (turn x).x) + 1 * tetIntegral (nod4 (exShrunk s) t) (fun x => (turn x).y))
      - (-1 / 2 * tetIntegral (nod4 (exShrunk s) t) (fun x => (turn x).x) + 3 / 2 * tetIntegral (nod4 (exShrunk s) t) (fun x => (turn x).y))) = 0 :=
    fun t => by ring
  simp only [this]
  simp

/-- and `V = v` is the velocity on the mesh -/
theorem exUniform_velocity (s : ℝ) (hs : 0 < s) :
    Velocity rule5 TriElem.rule4 exMat exSurf 1 (fun _ => True) exT2 exTri (exShrunk s) (fun i => exUniform.u (exShrunk s i))
      (fun i => exUniform.phi (exShrunk s i)) (fun t j => exUniform.F (ptGauss rule5 (nod4 (exShrunk s) t) j))
      (fun t j => exUniform.S (ptGauss rule5 (nod4 (exShrunk s) t) j)) (fun _ => ⟨1, 1, 0⟩) := by
  refine ⟨fun i _ => by simp [exUniform, axZ, V3.dot], fun w hw => ?_⟩
  have hz : ∀ i, (w i).z = 0 := fun i => by
    have := hw i trivial
    simpa [exUniform, axZ, V3.dot] using this
  have hi : ∀ (c : V3) (j : Fin rule5.n), interpV rule5 (fun _ => c) j = c := fun c j => by
    have := rule5.a_sum j
    rw [Fin.sum_univ_four] at this
    simp only [interpV, Fin.sum_univ_four]
    ext <;> simp only [V3.add_x, V3.add_y, V3.add_z, V3.smul_x, V3.smul_y, V3.smul_z]
    · linear_combination c.x * this
    · linear_combination c.y * this
    · linear_combination c.z * this
  have htri : ∀ f : Tri × ℝ, surfaceWork TriElem.rule4 (exSurf f.1.reg) f.2 (fun k => exShrunk s (f.1.ind k))
      (fun k => exUniform.u (exShrunk s (f.1.ind k))) (fun k => w (f.1.ind k)) = 0 := fun f => by
    rw [surfaceWork]
    have : ∀ j, (exSurf f.1.reg).uk.dot (TriElem.interpV TriElem.rule4 (fun k => w (f.1.ind k)) j) = 0 := fun j => by
      simp [exSurf, axZ, V3.dot, TriElem.interpV, Fin.sum_univ_three, hz]
    simp [this]
  rw [totalWork]
  simp only [htri]
  rw [List.map_const', List.sum_replicate, smul_zero, add_zero]
  congr 1
  refine List.map_congr_left fun t ht => ?_
  have hd : detJ (nod4 (exShrunk s) t) ≠ 0 := ((ex_fine s hs).orient t (ex_mem ht)).ne'
  have hphi : interpField (fun k => exShrunk s (t.ind k)) (fun k => exUniform.phi (exShrunk s (t.ind k))) = -axZ := by
    have := (C35_affine rule5 _ hd 0 axZ).2.2
    simp only [zero_add] at this
    exact this
  have hg : ∀ g, gradDot (fun k => exShrunk s (t.ind k)) (fun k => exUniform.u (exShrunk s (t.ind k))) g = 0 := fun g => by
    have := (C35_affine_vector rule5 _ hd axZ (fun _ => 0)).2
    dsimp only at this
    have e : ∀ q : V3, axZ + q.x * (0 : V3) + q.y * (0 : V3) + q.z * (0 : V3) = axZ := fun q => by ext <;> simp
    simp only [e] at this
    have t' : ∀ d, Tetra.deriv (fun k => exShrunk s (t.ind k)) d (fun k => exUniform.u (exShrunk s (t.ind k))) = 0 := this
    simp [gradDot, t', V3.dot]
  have ha : SemiDiscrete.anisoField (exMat t.reg) 1 axZ = (2 : ℝ) * axZ := exUniform_aniso
  have hu : ∀ j, interpV rule5 (fun k => exUniform.u (exShrunk s (t.ind k))) j = axZ := fun j => hi axZ j
  rw [tetWork, hg, mul_zero, zero_add, work, damping, gyration, ← Finset.sum_add_distrib]
  refine Finset.sum_congr rfl fun j _ => ?_
  simp only [hphi, hu, ha]
  simp [exUniform, exMat, axZ, V3.dot, V3.cross, interpS, interpV, Fin.sum_univ_four, hz]
  ring

/-- C95: the velocity of the uniform precession, tested with a turning displacement -/
example (s : ℝ) (hs : 0 < s) := C95_velocity (Or.inr rfl) (Or.inr rfl) (mu0 := 1) (exUniform_fine s hs) (magN := fun _ => True)
  (fun i _ => by simp [exUniform, turn, axZ, V3.dot]) (exUniform_weak s) (exUniform_velocity s hs)

end Verif.Continuum
