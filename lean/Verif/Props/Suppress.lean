import Verif.Model.SurfAniso
import Verif.Props.Potential
import Verif.Props.WeakForm

/-!
# C74: what the setting `suppress_charges` of a surface changes

The triangles used in a run are `magTriJ suppress` (mesh.h:127-131). `fun _ => false` is the same mesh with no surface
marked.
-/

namespace Verif.Suppress

open Verif.Mesh Verif.MeshElem Verif.Llg Verif.WeakForm Verif.Assembly

/-- the magnetic triangles of the marked surfaces -/
def marked (suppress : ℕ → Bool) (magN : List Bool) (tris : List (Tri × ℝ)) : List (Tri × ℝ) :=
  tris.filter fun f => f.1.isMagnetic magN && suppress f.1.reg

theorem sum_split (suppress : ℕ → Bool) (magN : List Bool) (tris : List (Tri × ℝ)) (g : Tri × ℝ → ℝ) :
    ((magTriJ (fun _ => false) magN tris).map g).sum =
      ((magTriJ suppress magN tris).map g).sum + ((marked suppress magN tris).map g).sum := by
  unfold magTriJ marked
  induction tris with
  | nil => simp
  | cons f fs ih =>
    cases h1 : f.1.isMagnetic magN <;> cases h2 : suppress f.1.reg <;>
      simp only [List.filter_cons, h1, h2, Bool.and_true, Bool.and_false, Bool.not_true, Bool.not_false,
        if_true, if_false, Bool.false_eq_true, List.map_cons, List.sum_cons] at ih ⊢
    · exact ih
    · exact ih
    · rw [ih]; ring
    · rw [ih]; ring

/-- **C74** Marking surfaces removes exactly their charges: the charges given to the multipole library, the corrections at
each node and the demagnetizing energy are those of the unmarked mesh minus the contributions of the marked triangles. -/
theorem C74_charges_partial (G : Tetra.Rule) (H : TriElem.Rule) (mu0 : ℝ) (p u : ℕ → V3) (phi : ℕ → ℝ) (Ms : ℕ → ℝ)
    (mtets : List Tet) (tris : List (Tri × ℝ)) (magN : List Bool) (suppress : ℕ → Bool)
    (hi : ∀ f ∈ tris, Function.Injective f.1.ind) :
    totalCharge G H p Ms mtets (magTriJ suppress magN tris) u =
      totalCharge G H p Ms mtets (magTriJ (fun _ => false) magN tris) u
        - ((marked suppress magN tris).map fun f => ∑ j, TriElem.charges H f.2 (nod3 p f.1) (nod3 u f.1) j).sum ∧
    (∀ k, corr H p (magTriJ suppress magN tris) u k = corr H p (magTriJ (fun _ => false) magN tris) u k
        - ((marked suppress magN tris).map fun f => ∑ i, if f.1.ind i = k then
            TriElem.correction H f.2 (nod3 p f.1) (nod3 u f.1) i else 0).sum) ∧
    demagEnergy G H mu0 p Ms mtets (magTriJ suppress magN tris) u phi =
      demagEnergy G H mu0 p Ms mtets (magTriJ (fun _ => false) magN tris) u phi
        - ((marked suppress magN tris).map fun f =>
            TriElem.demagEnergy H mu0 f.2 (nod3 p f.1) (nod3 u f.1) (fun i => phi (f.1.ind i))).sum := by
  refine ⟨?_, fun k => ?_, ?_⟩
  · unfold totalCharge
    rw [sum_split suppress]
    ring
  · rw [Potential.corr_eq H p u (magTriJ suppress magN tris) (fun f hf => hi f (List.mem_of_mem_filter hf)),
      Potential.corr_eq H p u (magTriJ (fun _ => false) magN tris) (fun f hf => hi f (List.mem_of_mem_filter hf)),
      sum_split suppress]
    ring
  · unfold demagEnergy
    rw [sum_split suppress]
    ring

/-- **C74** But the surface anisotropy of the marked surfaces is lost too: whatever constants are given for them, the right hand
side of the linear system and the anisotropy energy stay the same. -/
theorem C74_anisotropy_lost (H : TriElem.Rule) (sprm sprm' : ℕ → SurfPrm) (suppress : ℕ → Bool) (magN : List Bool)
    (tris : List (Tri × ℝ)) (h : ∀ r, suppress r = false → sprm r = sprm' r) (nod : ℕ) (nodes : ℕ → Node)
    (tetE : List (Elem 4 ℝ)) (p u : ℕ → V3) :
    llgRhs magN nod tetE ((magTriJ suppress magN tris).map (triElem H sprm nodes)) =
      llgRhs magN nod tetE ((magTriJ suppress magN tris).map (triElem H sprm' nodes)) ∧
    surfAniso H sprm p u (magTriJ suppress magN tris) = surfAniso H sprm' p u (magTriJ suppress magN tris) := by
  have hr : ∀ f ∈ magTriJ suppress magN tris, sprm f.1.reg = sprm' f.1.reg := by
    intro f hf
    have := List.of_mem_filter hf
    simp only [Bool.and_eq_true, Bool.not_eq_true'] at this
    exact h _ this.2
  constructor
  · congr 1
    refine List.map_congr_left fun f hf => ?_
    unfold triElem
    rw [hr f hf]
  · unfold surfAniso
    congr 1
    refine List.map_congr_left fun f hf => ?_
    rw [hr f hf]

/-- a velocity solves the equation of motion of the marked and of the unmarked mesh if and only if the surface anisotropy of
the marked surfaces exerts no torque -/
theorem C74_motion (G : Tetra.Rule) (H : TriElem.Rule) (prm : ℕ → Tetra.Prm) (sprm : ℕ → SurfPrm) (s : Tetra.Step) (magP : ℕ → Prop)
    (magN : List Bool) (tets : List Tet) (tris : List (Tri × ℝ)) (suppress : ℕ → Bool) (nodes : ℕ → Node)
    (Hext Hst : Tet → Fin G.n → V3) (dir : Option (Fin 3)) (V : ℝ) (v : ℕ → V3)
    (h : Holds G H prm sprm s magP tets (magTriJ suppress magN tris) nodes Hext Hst dir V v) :
    Holds G H prm sprm s magP tets (magTriJ (fun _ => false) magN tris) nodes Hext Hst dir V v ↔
      ∀ w : ℕ → V3, (∀ i, magP i → (w i).dot (nodes i).cur.u = 0) →
        ((marked suppress magN tris).map fun f => surfaceWork H (sprm f.1.reg) f.2 (fun i => (nodes (f.1.ind i)).p)
          (fun i => (nodes (f.1.ind i)).cur.u) (fun i => w (f.1.ind i))).sum = 0 := by
  constructor
  · intro h' w hw
    have e1 := h w hw
    have e2 := h' w hw
    rw [sum_split suppress] at e2
    linarith
  · intro h0 w hw
    rw [sum_split suppress, h0 w hw, add_zero]
    exact h w hw

/-! ## The claim fails: one face with surface anisotropy -/

noncomputable def exNode (i : ℕ) : Node :=
  ⟨if i = 1 then ⟨1, 0, 0⟩ else if i = 2 then ⟨0, 1, 0⟩ else if i = 3 then ⟨0, 0, 1⟩ else 0, 0, 0, ⟨⟨0, 0, 1⟩, 0, 0, 0⟩, ⟨⟨0, 0, 1⟩, 0, 0, 0⟩⟩

def exTri : Tri × ℝ := (⟨![0, 1, 2], 0⟩, 1)

noncomputable def exS (_ : ℕ) : SurfPrm := ⟨1, ⟨3 / 5, 0, 4 / 5⟩⟩

theorem ex_surf : TriElem.surf (fun i => (exNode (exTri.1.ind i)).p) = 1 / 2 := by
  unfold TriElem.surf TriElem.normalVect V3.norm V3.nsq
  simp [exNode, exTri, V3.cross]

/-- a test field -/
def exW : ℕ → V3 := fun _ => ⟨1, 0, 0⟩

theorem ex_work : surfaceWork TriElem.rule4 (exS 0) exTri.2 (fun i => (exNode (exTri.1.ind i)).p)
    (fun i => (exNode (exTri.1.ind i)).cur.u) (fun i => exW (exTri.1.ind i)) = 12 / 25 := by
  unfold surfaceWork TriElem.weight
  rw [ex_surf]
  simp only [TriElem.interpV, exNode, exW, exS, exTri, V3.dot, V3.sum_x, V3.sum_y, V3.sum_z, V3.smul_x, V3.smul_y, V3.smul_z]
  change _ * ∑ j : Fin 4, _ = _
  simp [Fin.sum_univ_four, Fin.sum_univ_three, TriElem.rule4, TriElem.Rule.a]
  norm_num

theorem ex_energy : TriElem.anisotropyEnergy TriElem.rule4 1 ⟨3 / 5, 0, 4 / 5⟩ (nod3 (fun i => (exNode i).p) exTri.1)
    (nod3 (fun i => (exNode i).cur.u) exTri.1) = -(8 / 25) := by
  have hs : TriElem.surf (nod3 (fun i => (exNode i).p) exTri.1) = 1 / 2 := ex_surf
  unfold TriElem.anisotropyEnergy TriElem.weight
  rw [hs]
  simp only [TriElem.interpV, exNode, nod3, exTri, V3.dot, V3.sum_x, V3.sum_y, V3.sum_z, V3.smul_x, V3.smul_y, V3.smul_z]
  change _ * ∑ j : Fin 4, _ = _
  simp [Fin.sum_univ_four, Fin.sum_univ_three, TriElem.rule4, TriElem.Rule.a]
  norm_num

/-- **C74, negation** On a face with surface anisotropy, marking the surface changes the anisotropy energy (from -8/25 to 0)
and the motion: with any volume parameters and fields no velocity solves both equations. -/
theorem C74_negation : ∃ (sprm : ℕ → SurfPrm) (magN : List Bool) (tris : List (Tri × ℝ)) (nodes : ℕ → Node),
    surfAniso TriElem.rule4 sprm (fun i => (nodes i).p) (fun i => (nodes i).cur.u) (magTriJ (fun _ => false) magN tris) = -(8 / 25) ∧
    surfAniso TriElem.rule4 sprm (fun i => (nodes i).p) (fun i => (nodes i).cur.u) (magTriJ (fun _ => true) magN tris) = 0 ∧
    ∀ (G : Tetra.Rule) (prm : ℕ → Tetra.Prm) (s : Tetra.Step) (tets : List Tet) (Hext Hst : Tet → Fin G.n → V3)
      (dir : Option (Fin 3)) (V : ℝ) (v : ℕ → V3),
      Holds G TriElem.rule4 prm sprm s (fun i => magN.getD i false = true) tets (magTriJ (fun _ => true) magN tris) nodes
        Hext Hst dir V v →
      ¬ Holds G TriElem.rule4 prm sprm s (fun i => magN.getD i false = true) tets (magTriJ (fun _ => false) magN tris) nodes
        Hext Hst dir V v := by
  refine ⟨exS, [true, true, true, true], [exTri], exNode, ?_, ?_, ?_⟩
  · have : magTriJ (fun _ => false) [true, true, true, true] [exTri] = [exTri] := by rfl
    rw [this]
    have h1 : (exS exTri.1.reg).Ks ≠ 0 := by simp [exS]
    unfold surfAniso
    rw [List.map_cons, List.map_nil, List.sum_cons, List.sum_nil, if_pos h1, add_zero]
    exact ex_energy
  · rfl
  · intro G prm s tets Hext Hst dir V v h h'
    have hm : marked (fun _ => true) [true, true, true, true] [exTri] = [exTri] := by rfl
    have := (C74_motion G TriElem.rule4 prm exS s _ [true, true, true, true] tets [exTri] (fun _ => true) exNode Hext Hst dir V v
      h).mp h' exW (fun i _ => by simp [exW, exNode, V3.dot])
    rw [hm, List.map_cons, List.map_nil, List.sum_cons, List.sum_nil, add_zero] at this
    have e := ex_work
    rw [show exS exTri.1.reg = exS 0 from rfl] at this
    rw [this] at e
    norm_num at e

/-- the hypothesis of C74_charges_partial is met by the triangle of the example, whose charge is not zero -/
example : (∀ f ∈ [exTri], Function.Injective f.1.ind) ∧ marked (fun _ => true) [true, true, true, true] [exTri] = [exTri] ∧
    exTri.2 ≠ 0 := by
  refine ⟨?_, rfl, by simp [exTri]⟩
  intro f hf
  rw [List.mem_singleton.mp hf]
  intro a b
  fin_cases a <;> fin_cases b <;> simp [exTri]

end Verif.Suppress
