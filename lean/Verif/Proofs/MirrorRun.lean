import Verif.Proofs.SimilarRun

/-!
# Attempts of a run for a sample seen in a mirror

A mirror image is the inversion through the origin after half a turn about the normal and a translation.
-/

namespace Verif

open Verif.Tetra

namespace Mirror

/-- half a turn about the normal of the mirror, and the translation that brings the images of the points back -/
def motion (R : Mirror) : Motion where
  a := R.axial ⟨1, 0, 0⟩
  b := R.axial ⟨0, 1, 0⟩
  c := R.axial ⟨0, 0, 1⟩
  d := -((2 * R.origin.dot R.normal) * R.normal)
  basis := by
    have h := R.unit
    simp only [V3.nsq] at h
    refine ⟨?_, ?_, ?_, ?_, ?_, ?_, ?_⟩
    · simp only [axial, V3.nsq, V3.dot, V3.sub_x, V3.sub_y, V3.sub_z, V3.smul_x, V3.smul_y, V3.smul_z]
      linear_combination 4 * R.normal.x ^ 2 * h
    · simp only [axial, V3.nsq, V3.dot, V3.sub_x, V3.sub_y, V3.sub_z, V3.smul_x, V3.smul_y, V3.smul_z]
      linear_combination 4 * R.normal.y ^ 2 * h
    · simp only [axial, V3.nsq, V3.dot, V3.sub_x, V3.sub_y, V3.sub_z, V3.smul_x, V3.smul_y, V3.smul_z]
      linear_combination 4 * R.normal.z ^ 2 * h
    · simp only [axial, V3.dot, V3.sub_x, V3.sub_y, V3.sub_z, V3.smul_x, V3.smul_y, V3.smul_z]
      linear_combination 4 * R.normal.x * R.normal.y * h
    · simp only [axial, V3.dot, V3.sub_x, V3.sub_y, V3.sub_z, V3.smul_x, V3.smul_y, V3.smul_z]
      linear_combination 4 * R.normal.y * R.normal.z * h
    · simp only [axial, V3.dot, V3.sub_x, V3.sub_y, V3.sub_z, V3.smul_x, V3.smul_y, V3.smul_z]
      linear_combination 4 * R.normal.z * R.normal.x * h
    · ext
      · simp only [axial, V3.cross, V3.dot, V3.sub_x, V3.sub_y, V3.sub_z, V3.smul_x, V3.smul_y, V3.smul_z]
        ring
      · simp only [axial, V3.cross, V3.dot, V3.sub_x, V3.sub_y, V3.sub_z, V3.smul_x, V3.smul_y, V3.smul_z]
        ring
      · simp only [axial, V3.cross, V3.dot, V3.sub_x, V3.sub_y, V3.sub_z, V3.smul_x, V3.smul_y, V3.smul_z]
        linear_combination -2 * h

theorem motion_vec (R : Mirror) (u : V3) : R.motion.vec u = R.axial u := by
  unfold Motion.vec motion axial
  ext <;> simp [V3.dot] <;> ring

theorem motion_pt (R : Mirror) (p : V3) : ((-1 : ℝ) * R.motion.pt p : V3) = R.point p := by
  unfold Motion.pt
  rw [motion_vec]
  unfold motion axial point
  ext <;> simp [V3.dot] <;> ring

end Mirror

namespace Run

open Verif.Mesh Verif.Assembly Verif.SparseMat Verif.Llg Verif.WeakForm Verif.TimeLoop

/-- nodes after a motion, with the same bases -/
def movedNodes {n : ℕ} (M : Motion) (a : Fin n → Node) : Fin n → Node := fun i =>
  ⟨M.pt (a i).p, (a i).ep, (a i).eq, M.data (a i).cur, M.data (a i).next⟩

theorem moved_movedNodes {n : ℕ} (M : Motion) (a : Fin n → Node) : Moved M a (movedNodes M a) := fun _ => ⟨rfl, rfl, rfl⟩

theorem alike_of_mirrored {n : ℕ} {R : Mirror} {S : Similarity n} (hr : S.ratio = -1) {a b : Fin n → Node} (h : Mirrored R S a b) :
    Alike S (movedNodes R.motion a) b := by
  intro i
  obtain ⟨h1, h2, h3⟩ := h i
  refine ⟨?_, ?_, ?_⟩
  · rw [h1, hr]
    exact (R.motion_pt _).symm
  · rw [h2]
    simp [Mirror.data, Similarity.data, movedNodes, Motion.data, R.motion_vec, hr]
  · rw [h3]
    simp [Mirror.data, Similarity.data, movedNodes, Motion.data, R.motion_vec, hr]

/-- the problem seen in a mirror: the axes of the materials are turned by half a turn about the normal, and the
elements are listed as `tets'` and `tris'` -/
abbrev Problem.mirrored {n : ℕ} (R : Mirror) (S : Similarity n) (P : Problem) (tets' : List Tet) (tris' : List (Tri × ℝ)) : Problem :=
  (P.moved R.motion).described S tets' tris'

/-- the world `W'` is the world `W` seen in the mirror: the fields, which are axial vectors, are the images of the fields, the
potentials have the opposite sign -/
structure World.Mirrored {n : ℕ} {P : Problem} (R : Mirror) (S : Similarity n) (tets' : List Tet) (tris' : List (Tri × ℝ))
    (W : World n P) (W' : World n (P.mirrored R S tets' tris')) : Prop where
  Hext : ∀ a b t, TimeLoop.Mirrored R S a b → ∀ e ∈ P.tets, ∀ j j', (∀ k, P.G.a (S.tet e k) j = P.G.a k j') →
    W'.Hext t b (S.tetOf e) j' = R.axial (W.Hext t a e j)
  Hst : ∀ a b t, TimeLoop.Mirrored R S a b → ∀ e ∈ P.tets, ∀ j j', (∀ k, P.G.a (S.tet e k) j = P.G.a k j') →
    W'.Hst t b (S.tetOf e) j' = R.axial (W.Hst t a e j)
  pot : ∀ a b, TimeLoop.Mirrored R S a b → ∀ i, W'.pot b (S.node i) = (-(W.pot a i).1, -(W.pot a i).2)

section
variable {n : ℕ} {ET ET' : Type} {P : Problem} {cfg : Cfg n ET} {cfg' : Cfg n ET'} {nodes nodes' : Fin n → Node} {S : Similarity n}
  {R : Mirror} {tets' : List Tet} {tris' : List (Tri × ℝ)}

/-- the velocity of the image is the image of the velocity -/
theorem moves_mirror (hr : S.ratio = -1) (hs : Start P cfg nodes) (hs' : Start (P.mirrored R S tets' tris') cfg' nodes')
    (hset : SameSettings cfg cfg') (hl : Relisted S (P.moved R.motion) tets' tris') (hn : Mirrored R S nodes nodes')
    (hd : P.dir = none) (hcub : ∀ r, P.mag r = true → (P.prm r).K3 = 0) {a b : Fin n → Node} (ha : Mirrored R S a b)
    (F : Fields P) (F' : Fields (P.mirrored R S tets' tris'))
    (hHext : ∀ e ∈ P.tets, ∀ j j', (∀ k, P.G.a (S.tet e k) j = P.G.a k j') → F'.Hext (S.tetOf e) j' = R.axial (F.Hext e j))
    (hHst : ∀ e ∈ P.tets, ∀ j j', (∀ k, P.G.a (S.tet e k) j = P.G.a k j') → F'.Hst (S.tetOf e) j' = R.axial (F.Hst e j))
    (dt : ℝ) (v : ℕ → V3) (h : Moves P cfg F a dt v) :
    Moves (P.mirrored R S tets' tris') cfg' F' b dt fun i => R.axial (v (S.num.symm i)) := by
  have hsm : Start (P.moved R.motion) cfg (movedNodes R.motion nodes) :=
    start_move hs (moved_movedNodes R.motion nodes) cfg.energy
  have hm := moves_move hs cfg.energy (moved_movedNodes R.motion a) hd
    (fun t ht => Or.inl (hcub _ (List.mem_filter.mp ht).2)) F 0 dt v h
  have hm' : Moves (P.moved R.motion) cfg (F.moved R.motion 0) (movedNodes R.motion a) dt fun i => R.motion.vec (v i) := hm
  have := moves_described hsm hs' hset hl (alike_of_mirrored hr hn) (alike_of_mirrored hr ha) (F.moved R.motion 0) F'
    (Or.inl hd) (fun e he j j' hj => (hHext e he j j' hj).trans (R.motion_vec _).symm)
    (fun e he j j' hj => (hHst e he j j' hj).trans (R.motion_vec _).symm) dt _ hm'
  have e : (fun i => R.motion.vec (v (S.num.symm i))) = fun i => R.axial (v (S.num.symm i)) :=
    funext fun i => R.motion_vec _
  rw [← e]
  exact this

theorem mirrored_setPot (hmag : ∀ i, cfg'.magNode (S.node i) = cfg.magNode i) {a b : Fin n → Node} (h : Mirrored R S a b)
    (pot pot' : Fin n → ℝ × ℝ) (hp : ∀ i, pot' (S.node i) = (-(pot i).1, -(pot i).2)) :
    Mirrored R S (setPot cfg.magNode pot a) (setPot cfg'.magNode pot' b) := by
  intro i
  obtain ⟨h1, h2, h3⟩ := h i
  unfold setPot
  rw [hmag]
  split_ifs
  · exact ⟨h1, h2, by dsimp only; rw [h3, hp]; rfl⟩
  · exact ⟨h1, h2, h3⟩

theorem mirrored_computeAll (hmag : ∀ i, cfg'.magNode (S.node i) = cfg.magNode i) {a b : Fin n → Node} (h : Mirrored R S a b)
    (pot pot' : Fin n → ℝ × ℝ) (hp : ∀ i, pot' (S.node i) = (-(pot i).1, -(pot i).2)) :
    Mirrored R S (computeAllNodes cfg.magNode pot a) (computeAllNodes cfg'.magNode pot' b) := by
  intro i
  obtain ⟨h1, h2, h3⟩ := mirrored_setPot hmag h pot pot' hp i
  exact ⟨h1, h3, h3⟩

/-- exact attempts from a state and its image give nodes and their images, and the same largest velocity -/
theorem solved_mirror (hr : S.ratio = -1) (hs : Start P cfg nodes) (hs' : Start (P.mirrored R S tets' tris') cfg' nodes')
    (hset : SameSettings cfg cfg') (hl : Relisted S (P.moved R.motion) tets' tris') (hn : Mirrored R S nodes nodes')
    (hd : P.dir = none) (hcub : ∀ r, P.mag r = true → (P.prm r).K3 = 0) (hv : Valid cfg) (hv' : Valid cfg')
    (hU : RecenterKeepsUnit cfg) (hN : RecenterKeepsNext cfg) (hU' : RecenterKeepsUnit cfg') (hN' : RecenterKeepsNext cfg')
    (t0 : ℝ) (pot pot' : Fin n → ℝ × ℝ) (inp inp' : ℕ → Input n) (k : ℕ)
    (ha : Mirrored R S (run cfg t0 nodes pot inp k).nodes (run cfg' t0 nodes' pot' inp' k).nodes)
    (F : Fields P) (F' : Fields (P.mirrored R S tets' tris'))
    (hHext : ∀ e ∈ P.tets, ∀ j j', (∀ k, P.G.a (S.tet e k) j = P.G.a k j') → F'.Hext (S.tetOf e) j' = R.axial (F.Hext e j))
    (hHst : ∀ e ∈ P.tets, ∀ j j', (∀ k, P.G.a (S.tet e k) j = P.G.a k j') → F'.Hst (S.tetOf e) j' = R.axial (F.Hst e j))
    (dt : ℝ) (hpos : 0 < dt) (X X' : Fin n → ℝ × ℝ) (A A' : Sp ℝ) (b b' : List ℝ)
    (h1 : IsSystem P cfg F (baseProjection (inp k).r (run cfg t0 nodes pot inp k).nodes) dt A b) (e1 : A.mult (unknowns X) = b)
    (h2 : IsSystem (P.mirrored R S tets' tris') cfg' F'
      (baseProjection (inp' k).r (run cfg' t0 nodes' pot' inp' k).nodes) dt A' b')
    (e2 : A'.mult (unknowns X') = b') :
    Mirrored R S (solvedNodes cfg (inp k) X dt (run cfg t0 nodes pot inp k))
      (solvedNodes cfg' (inp' k) X' dt (run cfg' t0 nodes' pot' inp' k)) ∧
    vMax cfg.gamma0 cfg'.magNode X' = vMax cfg.gamma0 cfg.magNode X := by
  have hmag : ∀ i, cfg'.magNode (S.node i) = cfg.magNode i :=
    magNode_described (cfg := cfg) (start_move hs (moved_movedNodes R.motion nodes) cfg.energy) hs' hl
  obtain ⟨m1, -⟩ := exact_velocity hs hv hU hN t0 pot inp k F (inp k).r dt hpos X A b h1 e1
  obtain ⟨-, m2⟩ := exact_velocity hs' hv' hU' hN' t0 pot' inp' k F' (inp' k).r dt hpos X' A' b' h2 e2
  have hvel0 := m2 _ (moves_mirror hr hs hs' hset hl hn hd hcub ha F F' hHext hHst dt _ m1)
  have hsym : ∀ i : Fin n, S.num.symm (S.node i : Fin n) = (i : ℕ) := fun i => by simp [Similarity.node]
  have hvel : ∀ i : Fin n, cfg.magNode i = true →
      R.motion.vec (ofComp (ext (baseProjection (inp k).r (run cfg t0 nodes pot inp k).nodes)) (unknowns X) i) =
      ofComp (ext (baseProjection (inp' k).r (run cfg' t0 nodes' pot' inp' k).nodes)) (unknowns X') (S.node i) := by
    intro i hi
    have := hvel0 (S.node i) ((hmag i).trans hi)
    rw [hsym] at this
    rw [R.motion_vec]
    exact this
  constructor
  · intro i
    obtain ⟨a1, a2, a3⟩ := ha i
    cases hi : cfg.magNode i with
    | false =>
      have hi' := (hmag i).trans hi
      simp only [solvedNodes, updateNodes, hi, hi', Bool.false_eq_true, if_false]
      exact ⟨a1, a2, a3⟩
    | true =>
      have hi' := (hmag i).trans hi
      obtain ⟨b1, b2⟩ := solved_eq t0 pot inp k i X dt hi (nodes := nodes)
      obtain ⟨c1, c2⟩ := solved_eq t0 pot' inp' k (S.node i) X' dt hi' (nodes := nodes')
      have d1 : ∀ s : St n ET, (solvedNodes cfg (inp k) X dt s i).next =
          { (s.nodes i).next with
            u := (solvedNodes cfg (inp k) X dt s i).next.u
            v := (solvedNodes cfg (inp k) X dt s i).next.v } := by
        intro s
        simp only [solvedNodes, updateNodes, hi, if_true]
        rfl
      have d2 : ∀ s' : St n ET', (solvedNodes cfg' (inp' k) X' dt s' (S.node i)).next =
          { (s'.nodes (S.node i)).next with
            u := (solvedNodes cfg' (inp' k) X' dt s' (S.node i)).next.u
            v := (solvedNodes cfg' (inp' k) X' dt s' (S.node i)).next.v } := by
        intro s'
        simp only [solvedNodes, updateNodes, hi', if_true]
        rfl
      refine ⟨?_, ?_, ?_⟩
      · simp only [solvedNodes, updateNodes, hi, hi', if_true]
        exact a1
      · simp only [solvedNodes, updateNodes, hi, hi', if_true]
        exact a2
      · rw [d1, d2, b1, b2, c1, c2, ← hvel i hi, a2, a3, hset.gamma0]
        unfold Mirror.data
        dsimp only
        simp only [← R.motion_vec]
        rw [R.motion.vec_smul, ← R.motion.vec_normalize, R.motion.vec_add, R.motion.vec_smul]
  · unfold vMax
    rw [v2max_described hmag fun i hi => ?_]
    have hu := (allUnit_run hU t0 nodes pot inp hs.unit k i hi).1
    have hu' := (allUnit_run hU' t0 nodes' pot' inp' hs'.unit k (S.node i) ((hmag i).trans hi)).1
    rw [isUnit3_iff] at hu hu'
    rw [← comp_nsq (inp k).r _ X i hu, ← comp_nsq (inp' k).r _ X' (S.node i) hu', ← hvel i hi, R.motion.vec_nsq]

/-- a run and the run of the image go hand in hand -/
theorem mirrored_run (R : Mirror) (S : Similarity n) (hr : S.ratio = -1) (hs : Start P cfg nodes)
    (hs' : Start (P.mirrored R S tets' tris') cfg' nodes') (hset : SameSettings cfg cfg')
    (hl : Relisted S (P.moved R.motion) tets' tris') (hn : Mirrored R S nodes nodes')
    (hd : P.dir = none) (hcub : ∀ r, P.mag r = true → (P.prm r).K3 = 0) (hv : Valid cfg)
    (hU : RecenterKeepsUnit cfg) (hN : RecenterKeepsNext cfg) (hU' : RecenterKeepsUnit cfg') (hN' : RecenterKeepsNext cfg')
    {Ok : (Fin n → Node) → Prop} (hR : KeepsRecenter cfg cfg' (Mirrored R S) Ok) (Q : ET → ET' → Prop)
    (hE : ∀ a b t, Mirrored R S a b → Q (cfg.energy a t) (cfg'.energy b t))
    (W : World n P) (W' : World n (P.mirrored R S tets' tris')) (hW : World.Mirrored R S tets' tris' W W') (V V' : ℕ → ℝ)
    (t0 : ℝ) (inp inp' : ℕ → Input n)
    (h : ExactRun P cfg W V t0 nodes inp) (h' : ExactRun (P.mirrored R S tets' tris') cfg' W' V' t0 nodes' inp')
    (hsig : ∀ k, (inp k).sig = (inp' k).sig) (hfail : ∀ k, (inp k).sol = none ↔ (inp' k).sol = none)
    (hOk : ∀ k a, KeptNodes cfg t0 (inp k) (run cfg t0 nodes (W.pot nodes) inp k) a → Ok a) (k : ℕ) :
    Coupled (Mirrored R S) (MirroredU R S) Q (run cfg t0 nodes (W.pot nodes) inp k)
      (run cfg' t0 nodes' (W'.pot nodes') inp' k) := by
  have hmag : ∀ i, cfg'.magNode (S.node i) = cfg.magNode i :=
    magNode_described (cfg := cfg) (start_move hs (moved_movedNodes R.motion nodes) cfg.energy) hs' hl
  have hv' : Valid cfg' := ⟨by rw [hset.DTMIN]; exact hv.dtmin, by rw [hset.DTMIN, hset.DTMAX]; exact hv.dtmax,
    by rw [hset.timeStep]; exact hv.tstep, by rw [hset.DUMAX]; exact hv.dumax,
    by rw [hset.DTMIN, hset.add]; exact hv.addErr⟩
  induction k with
  | zero =>
    have hpot := hW.pot _ _ hn
    exact coupled_init hset t0 _ _ (mirrored_computeAll hmag hn _ _ hpot) (hE _ _ _ (mirrored_setPot hmag hn _ _ hpot))
  | succ k ih =>
    refine coupled_step hset (fun a b hab i => ?_) (fun a b r r' hab i => ?_) hR t0 (inp k) (inp' k) (hsig k) (hfail k) _ _ ih (hOk k) ?_
    · dsimp only
      rw [(hab i).2.2]
      rfl
    · exact hab i
    · intro hat hat' hdm X X' hsol hsol'
      have hdt := hset.attDt ih t0
      obtain ⟨A, b, a1, a2⟩ := h.exact k X hat hdm hsol
      obtain ⟨A', b', a1', a2'⟩ := h'.exact k X' hat' (by rw [hdt, hset.DTMIN]; exact hdm) hsol'
      rw [hdt] at a1'
      obtain ⟨g1, g2⟩ := solved_mirror hr hs hs' hset hl hn hd hcub hv hv' hU hN hU' hN' t0 _ _ inp inp' k ih.nodes _ _
        (fun e he j j' hj => by rw [ih.t]; exact hW.Hext _ _ _ ih.nodes e he j j' hj)
        (fun e he j j' hj => by rw [ih.t]; exact hW.Hst _ _ _ ih.nodes e he j j' hj)
        _ (hv.dtmin.trans_le hdm) X X' A A' b b' a1 a2 a1' a2'
      have hpot : ∀ i, (inp' k).pot (S.node i) = (-((inp k).pot i).1, -((inp k).pot i).2) := by
        rw [h.pot k X hat hsol, h'.pot k X' hat' hsol', hdt]
        exact hW.pot _ _ g1
      exact ⟨g1, g2, mirrored_computeAll hmag g1 _ _ hpot, hE _ _ _ (mirrored_setPot hmag g1 _ _ hpot)⟩

end

end Run
end Verif
