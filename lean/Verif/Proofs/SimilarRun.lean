import Verif.Proofs.Similar
import Verif.Proofs.Couple
import Verif.Props.Motion

/-!
# Attempts of a run for two descriptions of a sample
-/

namespace Verif.Run

open Verif.Mesh Verif.Assembly Verif.Tetra Verif.SparseMat Verif.Llg Verif.WeakForm Verif.TimeLoop

/-- the problem in the new description, with the elements listed as `tets'` and `tris'` -/
def Problem.described {n : ℕ} (S : Similarity n) (P : Problem) (tets' : List Tet) (tris' : List (Tri × ℝ)) : Problem :=
  { P with prm := fun r => S.prm (P.prm r), sprm := fun r => S.sprm (P.sprm r), tets := tets', tris := tris' }

/-- the same elements in another order -/
structure Relisted {n : ℕ} (S : Similarity n) (P : Problem) (tets' : List Tet) (tris' : List (Tri × ℝ)) : Prop where
  tets : tets'.Perm (P.tets.map S.tetOf)
  tris : tris'.Perm (P.tris.map S.triOf)
  /-- triangles with a surface anisotropy keep their sense of rotation about the outward normal -/
  sense : ∀ f ∈ P.tris, (P.sprm f.1.reg).Ks = 0 ∨ S.sense f = 1
  /-- quadrature of triangles as compiled -/
  rule : P.H = TriElem.rule1 ∨ P.H = TriElem.rule4

/-- the world `W'` is the world `W` for the new description: the same fields at the same Gauss points, the potentials
multiplied by the ratio of lengths -/
structure World.Described {n : ℕ} {P : Problem} (S : Similarity n) (tets' : List Tet) (tris' : List (Tri × ℝ)) (W : World n P)
    (W' : World n (P.described S tets' tris')) : Prop where
  Hext : ∀ a b t, Alike S a b → ∀ e ∈ P.tets, ∀ j j', (∀ k, P.G.a (S.tet e k) j = P.G.a k j') →
    W'.Hext t b (S.tetOf e) j' = W.Hext t a e j
  Hst : ∀ a b t, Alike S a b → ∀ e ∈ P.tets, ∀ j j', (∀ k, P.G.a (S.tet e k) j = P.G.a k j') →
    W'.Hst t b (S.tetOf e) j' = W.Hst t a e j
  pot : ∀ a b, Alike S a b → ∀ i, W'.pot b (S.node i) = (S.ratio * (W.pot a i).1, S.ratio * (W.pot a i).2)

theorem cube_sg {c s : ℝ} (hs : s = 1 ∨ s = -1) (h : 0 < c ^ 3 * s) : c ^ 3 * s = |c| ^ 3 := by
  rw [← abs_of_pos h, abs_mul, abs_pow]
  rcases hs with rfl | rfl <;> norm_num

theorem sense_cases {n : ℕ} (S : Similarity n) (f : Tri × ℝ) : S.sense f = 1 ∨ S.sense f = -1 := by
  unfold Similarity.sense
  have h2 : (((Equiv.Perm.sign (S.tri f) : ℤ) : ℝ) = 1 ∨ ((Equiv.Perm.sign (S.tri f) : ℤ) : ℝ) = -1) := Similarity.sg_cases (S.tri f)
  have h1 : ((SignType.sign S.ratio : SignType) : ℝ) = 1 ∨ ((SignType.sign S.ratio : SignType) : ℝ) = -1 := by
    rcases lt_or_gt_of_ne S.ne with h | h
    · right
      rw [sign_neg h]
      simp
    · left
      rw [sign_pos h]
      simp
  rcases h1 with h1 | h1 <;> rcases h2 with h2 | h2 <;> rw [h1, h2] <;> norm_num

/-- the weak form in the new description -/
theorem holds_described {n : ℕ} (S : Similarity n) {G : Rule} (hG : Compiled G) {H : TriElem.Rule}
    (hH : H = TriElem.rule1 ∨ H = TriElem.rule4) {prm : ℕ → Prm} {sprm : ℕ → SurfPrm} {s : Step} {mag : ℕ → Bool}
    {magN magN' : ℕ → Prop} {tets tets' : List Tet} {tris tris' : List (Tri × ℝ)} {nodes nodes' : ℕ → Node}
    {Hext Hst Hext' Hst' : Tet → Fin G.n → V3} {dir : Option (Fin 3)} {V V' : ℝ} (hV : dir = none ∨ V' = S.ratio * V)
    {v : ℕ → V3} (hm : ∀ i, magN i → magN' (S.num i)) (hmu : ∀ i, magN i → (nodes' (S.num i)).cur.u = (nodes i).cur.u)
    (htets : tets'.Perm (tets.map S.tetOf)) (htris : tris'.Perm (tris.map S.triOf))
    (hsense : ∀ f ∈ tris, (sprm f.1.reg).Ks = 0 ∨ S.sense f = 1)
    (horient : ∀ t ∈ magTet mag tets, 0 < S.ratio ^ 3 * Similarity.sg (S.tet t))
    (ht : ∀ t ∈ magTet mag tets, ∀ k, (nodes' (S.num (t.ind k))).p = S.ratio * (nodes (t.ind k)).p ∧
      (nodes' (S.num (t.ind k))).cur = S.data (nodes (t.ind k)).cur)
    (hf : ∀ f ∈ tris, ∀ k, (nodes' (S.num (f.1.ind k))).p = S.ratio * (nodes (f.1.ind k)).p ∧
      (nodes' (S.num (f.1.ind k))).cur = S.data (nodes (f.1.ind k)).cur)
    (hHext : ∀ t ∈ magTet mag tets, ∀ j j', (∀ k, G.a (S.tet t k) j = G.a k j') → Hext' (S.tetOf t) j' = Hext t j)
    (hHst : ∀ t ∈ magTet mag tets, ∀ j j', (∀ k, G.a (S.tet t k) j = G.a k j') → Hst' (S.tetOf t) j' = Hst t j)
    (h : Holds G H prm sprm s magN (magTet mag tets) tris nodes Hext Hst dir V v) :
    Holds G H (fun r => S.prm (prm r)) (fun r => S.sprm (sprm r)) s magN' (magTet mag tets') tris' nodes' Hext' Hst' dir V'
      fun i => v (S.num.symm i) := by
  intro w hw
  have h' := h (fun i => w (S.num i)) (by
    intro i hi
    have := hw _ (hm i hi)
    rw [hmu i hi] at this
    exact this)
  have e1 : (magTet mag tets').Perm ((magTet mag tets).map S.tetOf) := by
    have := htets.filter fun t => mag t.reg
    refine this.trans (List.Perm.of_eq ?_)
    unfold magTet
    rw [List.filter_map]
    rfl
  rw [(e1.map _).sum_eq, (htris.map _).sum_eq, List.map_map, List.map_map]
  have hl : ∀ t ∈ magTet mag tets, WeakForm.residual G (S.prm (prm (S.tetOf t).reg)) s (nodalOf nodes' (S.tetOf t))
      (Hext' (S.tetOf t)) (Hst' (S.tetOf t)) dir V' (fun i => v (S.num.symm ((S.tetOf t).ind i)))
      (fun i => w ((S.tetOf t).ind i)) = |S.ratio| ^ 3 * WeakForm.residual G (prm t.reg) s (nodalOf nodes t) (Hext t) (Hst t) dir V
        (fun i => v (t.ind i)) (fun i => w (S.num (t.ind i))) := by
    intro t htt
    obtain ⟨π, hπ⟩ := Similarity.gaussT G hG (S.tet t)
    have a1 : Hext' (S.tetOf t) = fun j => Hext t (π j) := funext fun j => hHext t htt _ _ fun k => hπ.a k j
    have a2 : Hst' (S.tetOf t) = fun j => Hst t (π j) := funext fun j => hHst t htt _ _ fun k => hπ.a k j
    have a3 : nodalOf nodes' (S.tetOf t) = Similarity.nodal S.ratio (S.tet t) (nodalOf nodes t)
        (fun i => (nodes' ((S.tetOf t).ind i)).ep) (fun i => (nodes' ((S.tetOf t).ind i)).eq) := by
      unfold nodalOf Similarity.nodal Similarity.scaled Similarity.tetOf
      simp only [ht t htt, Similarity.data]
    have a4 : (fun i => v (S.num.symm ((S.tetOf t).ind i))) = fun k => v (t.ind (S.tet t k)) := by
      funext k
      simp [Similarity.tetOf]
    rw [a1, a2, a3, a4, ← cube_sg (Similarity.sg_cases (S.tet t)) (horient t htt)]
    exact Similarity.residual_scaled S.ne hπ (prm t.reg) s (nodalOf nodes t) _ _ (Hext t) (Hst t) dir V V' hV
      (fun i => v (t.ind i)) (fun i => w (S.num (t.ind i)))
  have hr : ∀ f ∈ tris, surfaceWork H (S.sprm (sprm (S.triOf f).1.reg)) (S.triOf f).2 (fun i => (nodes' ((S.triOf f).1.ind i)).p)
      (fun i => (nodes' ((S.triOf f).1.ind i)).cur.u) (fun i => w ((S.triOf f).1.ind i)) =
      |S.ratio| ^ 3 * surfaceWork H (sprm f.1.reg) f.2 (fun i => (nodes (f.1.ind i)).p) (fun i => (nodes (f.1.ind i)).cur.u)
        (fun i => w (S.num (f.1.ind i))) := by
    intro f hff
    obtain ⟨π, hπ⟩ := Similarity.gaussF H hH (S.tri f)
    have b1 : (fun i => (nodes' ((S.triOf f).1.ind i)).p) = Similarity.scaled S.ratio (S.tri f) fun i => (nodes (f.1.ind i)).p := by
      funext k
      exact (hf f hff _).1
    have b2 : (fun i => (nodes' ((S.triOf f).1.ind i)).cur.u) = fun k => (fun i => (nodes (f.1.ind i)).cur.u) (S.tri f k) := by
      funext k
      exact (congrArg DataNode.u (hf f hff (S.tri f k)).2 :)
    have key := Similarity.surfaceWork_scaled hπ S.ratio (sprm f.1.reg) f.2 (S.sense f) (sense_cases S f)
      (fun i => (nodes (f.1.ind i)).p) (fun i => (nodes (f.1.ind i)).cur.u) (fun i => w (S.num (f.1.ind i)))
    rw [b1, b2]
    refine key.trans ?_
    rcases hsense f hff with hK | hS
    · have : surfaceWork H (sprm f.1.reg) f.2 (fun i => (nodes (f.1.ind i)).p) (fun i => (nodes (f.1.ind i)).cur.u)
          (fun i => w (S.num (f.1.ind i))) = 0 := by
        unfold surfaceWork
        rw [hK]
        simp
      rw [this, mul_zero, mul_zero]
    · rw [hS, one_mul]
  have hL : ((magTet mag tets).map ((fun t => WeakForm.residual G (S.prm (prm t.reg)) s (nodalOf nodes' t)
      (Hext' t) (Hst' t) dir V' (fun i => v (S.num.symm (t.ind i))) (fun i => w (t.ind i))) ∘ S.tetOf)) =
      (magTet mag tets).map fun t => |S.ratio| ^ 3 * WeakForm.residual G (prm t.reg) s (nodalOf nodes t) (Hext t) (Hst t) dir V
        (fun i => v (t.ind i)) (fun i => w (S.num (t.ind i))) := List.map_congr_left hl
  have hR : (tris.map ((fun f => surfaceWork H (S.sprm (sprm f.1.reg)) f.2 (fun i => (nodes' (f.1.ind i)).p)
      (fun i => (nodes' (f.1.ind i)).cur.u) (fun i => w (f.1.ind i))) ∘ S.triOf)) =
      tris.map fun f => |S.ratio| ^ 3 * surfaceWork H (sprm f.1.reg) f.2 (fun i => (nodes (f.1.ind i)).p)
        (fun i => (nodes (f.1.ind i)).cur.u) (fun i => w (S.num (f.1.ind i))) := List.map_congr_left hr
  rw [hL, hR, List.sum_map_mul_left, List.sum_map_mul_left, h']

theorem node_surj {n : ℕ} (S : Similarity n) (i : Fin n) : ∃ j, S.node j = i := by
  have h : S.num.symm i < n := by
    rw [← S.range, Equiv.apply_symm_apply]
    exact i.2
  exact ⟨⟨_, h⟩, Fin.ext (by simp [Similarity.node])⟩

section
variable {n : ℕ} {ET ET' : Type} {P : Problem} {cfg : Cfg n ET} {cfg' : Cfg n ET'} {nodes nodes' : Fin n → Node} {S : Similarity n}
  {tets' : List Tet} {tris' : List (Tri × ℝ)}

theorem magNode_described (hs : Start P cfg nodes) (hs' : Start (P.described S tets' tris') cfg' nodes')
    (hl : Relisted S P tets' tris') (i : Fin n) : cfg'.magNode (S.node i) = cfg.magNode i := by
  rw [Bool.eq_iff_iff, hs.magNode, hs'.magNode]
  constructor
  · rintro ⟨t', ht', hm, k, hk⟩
    obtain ⟨t, ht, rfl⟩ := List.mem_map.mp (hl.tets.mem_iff.mp ht')
    exact ⟨t, ht, hm, S.tet t k, S.num.injective hk⟩
  · rintro ⟨t, ht, hm, k, hk⟩
    refine ⟨S.tetOf t, hl.tets.mem_iff.mpr (List.mem_map.mpr ⟨t, ht, rfl⟩), hm, (S.tet t).symm k, ?_⟩
    simp only [Similarity.tetOf, Equiv.apply_symm_apply, hk]
    rfl

theorem orient_described (hs : Start P cfg nodes) (hs' : Start (P.described S tets' tris') cfg' nodes')
    (hl : Relisted S P tets' tris') (ha : Alike S nodes nodes') (t : Tet) (ht : t ∈ P.tets) :
    0 < S.ratio ^ 3 * Similarity.sg (S.tet t) := by
  have h1 := hs.oriented t ht
  have h2 := hs'.oriented (S.tetOf t) (hl.tets.mem_iff.mpr (List.mem_map.mpr ⟨t, ht, rfl⟩))
  have e : MeshElem.nod4 (fun i => (ext nodes' i).p) (S.tetOf t) =
      Similarity.scaled S.ratio (S.tet t) (MeshElem.nod4 (fun i => (ext nodes i).p) t) := by
    funext k
    have hk := hs.valid t ht (S.tet t k)
    have hk' := (S.range _).mpr hk
    unfold MeshElem.nod4 ext Similarity.scaled Similarity.tetOf
    dsimp only
    rw [dif_pos hk, dif_pos hk']
    exact (ha ⟨_, hk⟩).1
  rw [e, Similarity.detJ_scaled] at h2
  exact (mul_pos_iff_of_pos_right h1).mp h2

/-- the velocity in the new description -/
theorem moves_described (hs : Start P cfg nodes) (hs' : Start (P.described S tets' tris') cfg' nodes')
    (hset : SameSettings cfg cfg') (hl : Relisted S P tets' tris') (hn : Alike S nodes nodes') {a b : Fin n → Node}
    (ha : Alike S a b) (F : Fields P) (F' : Fields (P.described S tets' tris')) (hV : P.dir = none ∨ F'.V = S.ratio * F.V)
    (hHext : ∀ e ∈ P.tets, ∀ j j', (∀ k, P.G.a (S.tet e k) j = P.G.a k j') → F'.Hext (S.tetOf e) j' = F.Hext e j)
    (hHst : ∀ e ∈ P.tets, ∀ j j', (∀ k, P.G.a (S.tet e k) j = P.G.a k j') → F'.Hst (S.tetOf e) j' = F.Hst e j)
    (dt : ℝ) (v : ℕ → V3) (h : Moves P cfg F a dt v) :
    Moves (P.described S tets' tris') cfg' F' b dt fun i => v (S.num.symm i) := by
  have hmag := magNode_described hs hs' hl
  have key : ∀ i, i < n → (ext b (S.num i)).p = S.ratio * (ext a i).p ∧ (ext b (S.num i)).cur = S.data (ext a i).cur := by
    intro i hi
    unfold ext
    rw [dif_pos hi, dif_pos ((S.range i).mpr hi)]
    exact ⟨(ha ⟨i, hi⟩).1, (ha ⟨i, hi⟩).2.1⟩
  have hstep : (P.described S tets' tris').step cfg' dt = P.step cfg dt := by
    unfold Problem.step
    rw [hset.gamma0, hset.DTMAX]
    rfl
  refine ⟨fun i hi => ?_, ?_⟩
  · obtain ⟨j, rfl⟩ := node_surj S i
    rw [hmag] at hi
    rw [(ha j).2.1]
    have : S.num.symm (S.node j : Fin n) = (j : ℕ) := by simp [Similarity.node]
    dsimp only
    rw [this]
    exact h.1 j hi
  · rw [hstep]
    refine holds_described S hs.rule hl.rule hV (fun i hi => ?_) (fun i hi => ?_) hl.tets hl.tris hl.sense
      (fun t ht => orient_described hs hs' hl hn t (List.mem_filter.mp ht).1)
      (fun t ht k => key _ (hs.valid t (List.mem_filter.mp ht).1 k)) (fun f hf k => key _ (hs.triValid f hf k))
      (fun t ht => hHext t (List.mem_filter.mp ht).1) (fun t ht => hHst t (List.mem_filter.mp ht).1) h.2
    · have hi' := magNode_lt hi
      have h1 := (magNode_getD hs ⟨i, hi'⟩).mp hi
      rw [← hmag] at h1
      exact (magNode_getD hs' _).mpr h1
    · rw [(key i (magNode_lt hi)).2]
      rfl

theorem alike_setPot (hmag : ∀ i, cfg'.magNode (S.node i) = cfg.magNode i) {a b : Fin n → Node} (h : Alike S a b)
    (pot pot' : Fin n → ℝ × ℝ) (hp : ∀ i, pot' (S.node i) = (S.ratio * (pot i).1, S.ratio * (pot i).2)) :
    Alike S (setPot cfg.magNode pot a) (setPot cfg'.magNode pot' b) := by
  intro i
  obtain ⟨h1, h2, h3⟩ := h i
  unfold setPot
  rw [hmag]
  split_ifs
  · exact ⟨h1, h2, by dsimp only; rw [h3, hp]; rfl⟩
  · exact ⟨h1, h2, h3⟩

theorem alike_computeAll (hmag : ∀ i, cfg'.magNode (S.node i) = cfg.magNode i) {a b : Fin n → Node} (h : Alike S a b)
    (pot pot' : Fin n → ℝ × ℝ) (hp : ∀ i, pot' (S.node i) = (S.ratio * (pot i).1, S.ratio * (pot i).2)) :
    Alike S (computeAllNodes cfg.magNode pot a) (computeAllNodes cfg'.magNode pot' b) := by
  intro i
  obtain ⟨h1, h2, h3⟩ := alike_setPot hmag h pot pot' hp i
  exact ⟨h1, h3, h3⟩

theorem v2max_described (hmag : ∀ i, cfg'.magNode (S.node i) = cfg.magNode i) {X X' : Fin n → ℝ × ℝ}
    (h : ∀ i, cfg.magNode i = true → (X' (S.node i)).1 * (X' (S.node i)).1 + (X' (S.node i)).2 * (X' (S.node i)).2 =
      (X i).1 * (X i).1 + (X i).2 * (X i).2) : v2max cfg'.magNode X' = v2max cfg.magNode X := by
  apply le_antisymm
  · rcases v2max_attained cfg'.magNode X' with e | ⟨i, hi, e⟩
    · rw [e]
      exact v2max_nonneg _ _
    · obtain ⟨j, rfl⟩ := node_surj S i
      rw [hmag] at hi
      rw [e, h j hi]
      exact v2max_ge _ _ _ hi
  · rcases v2max_attained cfg.magNode X with e | ⟨i, hi, e⟩
    · rw [e]
      exact v2max_nonneg _ _
    · rw [e, ← h i hi]
      exact v2max_ge _ _ _ ((hmag i).trans hi)

/-- the components of a velocity in a tangent basis have its length -/
theorem comp_nsq (r : ℝ) (nd : Fin n → Node) (Y : Fin n → ℝ × ℝ) (i : Fin n) (hu : (nd i).cur.u.nsq = 1) :
    (ofComp (ext (baseProjection r nd)) (unknowns Y) i).nsq = (Y i).1 * (Y i).1 + (Y i).2 * (Y i).2 := by
  obtain ⟨c1, c2, -, c4, -⟩ := Node.setBasis_spec (2 / Real.pi * r) (nd i) hu
  unfold ofComp
  rw [unknowns_even, unknowns_odd, ext_fin]
  change ((Y i).1 * ((nd i).setBasis (2 / Real.pi * r)).ep + (Y i).2 * ((nd i).setBasis (2 / Real.pi * r)).eq).nsq = _
  rw [Node.nsq_tangent c1 c2 c4]
  ring

/-- exact attempts from the same state give the same nodes and the same largest velocity -/
theorem solved_described (hs : Start P cfg nodes) (hs' : Start (P.described S tets' tris') cfg' nodes')
    (hset : SameSettings cfg cfg') (hl : Relisted S P tets' tris') (hn : Alike S nodes nodes') (hv : Valid cfg) (hv' : Valid cfg')
    (hU : RecenterKeepsUnit cfg) (hN : RecenterKeepsNext cfg) (hU' : RecenterKeepsUnit cfg') (hN' : RecenterKeepsNext cfg') (t0 : ℝ) (pot pot' : Fin n → ℝ × ℝ) (inp inp' : ℕ → Input n) (k : ℕ)
    (ha : Alike S (run cfg t0 nodes pot inp k).nodes (run cfg' t0 nodes' pot' inp' k).nodes)
    (F : Fields P) (F' : Fields (P.described S tets' tris')) (hV : P.dir = none ∨ F'.V = S.ratio * F.V)
    (hHext : ∀ e ∈ P.tets, ∀ j j', (∀ k, P.G.a (S.tet e k) j = P.G.a k j') → F'.Hext (S.tetOf e) j' = F.Hext e j)
    (hHst : ∀ e ∈ P.tets, ∀ j j', (∀ k, P.G.a (S.tet e k) j = P.G.a k j') → F'.Hst (S.tetOf e) j' = F.Hst e j)
    (dt : ℝ) (hpos : 0 < dt) (X X' : Fin n → ℝ × ℝ) (A A' : Sp ℝ) (b b' : List ℝ)
    (h1 : IsSystem P cfg F (baseProjection (inp k).r (run cfg t0 nodes pot inp k).nodes) dt A b) (e1 : A.mult (unknowns X) = b)
    (h2 : IsSystem (P.described S tets' tris') cfg' F'
      (baseProjection (inp' k).r (run cfg' t0 nodes' pot' inp' k).nodes) dt A' b')
    (e2 : A'.mult (unknowns X') = b') :
    Alike S (solvedNodes cfg (inp k) X dt (run cfg t0 nodes pot inp k))
      (solvedNodes cfg' (inp' k) X' dt (run cfg' t0 nodes' pot' inp' k)) ∧
    vMax cfg.gamma0 cfg'.magNode X' = vMax cfg.gamma0 cfg.magNode X := by
  have hmag := magNode_described hs hs' hl
  obtain ⟨m1, -⟩ := exact_velocity hs hv hU hN t0 pot inp k F (inp k).r dt hpos X A b h1 e1
  obtain ⟨-, m2⟩ := exact_velocity hs' hv' hU' hN' t0 pot' inp' k F' (inp' k).r dt hpos X' A' b' h2 e2
  have hvel0 := m2 _ (moves_described hs hs' hset hl hn ha F F' hV hHext hHst dt _ m1)
  have hsym : ∀ i : Fin n, S.num.symm (S.node i : Fin n) = (i : ℕ) := fun i => by simp [Similarity.node]
  have hvel : ∀ i : Fin n, cfg.magNode i = true →
      ofComp (ext (baseProjection (inp k).r (run cfg t0 nodes pot inp k).nodes)) (unknowns X) i =
      ofComp (ext (baseProjection (inp' k).r (run cfg' t0 nodes' pot' inp' k).nodes)) (unknowns X') (S.node i) := by
    intro i hi
    have := hvel0 (S.node i) ((hmag i).trans hi)
    rw [hsym] at this
    exact this
  constructor
  · intro i
    obtain ⟨a1, a2, a3⟩ := ha i
    cases hi : cfg.magNode i with
    | false =>
      have hi' := (hmag i).trans hi
      simp only [solvedNodes, updateNodes, hi, hi', Bool.false_eq_true, if_false]
      exact ⟨a1, a2, a3⟩
    | true =>
      have hi' := (hmag i).trans hi
      obtain ⟨b1, b2⟩ := solved_eq t0 pot inp k i X dt hi (nodes := nodes)
      obtain ⟨c1, c2⟩ := solved_eq t0 pot' inp' k (S.node i) X' dt hi' (nodes := nodes')
      have d1 : ∀ s : St n ET, (solvedNodes cfg (inp k) X dt s i).next =
          { (s.nodes i).next with
            u := (solvedNodes cfg (inp k) X dt s i).next.u
            v := (solvedNodes cfg (inp k) X dt s i).next.v } := by
        intro s
        simp only [solvedNodes, updateNodes, hi, if_true]
        rfl
      have d2 : ∀ s' : St n ET', (solvedNodes cfg' (inp' k) X' dt s' (S.node i)).next =
          { (s'.nodes (S.node i)).next with
            u := (solvedNodes cfg' (inp' k) X' dt s' (S.node i)).next.u
            v := (solvedNodes cfg' (inp' k) X' dt s' (S.node i)).next.v } := by
        intro s'
        simp only [solvedNodes, updateNodes, hi', if_true]
        rfl
      refine ⟨?_, ?_, ?_⟩
      · simp only [solvedNodes, updateNodes, hi, hi', if_true]
        exact a1
      · simp only [solvedNodes, updateNodes, hi, hi', if_true]
        exact a2
      · rw [d1, d2, b1, b2, c1, c2, ← hvel i hi, a2, a3, hset.gamma0]
        rfl
  · unfold vMax
    rw [v2max_described hmag fun i hi => ?_]
    have hu := (allUnit_run hU t0 nodes pot inp hs.unit k i hi).1
    have hu' := (allUnit_run hU' t0 nodes' pot' inp' hs'.unit k (S.node i) ((hmag i).trans hi)).1
    rw [isUnit3_iff] at hu hu'
    rw [← comp_nsq (inp k).r _ X i hu, ← comp_nsq (inp' k).r _ X' (S.node i) hu', ← hvel i hi]

/-- two runs of the same sample described in two ways go hand in hand -/
theorem described_run (S : Similarity n) (hs : Start P cfg nodes) (hs' : Start (P.described S tets' tris') cfg' nodes')
    (hset : SameSettings cfg cfg') (hl : Relisted S P tets' tris') (hn : Alike S nodes nodes') (hv : Valid cfg)
    (hU : RecenterKeepsUnit cfg) (hN : RecenterKeepsNext cfg) (hU' : RecenterKeepsUnit cfg') (hN' : RecenterKeepsNext cfg')
    {Ok : (Fin n → Node) → Prop} (hR : KeepsRecenter cfg cfg' (Alike S) Ok) (Q : ET → ET' → Prop)
    (hE : ∀ a b t, Alike S a b → Q (cfg.energy a t) (cfg'.energy b t))
    (W : World n P) (W' : World n (P.described S tets' tris')) (hW : World.Described S tets' tris' W W') (V V' : ℕ → ℝ)
    (hV : P.dir = none ∨ ∀ k, V' k = S.ratio * V k) (t0 : ℝ) (inp inp' : ℕ → Input n)
    (h : ExactRun P cfg W V t0 nodes inp) (h' : ExactRun (P.described S tets' tris') cfg' W' V' t0 nodes' inp')
    (hsig : ∀ k, (inp k).sig = (inp' k).sig) (hfail : ∀ k, (inp k).sol = none ↔ (inp' k).sol = none)
    (hOk : ∀ k a, KeptNodes cfg t0 (inp k) (run cfg t0 nodes (W.pot nodes) inp k) a → Ok a) (k : ℕ) :
    Coupled (Alike S) (Renumbered S) Q (run cfg t0 nodes (W.pot nodes) inp k) (run cfg' t0 nodes' (W'.pot nodes') inp' k) := by
  have hmag := magNode_described hs hs' hl
  have hv' : Valid cfg' := ⟨by rw [hset.DTMIN]; exact hv.dtmin, by rw [hset.DTMIN, hset.DTMAX]; exact hv.dtmax,
    by rw [hset.timeStep]; exact hv.tstep, by rw [hset.DUMAX]; exact hv.dumax,
    by rw [hset.DTMIN, hset.add]; exact hv.addErr⟩
  induction k with
  | zero =>
    have hpot := hW.pot _ _ hn
    exact coupled_init hset t0 _ _ (alike_computeAll hmag hn _ _ hpot) (hE _ _ _ (alike_setPot hmag hn _ _ hpot))
  | succ k ih =>
    refine coupled_step hset (fun a b hab i => ?_) (fun a b r r' hab i => ?_) hR t0 (inp k) (inp' k) (hsig k) (hfail k) _ _ ih (hOk k) ?_
    · dsimp only
      rw [(hab i).2.2]
      rfl
    · exact hab i
    · intro hat hat' hdm X X' hsol hsol'
      have hdt := hset.attDt ih t0
      obtain ⟨A, b, a1, a2⟩ := h.exact k X hat hdm hsol
      obtain ⟨A', b', a1', a2'⟩ := h'.exact k X' hat' (by rw [hdt, hset.DTMIN]; exact hdm) hsol'
      rw [hdt] at a1'
      obtain ⟨g1, g2⟩ := solved_described hs hs' hset hl hn hv hv' hU hN hU' hN' t0 _ _ inp inp' k ih.nodes _ _
        (hV.imp id fun hV => hV k) (fun e he j j' hj => by rw [ih.t]; exact hW.Hext _ _ _ ih.nodes e he j j' hj)
        (fun e he j j' hj => by rw [ih.t]; exact hW.Hst _ _ _ ih.nodes e he j j' hj)
        _ (hv.dtmin.trans_le hdm) X X' A A' b b' a1 a2 a1' a2'
      have hpot : ∀ i, (inp' k).pot (S.node i) = (S.ratio * ((inp k).pot i).1, S.ratio * ((inp k).pot i).2) := by
        rw [h.pot k X hat hsol, h'.pot k X' hat' hsol', hdt]
        exact hW.pot _ _ g1
      exact ⟨g1, g2, alike_computeAll hmag g1 _ _ hpot, hE _ _ _ (alike_setPot hmag g1 _ _ hpot)⟩

end

end Verif.Run
