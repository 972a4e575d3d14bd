import Verif.Props.SimilarRun
import Verif.Props.Recenter

/-!
# C91, C93: recentering of the same sample described in another way
-/

namespace Verif.Recenter

open Verif.TimeLoop

variable {n : ℕ}

/-- all nodes nearest to the point have the same magnetization: it does not matter which one the search finds -/
def NoTie (nd : Fin n → Node) (q : V3) : Prop :=
  ∀ j j', IsNearest nd q j → IsNearest nd q j' → (nd j).next.u = (nd j').next.u

/-- the points where a recentering along axis `k` looks for a node if the average along `k` reaches the threshold: the two ends
of the axis, and for each node the point its magnetization comes from -/
def Queried (g : Geo n) (thres : ℝ) (k : Fin 3) (nd : Fin n → Node) (q : V3) : Prop :=
  |thres| ≤ |avg g nd k| ∧ (q = leftEnd g k ∨ q = rightEnd g k ∨ ∃ i, q = source g k (shift g nd k) (nd i).p)

/-- the bounding box and the weights of the nodes in the new description -/
structure Geo.Described (S : Similarity n) (g g' : Geo n) : Prop where
  c : g'.c = S.ratio * g.c
  l : g'.l = |S.ratio| * g.l
  w : ∀ i, g'.w (S.node i) = g.w i

section
variable {S : Similarity n} {g g' : Geo n} {a b : Fin n → Node}

theorem comp_smul (r : ℝ) (p : V3) (k : Fin 3) : (r * p).comp k = r * p.comp k := by
  fin_cases k <;> rfl

theorem edist_smul {r : ℝ} (hr : 0 < r) (p q : V3) : edist (r * p) (r * q) = r * edist p q := by
  unfold edist
  rw [← Real.sqrt_sq hr.le, ← Real.sqrt_mul (sq_nonneg r)]
  simp only [V3.smul_x, V3.smul_y, V3.smul_z, Real.sqrt_sq hr.le]
  congr 1
  ring

theorem isNearest_alike (hr : 0 < S.ratio) (h : Alike S a b) (q : V3) (j : Fin n) :
    IsNearest b (S.ratio * q) (S.node j) ↔ IsNearest a q j := by
  constructor
  · intro H j'
    have := H (S.node j')
    rw [(h j).1, (h j').1, edist_smul hr, edist_smul hr] at this
    exact le_of_mul_le_mul_left this hr
  · intro H j'
    obtain ⟨j', rfl⟩ := Run.node_surj S j'
    rw [(h j).1, (h j').1, edist_smul hr, edist_smul hr]
    exact mul_le_mul_of_nonneg_left (H j') hr.le

theorem nearest_alike (hr : 0 < S.ratio) (h : Alike S a b) (hg : NearestOk g a) (hg' : NearestOk g' b) {q : V3}
    (hq : NoTie a q) : (b (g'.nearest (S.ratio * q))).next.u = (a (g.nearest q)).next.u := by
  obtain ⟨j, hj⟩ := Run.node_surj S (g'.nearest (S.ratio * q))
  have h1 : IsNearest a q j := by
    rw [← isNearest_alike hr h, hj]
    exact hg' _
  rw [← hj, (h j).2.2]
  exact hq _ _ h1 (hg q)

theorem avg_alike (h : Alike S a b) (hd : Geo.Described S g g') (k : Fin 3) : avg g' b k = avg g a k := by
  unfold avg
  symm
  refine Fintype.sum_bijective S.node ⟨fun i j e => ?_, fun i => Run.node_surj S i⟩ _ _ fun i => ?_
  · exact Fin.ext (S.num.injective (Fin.mk.inj e))
  · rw [hd.w, (h i).2.2]
    rfl

theorem leftEnd_alike (hr : 0 < S.ratio) (hd : Geo.Described S g g') (k : Fin 3) : leftEnd g' k = S.ratio * leftEnd g k := by
  unfold leftEnd
  rw [hd.c, hd.l, abs_of_pos hr, comp_smul]
  ext <;> simp only [V3.sub_x, V3.sub_y, V3.sub_z, V3.smul_x, V3.smul_y, V3.smul_z] <;> ring

theorem rightEnd_alike (hr : 0 < S.ratio) (hd : Geo.Described S g g') (k : Fin 3) : rightEnd g' k = S.ratio * rightEnd g k := by
  unfold rightEnd
  rw [hd.c, hd.l, abs_of_pos hr, comp_smul]
  ext <;> simp only [V3.add_x, V3.add_y, V3.add_z, V3.smul_x, V3.smul_y, V3.smul_z] <;> ring

theorem source_alike (hr : 0 < S.ratio) (hd : Geo.Described S g g') (k : Fin 3) (D : ℝ) (p : V3) :
    source g' k (S.ratio * D) (S.ratio * p) = S.ratio * source g k D p := by
  have e1 : S.ratio * p + (S.ratio * D) * V3.unit k = S.ratio * (p + D * V3.unit k) := by
    ext <;> simp only [V3.add_x, V3.add_y, V3.add_z, V3.smul_x, V3.smul_y, V3.smul_z] <;> ring
  have e2 : ∀ x : V3, (S.ratio * x).comp k - g'.c.comp k > 1 / 2 * g'.l.comp k ↔ x.comp k - g.c.comp k > 1 / 2 * g.l.comp k := by
    intro x
    rw [hd.c, hd.l, abs_of_pos hr, comp_smul, comp_smul, comp_smul]
    constructor
    · intro H
      by_contra H'
      nlinarith
    · intro H
      nlinarith
  have e3 : ∀ x : V3, (S.ratio * x).comp k - g'.c.comp k < -(1 / 2) * g'.l.comp k ↔
      x.comp k - g.c.comp k < -(1 / 2) * g.l.comp k := by
    intro x
    rw [hd.c, hd.l, abs_of_pos hr, comp_smul, comp_smul, comp_smul]
    constructor
    · intro H
      by_contra H'
      nlinarith
    · intro H
      nlinarith
  have l1 := leftEnd_alike hr hd k
  have r1 := rightEnd_alike hr hd k
  unfold leftEnd at l1
  unfold rightEnd at r1
  unfold source
  dsimp only
  rw [e1, l1, r1]
  by_cases c1 : (p + D * V3.unit k).comp k - g.c.comp k > 1 / 2 * g.l.comp k
  · rw [if_pos c1, if_pos ((e2 _).mpr c1)]
    by_cases c2 : (g.c + (1 / 2 * g.l.comp k) * V3.unit k).comp k - g.c.comp k < -(1 / 2) * g.l.comp k
    · rw [if_pos c2, if_pos ((e3 _).mpr c2)]
    · rw [if_neg c2, if_neg (fun H => c2 ((e3 _).mp H))]
  · rw [if_neg c1, if_neg (fun H => c1 ((e2 _).mp H))]
    by_cases c2 : (p + D * V3.unit k).comp k - g.c.comp k < -(1 / 2) * g.l.comp k
    · rw [if_pos c2, if_pos ((e3 _).mpr c2)]
    · rw [if_neg c2, if_neg (fun H => c2 ((e3 _).mp H))]

/-- **C91**, **C93** Recentering does the same to both descriptions of a sample (lengths multiplied by a positive number):
nothing, the error, or the same shift, unless a point where it looks for a node is as near to two nodes with different
magnetizations. -/
theorem C91_recenter (hr : 0 < S.ratio) (h : Alike S a b) (hd : Geo.Described S g g') (hg : NearestOk g a)
    (hg' : NearestOk g' b) (thres : ℝ) (ch : ℤ) (hq : ∀ q, Queried g thres (switchDir ch) a q → NoTie a q) :
    Option.Rel (Alike S) (loopRecenter g thres ch a) (loopRecenter g' thres ch b) := by
  unfold loopRecenter recenter
  dsimp only
  rw [avg_alike h hd]
  by_cases c1 : |avg g a (switchDir ch)| < |thres|
  · simp only [if_pos c1]
    exact .some h
  have hc := not_lt.mp c1
  have hL := nearest_alike hr h hg hg' (hq _ ⟨hc, .inl rfl⟩)
  have hR := nearest_alike hr h hg hg' (hq _ ⟨hc, .inr (.inl rfl)⟩)
  rw [← leftEnd_alike hr hd] at hL
  rw [← rightEnd_alike hr hd] at hR
  have hs : shift g' b (switchDir ch) = S.ratio * shift g a (switchDir ch) := by
    unfold leftEnd at hL
    unfold shift
    rw [avg_alike h hd, hL, hd.l, abs_of_pos hr, comp_smul]
    ring
  unfold leftEnd at hL
  unfold rightEnd at hR
  rw [hL, hR]
  simp only [if_neg c1]
  split_ifs
  · exact .none
  · refine .some fun i => ?_
    obtain ⟨h1, h2, h3⟩ := h i
    have hv := nearest_alike hr h hg hg' (hq _ ⟨hc, .inr (.inr ⟨i, rfl⟩)⟩)
    rw [← source_alike hr hd, ← hs, ← h1] at hv
    refine ⟨h1, ?_, ?_⟩
    · simp only [setNode, hv, h2]
      rfl
    · simp only [setNode, h3]
      refine DataNode.mk.injEq .. |>.mpr ⟨rfl, rfl, rfl, rfl⟩

end

/-! ## Runs with recentering -/

section
variable {ET ET' : Type} {P : Run.Problem} {cfg : Cfg n ET} {cfg' : Cfg n ET'} {nodes nodes' : Fin n → Node}
  {tets' : List Mesh.Tet} {tris' : List (Mesh.Tri × ℝ)}

theorem kept_pos (hN : RecenterKeepsNext cfg) (t0 : ℝ) (pot : Fin n → ℝ × ℝ) (inp : ℕ → Input n) (k : ℕ) {a : Fin n → Node}
    (h : KeptNodes cfg t0 (inp k) (TimeLoop.run cfg t0 nodes pot inp k) a) (i : Fin n) : (a i).p = (nodes i).p := by
  obtain ⟨X, -, -, -, -, rfl⟩ := h
  rw [← Run.run_pos (nodes := nodes) hN t0 pot inp k i]
  simp only [accepted, computeAllNodes, setPot, solvedNodes, updateNodes, baseProjection]
  split_ifs <;> rfl

/-- **C91**, **C93** Runs with recentering: a sample in two descriptions (lengths multiplied by a positive number) makes the same
steps, the same recenterings, the same rows and the same saved configurations. Missing: the sense of triangles with surface
anisotropy (`C91_negation`), non-magnetic nodes, points as near to two nodes with different magnetizations, the
inversion (`C93_recenter_negation`). -/
theorem C93_recentered_run_partial (S : Similarity n) (hr : 0 < S.ratio) (hs : Run.Start P cfg nodes)
    (hs' : Run.Start (P.described S tets' tris') cfg' nodes') (hset : SameSettings cfg cfg') (hl : Run.Relisted S P tets' tris')
    (hn : Alike S nodes nodes') (hv : Valid cfg) (thres : ℝ) (ch : ℤ) (g g' : Geo n) (hrec : cfg.recenter = loopRecenter g thres ch)
    (hrec' : cfg'.recenter = loopRecenter g' thres ch) (hd : Geo.Described S g g') (hg : NearestOk g nodes)
    (hg' : NearestOk g' nodes') (hm : ∀ i, cfg.magNode i = true) (Q : ET → ET' → Prop)
    (hE : ∀ a b t, Alike S a b → Q (cfg.energy a t) (cfg'.energy b t)) (W : Run.World n P)
    (W' : Run.World n (P.described S tets' tris')) (hW : Run.World.Described S tets' tris' W W') (V V' : ℕ → ℝ)
    (hV : P.dir = none ∨ ∀ k, V' k = S.ratio * V k) (t0 : ℝ) (inp inp' : ℕ → Input n)
    (h : Run.ExactRun P cfg W V t0 nodes inp) (h' : Run.ExactRun (P.described S tets' tris') cfg' W' V' t0 nodes' inp')
    (hsig : ∀ k, (inp k).sig = (inp' k).sig) (hfail : ∀ k, (inp k).sol = none ↔ (inp' k).sol = none)
    (hq : ∀ k a, KeptNodes cfg t0 (inp k) (TimeLoop.run cfg t0 nodes (W.pot nodes) inp k) a →
      ∀ q, Queried g thres (switchDir ch) a q → NoTie a q) (k : ℕ) :
    Coupled (Alike S) (Renumbered S) Q (TimeLoop.run cfg t0 nodes (W.pot nodes) inp k)
      (TimeLoop.run cfg' t0 nodes' (W'.pot nodes') inp' k) := by
  have hmag := Run.magNode_described hs hs' hl
  have hm' : ∀ i, cfg'.magNode i = true := fun i => by
    obtain ⟨j, rfl⟩ := Run.node_surj S i
    rw [hmag, hm]
  have hN := C46_keeps_next cfg g thres ch hrec
  refine Run.described_run S hs hs' hset hl hn hv (C46_keeps_unit cfg g thres ch hrec hm) hN
    (C46_keeps_unit cfg' g' thres ch hrec' hm') (C46_keeps_next cfg' g' thres ch hrec')
    (Ok := fun a => (∀ i, (a i).p = (nodes i).p) ∧ ∀ q, Queried g thres (switchDir ch) a q → NoTie a q) ?_ Q hE W W' hW V V' hV t0
    inp inp' h h' hsig hfail (fun k a ha => ⟨kept_pos hN t0 _ inp k ha, hq k a ha⟩) k
  rintro a b ⟨hp, ha⟩ hab
  rw [hrec, hrec']
  refine C91_recenter hr hab hd (fun q i => ?_) (fun q i => ?_) thres ch ha
  · rw [hp, hp]
    exact hg q i
  · have e : ∀ i, (b i).p = (nodes' i).p := fun i => by
      obtain ⟨j, rfl⟩ := Run.node_surj S i
      rw [(hab j).1, (hn j).1, hp]
    rw [e, e]
    exact hg' q i

end

/-! ## The inversion -/

/-- the inversion through the origin, nodes and elements listed as before -/
def inversion (n : ℕ) : Similarity n :=
  ⟨-1, by norm_num, Equiv.refl _, fun _ => Iff.rfl, fun _ => Equiv.refl _, fun _ => Equiv.refl _⟩

/-- three nodes on the z axis at heights -s, 0 and s, a wall with unlike ends -/
noncomputable def wallNodes (s : ℝ) : Fin 3 → Node
  | 0 => ⟨⟨0, 0, -s⟩, 0, 0, ⟨⟨12 / 13, 0, 5 / 13⟩, 0, 0, 0⟩, ⟨⟨12 / 13, 0, 5 / 13⟩, 0, 0, 0⟩⟩
  | 1 => ⟨⟨0, 0, 0⟩, 0, 0, ⟨⟨0, 0, -1⟩, 0, 0, 0⟩, ⟨⟨0, 0, -1⟩, 0, 0, 0⟩⟩
  | 2 => ⟨⟨0, 0, s⟩, 0, 0, ⟨⟨0, 0, -1⟩, 0, 0, 0⟩, ⟨⟨0, 0, -1⟩, 0, 0, 0⟩⟩

open Classical in
/-- the sample between -1 and 1 -/
noncomputable def wallGeo (s : ℝ) : Geo 3 where
  c := ⟨0, 0, 0⟩
  l := ⟨0, 0, 2⟩
  w := fun _ => 1 / 3
  nearest := fun q => if 1 / 2 < s * q.z then 2 else if s * q.z < -(1 / 2) then 0 else 1

theorem wall_nearest {s : ℝ} (hs : s ^ 2 = 1) : NearestOk (wallGeo s) (wallNodes s) := by
  have key : ∀ (q : V3) (a b : ℝ), (q.z - a) ^ 2 ≤ (q.z - b) ^ 2 → edist q ⟨0, 0, a⟩ ≤ edist q ⟨0, 0, b⟩ := by
    intro q a b h
    unfold edist
    apply Real.sqrt_le_sqrt
    simp only
    linarith
  intro q i
  by_cases h1 : 1 / 2 < s * q.z
  · have e : (wallGeo s).nearest q = 2 := if_pos h1
    rw [e]
    fin_cases i
    · exact key q s (-s) (by nlinarith)
    · exact key q s 0 (by nlinarith)
    · exact le_refl _
  · by_cases h2 : s * q.z < -(1 / 2)
    · have e : (wallGeo s).nearest q = 0 := (if_neg h1).trans (if_pos h2)
      rw [e]
      fin_cases i
      · exact le_refl _
      · exact key q (-s) 0 (by nlinarith)
      · exact key q (-s) s (by nlinarith)
    · have e : (wallGeo s).nearest q = 1 := (if_neg h1).trans (if_neg h2)
      rw [e]
      push Not at h1 h2
      fin_cases i
      · exact key q 0 (-s) (by nlinarith)
      · exact le_refl _
      · exact key q 0 s (by nlinarith)

theorem wall_avg (s : ℝ) : avg (wallGeo s) (wallNodes s) 2 = -(7 / 13) := by
  unfold avg
  rw [Fin.sum_univ_three]
  show 1 / 3 * (5 / 13 : ℝ) + 1 / 3 * (-1) + 1 / 3 * (-1) = -(7 / 13)
  norm_num

theorem wall_left (s : ℝ) (hs : s = 1 ∨ s = -1) :
    (wallGeo s).nearest ((wallGeo s).c - ((1 / 2 : ℝ) * (wallGeo s).l.comp 2) * V3.unit 2) = if s = 1 then 0 else 2 := by
  have e : ((wallGeo s).c - ((1 / 2 : ℝ) * (wallGeo s).l.comp 2) * V3.unit 2).z = -1 := by
    show (0 : ℝ) - 1 / 2 * 2 * 1 = -1
    norm_num
  unfold wallGeo at e ⊢
  simp only [e]
  rcases hs with rfl | rfl <;> norm_num

theorem wall_right (s : ℝ) (hs : s = 1 ∨ s = -1) :
    (wallGeo s).nearest ((wallGeo s).c + ((1 / 2 : ℝ) * (wallGeo s).l.comp 2) * V3.unit 2) = if s = 1 then 2 else 0 := by
  have e : ((wallGeo s).c + ((1 / 2 : ℝ) * (wallGeo s).l.comp 2) * V3.unit 2).z = 1 := by
    show (0 : ℝ) + 1 / 2 * 2 * 1 = 1
    norm_num
  unfold wallGeo at e ⊢
  simp only [e]
  rcases hs with rfl | rfl <;> norm_num

/-- the distance of the shift depends on the side of the wall where the magnetization is not along the axis -/
theorem wall_shift (s : ℝ) (hs : s = 1 ∨ s = -1) :
    shift (wallGeo s) (wallNodes s) 2 = if s = 1 then -(35 / 169) else 7 / 13 := by
  unfold shift
  rw [wall_avg, wall_left s hs]
  have hl : (wallGeo s).l.comp 2 = 2 := rfl
  rw [hl]
  rcases hs with rfl | rfl
  · rw [if_pos rfl, if_pos rfl]
    show -(7 / 13) * (1 / 2) * 2 * (5 / 13 : ℝ) = _
    norm_num
  · rw [if_neg (by norm_num), if_neg (by norm_num)]
    show -(7 / 13) * (1 / 2) * 2 * (-1 : ℝ) = _
    norm_num

theorem wall_source (s D : ℝ) (hD : |D| ≤ 1) : source (wallGeo s) 2 D (wallNodes s 1).p = ⟨0, 0, D⟩ := by
  have e : (wallNodes s 1).p + D * V3.unit 2 = ⟨0, 0, D⟩ := by
    show V3.mk (0 + D * 0) (0 + D * 0) (0 + D * 1) = _
    simp
  obtain ⟨h1, h2⟩ := abs_le.mp hD
  unfold source
  dsimp only
  rw [e]
  have hc : (wallGeo s).c.comp 2 = 0 := rfl
  have hl : (wallGeo s).l.comp 2 = 2 := rfl
  have hz : (V3.mk 0 0 D).comp 2 = D := rfl
  have h3 : ¬ D - 0 > 1 / 2 * 2 := by linarith
  simp only [hc, hl, hz, if_neg h3]
  rw [if_neg (by linarith)]

theorem wall_source_z (s D : ℝ) (p : V3) : (source (wallGeo s) 2 D p).z = p.z + D ∨ (source (wallGeo s) 2 D p).z = 1 ∨
    (source (wallGeo s) 2 D p).z = -1 := by
  have e1 : (p + D * V3.unit 2).z = p.z + D := by
    show p.z + D * 1 = p.z + D
    ring
  have e2 : ((wallGeo s).c + (1 / 2 * (wallGeo s).l.comp 2) * V3.unit 2).z = 1 := by
    show (0 : ℝ) + 1 / 2 * 2 * 1 = 1
    norm_num
  have e3 : ((wallGeo s).c - (1 / 2 * (wallGeo s).l.comp 2) * V3.unit 2).z = -1 := by
    show (0 : ℝ) - 1 / 2 * 2 * 1 = -1
    norm_num
  unfold source
  dsimp only
  split_ifs
  · exact .inr (.inr e3)
  · exact .inr (.inl e2)
  · exact .inr (.inr e3)
  · exact .inl e1

theorem wall_noTie {s : ℝ} (hs : s ^ 2 = 1) {q : V3} (hq : s * q.z ≠ -(1 / 2)) : NoTie (wallNodes s) q := by
  have key : ∀ a b : ℝ, edist q ⟨0, 0, a⟩ ≤ edist q ⟨0, 0, b⟩ → (q.z - a) ^ 2 ≤ (q.z - b) ^ 2 := by
    intro a b h
    unfold edist at h
    have := (Real.sqrt_le_sqrt_iff (by positivity)).mp h
    linarith
  have h0 : IsNearest (wallNodes s) q 0 → s * q.z ≤ -(1 / 2) := fun h => by
    have := key _ _ (h 1)
    nlinarith
  have h1 : IsNearest (wallNodes s) q 1 → -(1 / 2) ≤ s * q.z := fun h => by
    have := key _ _ (h 0)
    nlinarith
  have h2 : IsNearest (wallNodes s) q 2 → 0 ≤ s * q.z := fun h => by
    have := key _ _ (h 0)
    nlinarith
  intro j j' hj hj'
  fin_cases j <;> fin_cases j'
  · rfl
  · exact absurd (le_antisymm (h0 hj) (h1 hj')) hq
  · linarith [h0 hj, h2 hj']
  · exact absurd (le_antisymm (h0 hj') (h1 hj)) hq
  · rfl
  · rfl
  · linarith [h0 hj', h2 hj]
  · rfl
  · rfl

theorem wall_queried {s : ℝ} (hs : s = 1 ∨ s = -1) (q : V3) (h : Queried (wallGeo s) (1 / 10) 2 (wallNodes s) q) :
    NoTie (wallNodes s) q := by
  have hs2 : s ^ 2 = 1 := by rcases hs with rfl | rfl <;> norm_num
  apply wall_noTie hs2
  rcases h with ⟨-, rfl | rfl | ⟨i, rfl⟩⟩
  · have e : (leftEnd (wallGeo s) 2).z = -1 := by
      show (0 : ℝ) - 1 / 2 * 2 * 1 = -1
      norm_num
    rw [e]
    rcases hs with rfl | rfl <;> norm_num
  · have e : (rightEnd (wallGeo s) 2).z = 1 := by
      show (0 : ℝ) + 1 / 2 * 2 * 1 = 1
      norm_num
    rw [e]
    rcases hs with rfl | rfl <;> norm_num
  · rw [wall_shift s hs]
    rcases wall_source_z s (if s = 1 then -(35 / 169) else 7 / 13) (wallNodes s i).p with e | e | e <;> rw [e]
    · have hz : (wallNodes s i).p.z = -s ∨ (wallNodes s i).p.z = 0 ∨ (wallNodes s i).p.z = s := by
        fin_cases i
        · exact .inl rfl
        · exact .inr (.inl rfl)
        · exact .inr (.inr rfl)
      rcases hs with rfl | rfl <;> rcases hz with hz | hz | hz <;> rw [hz] <;> norm_num
    · rcases hs with rfl | rfl <;> norm_num
    · rcases hs with rfl | rfl <;> norm_num

theorem wall_shifted {s : ℝ} (hs : s = 1 ∨ s = -1) : recenter (wallGeo s) (1 / 10) 2 (wallNodes s) = .shifted fun i => setNode (wallNodes s i)
    (wallNodes s ((wallGeo s).nearest (source (wallGeo s) 2 (shift (wallGeo s) (wallNodes s) 2) (wallNodes s i).p))).next.u := by
  have hk : switchDir 2 = 2 := rfl
  unfold recenter
  dsimp only
  rw [hk, wall_avg, wall_left s hs, wall_right s hs, if_neg (by norm_num [abs_of_pos]), if_neg]
  rcases hs with rfl | rfl
  · rw [if_pos rfl, if_pos rfl]
    show ¬ (5 / 13 : ℝ) * (-1) > 0
    norm_num
  · rw [if_neg (by norm_num), if_neg (by norm_num)]
    show ¬ (-1 : ℝ) * (5 / 13) > 0
    norm_num

theorem wall_recenter {s : ℝ} (hs : s = 1 ∨ s = -1) : ∃ nd, loopRecenter (wallGeo s) (1 / 10) 2 (wallNodes s) = some nd ∧
    (nd 1).cur.u = if s = 1 then ⟨0, 0, -1⟩ else ⟨12 / 13, 0, 5 / 13⟩ := by
  have hk : switchDir 2 = 2 := rfl
  have e := wall_shifted hs
  refine ⟨_, by unfold loopRecenter; rw [e], ?_⟩
  show (wallNodes s ((wallGeo s).nearest (source (wallGeo s) 2 (shift (wallGeo s) (wallNodes s) 2) (wallNodes s 1).p))).next.u = _
  rw [wall_shift s hs]
  rcases hs with rfl | rfl
  · rw [if_pos rfl, if_pos rfl, wall_source _ _ (by norm_num [abs_le])]
    have : (wallGeo 1).nearest ⟨0, 0, -(35 / 169)⟩ = 1 := by
      unfold wallGeo
      norm_num
    rw [this]
    rfl
  · rw [if_neg (by norm_num), if_neg (by norm_num), wall_source _ _ (by norm_num [abs_le])]
    have : (wallGeo (-1)).nearest ⟨0, 0, 7 / 13⟩ = 0 := by
      unfold wallGeo
      norm_num
    rw [this]
    rfl


/-- The image of a sample under the inversion is not recentered like the sample: the distance of the shift is proportional to
the magnetization at the left end alone (recentering.cpp:101), and the inversion exchanges the ends. -/
theorem C93_recenter_negation : ∃ (g g' : Geo 3) (a b : Fin 3 → Node), Alike (inversion 3) a b ∧
    Geo.Described (inversion 3) g g' ∧ NearestOk g a ∧ NearestOk g' b ∧ (∀ i, IsUnit3 (a i).next.u) ∧
    (∀ q, Queried g (1 / 10) 2 a q → NoTie a q) ∧ (∀ q, Queried g' (1 / 10) 2 b q → NoTie b q) ∧
    ¬ Option.Rel (Alike (inversion 3)) (loopRecenter g (1 / 10) 2 a) (loopRecenter g' (1 / 10) 2 b) := by
  have hA : Alike (inversion 3) (wallNodes 1) (wallNodes (-1)) := by
    intro i
    have hi : (inversion 3).node i = i := rfl
    have hr : (inversion 3).ratio = -1 := rfl
    rw [hi]
    fin_cases i <;> (simp only [wallNodes, Similarity.data, hr]; refine ⟨?_, ?_, ?_⟩ <;> first | (ext <;> simp) | simp)
  refine ⟨wallGeo 1, wallGeo (-1), wallNodes 1, wallNodes (-1), hA, ⟨?_, ?_, fun _ => rfl⟩, wall_nearest (by norm_num),
    wall_nearest (by norm_num), ?_, wall_queried (.inl rfl), wall_queried (.inr rfl), ?_⟩
  · have hr : (inversion 3).ratio = -1 := rfl
    rw [hr]
    ext <;> simp [wallGeo]
  · have hr : (inversion 3).ratio = -1 := rfl
    rw [hr]
    ext <;> simp [wallGeo]
  · intro i
    fin_cases i
    · show (12 / 13 : ℝ) ^ 2 + 0 ^ 2 + (5 / 13) ^ 2 = 1; norm_num
    · show (0 : ℝ) ^ 2 + 0 ^ 2 + (-1) ^ 2 = 1; norm_num
    · show (0 : ℝ) ^ 2 + 0 ^ 2 + (-1) ^ 2 = 1; norm_num
  · obtain ⟨nd, e1, e2⟩ := wall_recenter (s := 1) (.inl rfl)
    obtain ⟨nd', e1', e2'⟩ := wall_recenter (s := -1) (.inr rfl)
    rw [e1, e1']
    rintro ⟨H⟩
    have := (H 1).2.1
    have hi : (inversion 3).node 1 = 1 := rfl
    rw [hi] at this
    have hu : (nd' 1).cur.u = (nd 1).cur.u := by rw [this]; rfl
    rw [e2, e2', if_pos rfl, if_neg (by norm_num)] at hu
    have := congrArg V3.x hu
    norm_num at this

/-! ## Examples -/

/-- a search that finds a nearest node -/
noncomputable def searchGeo [NeZero n] (nd : Fin n → Node) (c l : V3) (w : Fin n → ℝ) : Geo n :=
  ⟨c, l, w, fun q => Classical.choose (Finite.exists_min fun i => edist q (nd i).p)⟩

theorem searchGeo_ok [NeZero n] (nd : Fin n → Node) (c l : V3) (w : Fin n → ℝ) : NearestOk (searchGeo nd c l w) nd :=
  fun q => Classical.choose_spec (Finite.exists_min fun i => edist q (nd i).p)

/-- nodes 0 and 2 exchange their numbers, lengths are doubled -/
def swapDouble : Similarity 3 where
  ratio := 2
  ne := two_ne_zero
  num := Equiv.swap 0 2
  range := by
    intro i
    rw [Equiv.swap_apply_def]
    split_ifs <;> omega
  tet := fun _ => Equiv.refl _
  tri := fun _ => Equiv.refl _

/-- the hypotheses of `C91_recenter` are met by a wall that is moved -/
example : ∃ g' : Geo 3, 0 < swapDouble.ratio ∧ Alike swapDouble (wallNodes (-1)) (Run.describedNodes swapDouble (wallNodes (-1))) ∧
    Geo.Described swapDouble (wallGeo (-1)) g' ∧ NearestOk (wallGeo (-1)) (wallNodes (-1)) ∧
    NearestOk g' (Run.describedNodes swapDouble (wallNodes (-1))) ∧
    (∀ q, Queried (wallGeo (-1)) (1 / 10) (switchDir 2) (wallNodes (-1)) q → NoTie (wallNodes (-1)) q) ∧
    ∃ nd, loopRecenter (wallGeo (-1)) (1 / 10) 2 (wallNodes (-1)) = some nd ∧ (nd 1).cur.u ≠ (wallNodes (-1) 1).cur.u := by
  refine ⟨searchGeo _ (2 * (wallGeo (-1)).c) (|(2 : ℝ)| * (wallGeo (-1)).l) fun _ => 1 / 3, by norm_num [swapDouble],
    Run.alike_describedNodes _ _, ⟨rfl, rfl, fun _ => rfl⟩, wall_nearest (by norm_num), searchGeo_ok _ _ _ _,
    wall_queried (.inr rfl), ?_⟩
  obtain ⟨nd, e1, e2⟩ := wall_recenter (s := -1) (.inr rfl)
  refine ⟨nd, e1, fun h => ?_⟩
  rw [e2, if_neg (by norm_num)] at h
  have := congrArg V3.x h
  simp [wallNodes] at this

section
open Verif.Run

/-- the time loop of the examples with another recentering -/
noncomputable def recCfg (D : ℝ) (R : (Fin 5 → Node) → Option (Fin 5 → Node)) : Cfg 5 ℝ := { exCfg D with recenter := R }

theorem recCfg_run1 (D : ℝ) (R : (Fin 5 → Node) → Option (Fin 5 → Node)) (nd : Fin 5 → Node) (pot : Fin 5 → ℝ × ℝ)
    (inp : ℕ → Input 5) : TimeLoop.run (recCfg D R) 0 nd pot inp 1 = TimeLoop.run (exCfg D) 0 nd pot inp 1 := by
  have h : ∀ cfg : Cfg 5 ℝ, cfg = exCfg D ∨ cfg = recCfg D R →
      TimeLoop.run cfg 0 nd pot inp 1 = forBody cfg 0 (init cfg 0 nd pot) := by
    intro cfg hc
    have e : TimeLoop.run cfg 0 nd pot inp 1 = TimeLoop.step cfg 0 (inp 0) (init cfg 0 nd pot) := rfl
    rw [e]
    have hcnt : stepCount cfg 0 = 2 := by
      have : ((cfg.tf - 0) / cfg.timeStep) = 2 := by rcases hc with rfl | rfl <;> norm_num [recCfg, Run.exCfg]
      unfold stepCount cRound
      rw [this, if_pos (by norm_num)]
      norm_num [Int.floor_eq_iff]
    have hrun : (init cfg 0 nd pot).ctl = .running := by
      simp only [init]
      rw [hcnt]
      norm_num
    have ht : ¬ (init cfg 0 nd pot).t < tTarget cfg 0 (init cfg 0 nd pot).stepNb := by
      simp [init, tTarget]
    simp [TimeLoop.step, hrun, ht]
  rw [h _ (.inr rfl), h _ (.inl rfl)]
  rfl

theorem recCfg_start {P : Problem} {D : ℝ} {nd : Fin 5 → Node} (hs : Start P (exCfg D) nd)
    (R : (Fin 5 → Node) → Option (Fin 5 → Node)) : Start P (recCfg D R) nd := { hs with }

theorem recCfg_exact {P : Problem} {D : ℝ} {nd : Fin 5 → Node} {W : World 5 P} (hpot : ∀ a, W.pot a = fun _ => (0, 0)) {V r : ℝ}
    {X : Fin 5 → ℝ × ℝ} (h : ExactRun P (exCfg D) W (fun _ => V) 0 nd (exInp r X)) (R : (Fin 5 → Node) → Option (Fin 5 → Node)) :
    ExactRun P (recCfg D R) W (fun _ => V) 0 nd (exInp r X) := by
  refine ⟨?_, fun k Y _ _ => by rw [hpot]; rfl⟩
  intro k Y s hatt hd hY
  have hk : k = 1 := by
    unfold exInp at hY
    dsimp only at hY
    split_ifs at hY with hk
    exact hk
  subst hk
  have hs : s = TimeLoop.run (exCfg D) 0 nd (W.pot nd) (exInp r X) 1 := recCfg_run1 D R nd _ _
  rw [hs] at hatt hd ⊢
  exact h.exact 1 Y hatt hd hY

/-- a threshold that is never reached: the average of a component of unit vectors is at most one -/
theorem recCfg_kept (D : ℝ) (thres : ℝ) (ht : 1 < thres) (g : Geo 5) (hw : ∀ i, g.w i = 1 / 5) (pot : Fin 5 → ℝ × ℝ) (nd : Fin 5 → Node)
    (hu : ∀ i, IsUnit3 (nd i).next.u) (inp : ℕ → Input 5) (k : ℕ) (a : Fin 5 → Node)
    (h : KeptNodes (recCfg D (loopRecenter g thres 2)) 0 (inp k) (TimeLoop.run (recCfg D (loopRecenter g thres 2)) 0 nd pot inp k) a)
    (q : V3) : ¬ Queried g thres (switchDir 2) a q := by
  obtain ⟨X, -, -, -, -, rfl⟩ := h
  have hU := C46_keeps_unit (recCfg D (loopRecenter g thres 2)) g thres 2 rfl fun _ => rfl
  have h1 := allUnit_run hU 0 nd pot inp (fun i _ => hu i) k
  have h2 : AllUnit (recCfg D (loopRecenter g thres 2)) (accepted (recCfg D (loopRecenter g thres 2)) 0 (inp k)
      (TimeLoop.run (recCfg D (loopRecenter g thres 2)) 0 nd pot inp k) X).nodes :=
    AllUnit.computeAll (fun i hi => (h1.solved (inp k) X _ i hi).2) _
  generalize (accepted (recCfg D (loopRecenter g thres 2)) 0 (inp k)
      (TimeLoop.run (recCfg D (loopRecenter g thres 2)) 0 nd pot inp k) X).nodes = b at h2 ⊢
  rintro ⟨h3, -⟩
  rw [abs_of_pos (by linarith)] at h3
  have h4 : |avg g b (switchDir 2)| ≤ 1 := by
    unfold avg
    refine (Finset.abs_sum_le_sum_abs _ _).trans ?_
    refine (Finset.sum_le_sum (g := fun _ => (1 / 5 : ℝ)) fun i _ => ?_).trans (by norm_num)
    rw [hw, abs_mul, abs_of_pos (by norm_num : (0 : ℝ) < 1 / 5)]
    have h5 : |(b i).next.u.comp (switchDir 2)| ≤ 1 := by
      have := (h2 i rfl).2
      unfold IsUnit3 at this
      rw [abs_le_one_iff_mul_self_le_one]
      change (b i).next.u.z * (b i).next.u.z ≤ 1
      nlinarith [sq_nonneg (b i).next.u.x, sq_nonneg (b i).next.u.y]
    linarith
  linarith

/-- the hypotheses of the run with recentering are met, with a step that is kept -/
example {H : TriElem.Rule} (hH : H = TriElem.rule1 ∨ H = TriElem.rule4) (c : ℝ) (hc : 0 < c) (τ : Equiv.Perm (Fin 4))
    (σ : Equiv.Perm (Fin 3)) (hτ : 0 < c ^ 3 * Similarity.sg τ) (hσ : ∀ f, (exSim c hc.ne' τ σ).sense f = 1) :
    let S := exSim c hc.ne' τ σ
    let g := searchGeo exNd ⟨1 / 2, 1 / 2, 1 / 2⟩ ⟨1, 1, 1⟩ fun _ => 1 / 5
    let g' := searchGeo (describedNodes S exNd) (c * V3.mk (1 / 2) (1 / 2) (1 / 2)) (|c| * V3.mk 1 1 1) fun _ => 1 / 5
    ∃ D inp inp', 0 < S.ratio ∧ Start (exPs H) (recCfg D (loopRecenter g 2 2)) exNd ∧
      Start ((exPs H).described S (exTets S) (exTris S)) (recCfg D (loopRecenter g' 2 2)) (describedNodes S exNd) ∧
      SameSettings (recCfg D (loopRecenter g 2 2)) (recCfg D (loopRecenter g' 2 2)) ∧ Relisted S (exPs H) (exTets S) (exTris S) ∧
      Alike S exNd (describedNodes S exNd) ∧ Valid (recCfg D (loopRecenter g 2 2)) ∧ Geo.Described S g g' ∧ NearestOk g exNd ∧
      NearestOk g' (describedNodes S exNd) ∧ World.Described S (exTets S) (exTris S) (exWs H) (exWs' H S) ∧
      ExactRun (exPs H) (recCfg D (loopRecenter g 2 2)) (exWs H) (fun _ => 0) 0 exNd inp ∧
      ExactRun ((exPs H).described S (exTets S) (exTris S)) (recCfg D (loopRecenter g' 2 2)) (exWs' H S) (fun _ => 0) 0
        (describedNodes S exNd) inp' ∧
      (∀ k, (inp k).sig = (inp' k).sig) ∧ (∀ k, (inp k).sol = none ↔ (inp' k).sol = none) ∧
      (∀ k a, KeptNodes (recCfg D (loopRecenter g 2 2)) 0 (inp k)
        (TimeLoop.run (recCfg D (loopRecenter g 2 2)) 0 exNd ((exWs H).pot exNd) inp k) a →
        ∀ q, Queried g 2 (switchDir 2) a q → NoTie a q) ∧
      ∃ a, KeptNodes (recCfg D (loopRecenter g 2 2)) 0 (inp 1)
        (TimeLoop.run (recCfg D (loopRecenter g 2 2)) 0 exNd ((exWs H).pot exNd) inp 1) a := by
  intro S g g'
  have hal := alike_describedNodes S exNd
  have hl := ex_relisted hH S hσ
  have hs : ∀ D, Start (exPs H) (exCfg D) exNd := fun D => exs_start H D (ex_start H D)
  have hs' : ∀ D, Start ((exPs H).described S (exTets S) (exTris S)) (exCfg D) (describedNodes S exNd) := fun D =>
    start_described S (hs D) hl hal (fun _ _ => hτ) (fun _ => rfl) rfl
  obtain ⟨X, hX⟩ := ex_exact_run _ _ hs (exWs H) (fun _ => rfl) 0 0
  obtain ⟨X', hX'⟩ := ex_exact_run _ _ hs' (exWs' H S) (fun _ => rfl) 0 1
  have hv := ex_valid (10 * vMax 1 (fun _ => true) X) (by unfold vMax; positivity)
  refine ⟨10 * vMax 1 (fun _ => true) X, exInp 0 X, exInp 1 X', hc, recCfg_start (hs _) _, recCfg_start (hs' _) _,
    ⟨rfl, rfl, rfl, rfl, rfl, rfl, rfl, rfl⟩, hl, hal, ⟨hv.dtmin, hv.dtmax, hv.tstep, hv.dumax, hv.addErr⟩,
    ⟨rfl, rfl, fun _ => rfl⟩, searchGeo_ok _ _ _ _, searchGeo_ok _ _ _ _, exs_described H S,
    recCfg_exact (fun _ => rfl) (hX _) _, recCfg_exact (fun _ => rfl) (hX' _) _, fun _ => rfl, ?_, ?_, ?_⟩
  · intro k
    unfold exInp
    dsimp only
    split_ifs <;> simp
  · intro k a ha q hq
    exact absurd hq (recCfg_kept _ 2 (by norm_num) g (fun _ => rfl) _ exNd (fun i => by
      unfold exNd IsUnit3
      dsimp only
      split_ifs <;> norm_num) _ k a ha q)
  · rw [recCfg_run1]
    obtain ⟨h1, h2, h3, -⟩ := exq_run1 exNd (10 * vMax 1 (fun _ => true) X) (exInp 0 X)
    have hatt := exq_att exNd (10 * vMax 1 (fun _ => true) X) (exInp 0 X)
    refine ⟨_, X, ⟨h1, ?_, rfl⟩, ?_, rfl, ?_, rfl⟩
    · change (TimeLoop.run (exCfg (10 * vMax 1 (fun _ => true) X)) 0 exNd (fun _ => (0, 0)) (exInp 0 X) 1).t <
        tTarget (exCfg (10 * vMax 1 (fun _ => true) X)) 0
          (TimeLoop.run (exCfg (10 * vMax 1 (fun _ => true) X)) 0 exNd (fun _ => (0, 0)) (exInp 0 X) 1).stepNb
      rw [h2, h3]
      norm_num [tTarget, Run.exCfg]
    · change (1 : ℝ) ≤ attDt (exCfg (10 * vMax 1 (fun _ => true) X)) 0 _
      refine le_trans ?_ (le_of_eq hatt.symm)
      norm_num
    · change attDt (exCfg (10 * vMax 1 (fun _ => true) X)) 0 _ * _ ≤ 10 * vMax 1 (fun _ => true) X
      exact le_of_eq (congrArg (· * _) hatt)

end

end Verif.Recenter
