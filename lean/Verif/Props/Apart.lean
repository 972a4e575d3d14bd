import Verif.Props.Surroundings
import Verif.Props.EnergyTable

/-!
# C114: magnets that do not touch
-/

namespace Verif.Apart

open Verif.Mesh Verif.MeshElem Verif.Assembly Verif.Tetra Verif.SparseMat Verif.Llg Verif.WeakForm Verif.TimeLoop Verif.Run

variable {n : ℕ} {ET ET' : Type} {P : Problem} {cfg : Cfg n ET} {cfg' : Cfg n ET'} {mag' : ℕ → Bool}

/-- `i` is a node of a tetrahedron of the regions `mag'` -/
def NodeOf (P : Problem) (mag' : ℕ → Bool) (i : ℕ) : Prop := ∃ t ∈ P.tets, mag' t.reg = true ∧ ∃ k, t.ind k = i

/-- The regions `mag'` are some of the magnets of the sample, and the other magnets do not touch them: no tetrahedron of the others
and no triangle shares a node with them, except the triangles that are their own. -/
structure Part (P : Problem) (mag' : ℕ → Bool) : Prop where
  sub : ∀ t ∈ P.tets, mag' t.reg = true → P.mag t.reg = true
  tets : ∀ t ∈ P.tets, P.mag t.reg = true → mag' t.reg = false → ∀ k, ¬ NodeOf P mag' (t.ind k)
  tris : ∀ f ∈ P.tris, (∀ k, NodeOf P mag' (f.1.ind k)) ∨ ∀ k, ¬ NodeOf P mag' (f.1.ind k)

/-- the same mesh with the magnets `mag'` alone, the others not magnetic -/
def alone (P : Problem) (n : ℕ) (mag' : ℕ → Bool) : Problem :=
  { P with mag := mag', tris := P.tris.filter fun f => f.1.isMagnetic (magNode mag' n P.tets) }

theorem node_iff (hv : IndicesValid n P.tets) (i : ℕ) : (magNode mag' n P.tets).getD i false = true ↔ NodeOf P mag' i := by
  constructor
  · intro h
    exact (magNode_iff mag' n P.tets i (magNode_lt h)).mp h
  · rintro ⟨t, ht, hm, k, rfl⟩
    exact (magNode_iff mag' n P.tets _ (hv t ht k)).mpr ⟨t, ht, hm, k, rfl⟩

theorem tri_iff (hv : IndicesValid n P.tets) (f : Tri) :
    f.isMagnetic (magNode mag' n P.tets) = true ↔ ∀ k, NodeOf P mag' (f.ind k) := by
  unfold Tri.isMagnetic
  simp only [Bool.and_eq_true, node_iff hv]
  constructor
  · rintro ⟨⟨h0, h1⟩, h2⟩ k
    fin_cases k
    exacts [h0, h1, h2]
  · exact fun h => ⟨⟨h 0, h 1⟩, h 2⟩

theorem interpV_zero (G : Rule) (j : Fin G.n) : interpV G (fun _ => 0) j = 0 := by
  unfold interpV
  ext <;> simp

/-- no test field, no residual -/
theorem residual_zero (G : Rule) (m : Prm) (s : Step) (x : Nodal) (Hext Hst : Fin G.n → V3) (dir : Option (Fin 3)) (V : ℝ)
    (v : Fin 4 → V3) : WeakForm.residual G m s x Hext Hst dir V v (fun _ => 0) = 0 := by
  have hz : ∀ c : V3, c.dot 0 = 0 := fun c => by simp [V3.dot]
  have e1 : ∀ al : Fin G.n → ℝ, damping G x.p al v (fun _ => 0) = 0 := fun al => by
    rw [damping_eq]
    exact Finset.sum_eq_zero fun i _ => by rw [hz]; ring
  have e2 : gyration G x.p x.u v (fun _ => 0) = 0 := by
    rw [gyration_eq]
    exact Finset.sum_eq_zero fun i _ => by rw [hz]; ring
  have e3 : ∀ g : Fin 4 → V3, gradDot x.p g (fun _ => 0) = 0 := fun g => by
    unfold gradDot
    simp [V3.dot, Tetra.deriv]
  have e4 : ∀ F : Fin G.n → V3, work G x.p F (fun _ => 0) = 0 := fun F => by
    unfold work
    exact Finset.sum_eq_zero fun i _ => by rw [interpV_zero, hz, mul_zero]
  have e5 : drift G m s x dir V (fun _ => 0) = 0 := by
    unfold drift
    cases dir with
    | none => rfl
    | some d =>
      exact mul_eq_zero_of_right _ (Finset.sum_eq_zero fun i _ => by rw [interpV_zero, hz, mul_zero])
  unfold WeakForm.residual
  rw [e1, e2, e3, e4, e5]
  ring

theorem surface_zero (H : TriElem.Rule) (sp : SurfPrm) (d : ℝ) (p u : Fin 3 → V3) : surfaceWork H sp d p u (fun _ => 0) = 0 := by
  have : ∀ j, TriElem.interpV H (fun _ => 0) j = 0 := fun j => by
    unfold TriElem.interpV
    ext <;> simp
  unfold surfaceWork
  simp [this, V3.dot]

/-- a sum over the larger of two selections, when the rest does not contribute -/
theorem sum_filter {α : Type} (l : List α) (p q : α → Bool) (f g : α → ℝ) (hqp : ∀ x ∈ l, q x = true → p x = true)
    (h0 : ∀ x ∈ l, p x = true → q x = false → f x = 0) (hfg : ∀ x ∈ l, q x = true → f x = g x) :
    ((l.filter p).map f).sum = ((l.filter q).map g).sum := by
  induction l with
  | nil => rfl
  | cons a l ih =>
    have ih' := ih (fun x hx => hqp x (List.mem_cons_of_mem _ hx)) (fun x hx => h0 x (List.mem_cons_of_mem _ hx))
      fun x hx => hfg x (List.mem_cons_of_mem _ hx)
    have ha := List.mem_cons_self (a := a) (l := l)
    cases hq : q a with
    | true =>
      rw [List.filter_cons_of_pos (hqp a ha hq), List.filter_cons_of_pos hq, List.map_cons, List.map_cons, List.sum_cons,
        List.sum_cons, ih', hfg a ha hq]
    | false =>
      rw [List.filter_cons_of_neg (p := q) (by simp [hq]), ← ih']
      cases hp : p a with
      | true => rw [List.filter_cons_of_pos hp, List.map_cons, List.sum_cons, h0 a ha hp hq, zero_add]
      | false => rw [List.filter_cons_of_neg (by simp [hp])]

/-- the equation of motion of the sample contains that of the magnets `mag'` -/
theorem holds_part (hv : IndicesValid n P.tets) (hP : Part P mag') (s : Step) {nodes nodes' : ℕ → Node}
    (hn : ∀ i, NodeOf P mag' i → (nodes' i).p = (nodes i).p ∧ (nodes' i).cur = (nodes i).cur) (Hext Hst Hext' Hst' : Tet → Fin P.G.n → V3)
    (hH : ∀ t ∈ magTet mag' P.tets, Hext' t = Hext t ∧ Hst' t = Hst t) (V : ℝ) (v : ℕ → V3)
    (h : Holds P.G P.H P.prm P.sprm s (fun i => (magNode P.mag n P.tets).getD i false = true) (magTet P.mag P.tets) P.tris nodes Hext Hst
      P.dir V v) :
    Holds P.G P.H P.prm P.sprm s (fun i => (magNode mag' n P.tets).getD i false = true) (magTet mag' P.tets) (alone P n mag').tris nodes'
      Hext' Hst' P.dir V v := by
  classical
  intro w hw
  have h' := h (fun i => if NodeOf P mag' i then w i else 0) (by
    intro i _
    split_ifs with hi
    · rw [← (hn i hi).2]
      exact hw i ((node_iff hv i).mpr hi)
    · simp [V3.dot])
  refine Eq.trans ?_ (h'.trans ?_)
  · refine (sum_filter P.tets _ _ _ _ hP.sub ?_ ?_).symm
    · intro t ht h1 h2
      have : (fun i => if NodeOf P mag' (t.ind i) then w (t.ind i) else 0) = fun _ => 0 := by
        funext k
        exact if_neg (hP.tets t ht h1 h2 k)
      rw [this, residual_zero]
    · intro t ht h1
      have hk : ∀ k, NodeOf P mag' (t.ind k) := fun k => ⟨t, ht, h1, k, rfl⟩
      have : (fun i => if NodeOf P mag' (t.ind i) then w (t.ind i) else 0) = fun k => w (t.ind k) := by
        funext k
        exact if_pos (hk k)
      obtain ⟨e1, e2⟩ := hH t (List.mem_filter.mpr ⟨ht, h1⟩)
      rw [this, e1, e2]
      symm
      apply Surroundings.residual_bases
      all_goals
        funext k
        simp only [nodalOf, (hn _ (hk k)).1, (hn _ (hk k)).2]
  · have := sum_filter P.tris (fun _ => true) (fun f => f.1.isMagnetic (magNode mag' n P.tets))
      (fun f => surfaceWork P.H (P.sprm f.1.reg) f.2 (fun i => (nodes (f.1.ind i)).p) (fun i => (nodes (f.1.ind i)).cur.u)
        (fun i => if NodeOf P mag' (f.1.ind i) then w (f.1.ind i) else 0))
      (fun f => surfaceWork P.H (P.sprm f.1.reg) f.2 (fun i => (nodes' (f.1.ind i)).p) (fun i => (nodes' (f.1.ind i)).cur.u)
        (fun i => w (f.1.ind i))) (fun _ _ _ => rfl) ?_ ?_
    · rw [List.filter_true] at this
      exact this
    · intro f hf _ h2
      have hno : ∀ k, ¬ NodeOf P mag' (f.1.ind k) := by
        rcases hP.tris f hf with h3 | h3
        · rw [(tri_iff hv f.1).mpr h3] at h2
          cases h2
        · exact h3
      have : (fun i => if NodeOf P mag' (f.1.ind i) then w (f.1.ind i) else 0) = fun _ => 0 := by
        funext k
        exact if_neg (hno k)
      rw [this, surface_zero]
    · intro f hf h2
      have hk := (tri_iff hv f.1).mp h2
      simp only [if_pos (hk _), (hn _ (hk _)).1, (hn _ (hk _)).2]

theorem system_holds {nd : Fin n → Node} {dt : ℝ} (F : Fields P)
    (hT : TimeStep P.G P.prm (P.step cfg dt) P.mag n P.tets (ext nd)) (hvt : ∀ f ∈ P.tris, ∀ k, f.1.ind k < n)
    (hmt : ∀ f ∈ P.tris, f.1.isMagnetic (magNode P.mag n P.tets) = true) {M : Sp ℝ} {b : List ℝ} (hsys : IsSystem P cfg F nd dt M b)
    (x : ℕ → ℝ) (hx : M.mult x = b) :
    Holds P.G P.H P.prm P.sprm (P.step cfg dt) (fun i => (magNode P.mag n P.tets).getD i false = true) (magTet P.mag P.tets) P.tris (ext nd)
      F.Hext F.Hst P.dir F.V (ofComp (ext nd) x) := by
  obtain ⟨order, orderT, before, ho, hoT, hb, h1, h2⟩ := hsys
  obtain ⟨M', b', e1, e2, hiff⟩ := C65_weak_form hT P.H P.sprm P.tris hvt hmt F.Hext F.Hst P.dir F.V order ho orderT hoT before hb
  rw [h1] at e1
  cases e1
  rw [h2] at e2
  cases e2
  exact ((hiff x).mp hx).2

/-- **C114** Magnets that do not touch act on each other only through the fields: in an attempt with the same step, from the same state
and in the same fields (those of all magnets), the magnets `mag'` get the same velocities and the same new magnetization with the
other magnets as if these were not magnetic, whatever the state and the materials of the others, and with other tangent bases. -/
theorem C114_step (hP : Part P mag') (hg : cfg'.gamma0 = cfg.gamma0) (hD : cfg'.DTMAX = cfg.DTMAX) {nd nd' : Fin n → Node} {dt : ℝ}
    (hT : TimeStep P.G P.prm (P.step cfg dt) P.mag n P.tets (ext nd)) (hT' : TimeStep P.G P.prm (P.step cfg dt) mag' n P.tets (ext nd'))
    (hvt : ∀ f ∈ P.tris, ∀ k, f.1.ind k < n) (hmt : ∀ f ∈ P.tris, f.1.isMagnetic (magNode P.mag n P.tets) = true)
    (hm : ∀ i : Fin n, cfg.magNode i = true ↔ NodeOf P P.mag i) (hm' : ∀ i : Fin n, cfg'.magNode i = true ↔ NodeOf P mag' i)
    (hn : ∀ i : Fin n, NodeOf P mag' i → (nd' i).p = (nd i).p ∧ (nd' i).cur = (nd i).cur)
    (F : Fields P) (F' : Fields (alone P n mag')) (hF : ∀ t ∈ magTet mag' P.tets, F'.Hext t = F.Hext t ∧ F'.Hst t = F.Hst t)
    (hV : F'.V = F.V) {M M' : Sp ℝ} {b b' : List ℝ} (hsys : IsSystem P cfg F nd dt M b)
    (hsys' : IsSystem (alone P n mag') cfg' F' nd' dt M' b') (X X' : Fin n → ℝ × ℝ) (hX : M.mult (unknowns X) = b)
    (hX' : M'.mult (unknowns X') = b') (i : Fin n) (hi : NodeOf P mag' i) :
    (updateNodes cfg' X' dt nd' i).next.v = (updateNodes cfg X dt nd i).next.v ∧
    (updateNodes cfg' X' dt nd' i).next.u = (updateNodes cfg X dt nd i).next.u := by
  have hv : IndicesValid n P.tets := hT.valid
  have hstep : (alone P n mag').step cfg' dt = P.step cfg dt := by
    unfold Problem.step
    rw [hg, hD]
    rfl
  have hne : ∀ i, NodeOf P mag' i → (ext nd' i).p = (ext nd i).p ∧ (ext nd' i).cur = (ext nd i).cur := by
    intro i h
    have hlt : i < n := by
      obtain ⟨t, ht, -, k, rfl⟩ := h
      exact hv t ht k
    unfold Run.ext
    rw [dif_pos hlt, dif_pos hlt]
    exact hn ⟨i, hlt⟩ h
  have k1 := holds_part hv hP _ hne _ _ F'.Hext F'.Hst hF _ _ (system_holds F hT hvt hmt hsys _ hX)
  have k2 := system_holds (P := alone P n mag') (cfg := cfg') F' (by rw [hstep]; exact hT') (fun f hf => hvt f (List.mem_filter.mp hf).1)
    (fun f hf => (List.mem_filter.mp hf).2) hsys' _ hX'
  rw [hstep, hV] at k2
  have hsub : ∀ i, NodeOf P mag' i → NodeOf P P.mag i := fun i ⟨t, ht, hm, k, hk⟩ => ⟨t, ht, hP.sub t ht hm, k, hk⟩
  have hu := holds_unique hT' P.H P.sprm (alone P n mag').tris F'.Hext F'.Hst P.dir F.V
    (fun i => (magNode mag' n P.tets).getD i false = true) (ofComp (ext nd) (unknowns X)) (ofComp (ext nd') (unknowns X'))
    (fun i hi => by
      have hi' := (node_iff hv i).mp hi
      rw [(hne i hi').2]
      exact ofComp_tangent hT _ i ((node_iff hv i).mpr (hsub i hi'))) (fun i hi => ofComp_tangent hT' _ i hi) k1 k2
  obtain ⟨t, ht, hmt', k, hk⟩ := id hi
  have hvel := hu t (List.mem_filter.mpr ⟨ht, hmt'⟩) k
  rw [hk] at hvel
  have e : ∀ (N : Fin n → Node) (Y : Fin n → ℝ × ℝ) (g : ℝ), (Y i).1 * g * (N i).ep + (Y i).2 * g * (N i).eq =
      g * ofComp (ext N) (unknowns Y) i := by
    intro N Y g
    have a1 : (2 * (i : ℕ)) / 2 = i := by omega
    have a2 : (2 * (i : ℕ) + 1) / 2 = i := by omega
    unfold ofComp unknowns Run.ext
    simp only [a1, a2, i.isLt, dif_pos, Nat.mul_mod_right, if_true]
    rw [if_neg (by omega)]
    ext <;> simp only [V3.add_x, V3.add_y, V3.add_z, V3.smul_x, V3.smul_y, V3.smul_z] <;> ring
  unfold updateNodes
  rw [if_pos ((hm i).mpr (hsub i hi)), if_pos ((hm' i).mpr hi)]
  unfold Node.makeEvol
  dsimp only
  rw [e, e, (hn i hi).2, hg, hvel]
  exact ⟨rfl, rfl⟩

/-- the sample consists of the magnets `magA` and the magnets `magB`, which do not touch -/
structure Two (P : Problem) (magA magB : ℕ → Bool) : Prop where
  partA : Part P magA
  partB : Part P magB
  all : ∀ t ∈ P.tets, P.mag t.reg = true → magA t.reg = true ∨ magB t.reg = true
  not_both : ∀ t ∈ P.tets, ¬ (magA t.reg = true ∧ magB t.reg = true)

theorem sum_split {α : Type} (l : List α) (p q r : α → Bool) (f : α → ℝ) (h : ∀ x ∈ l, p x = (q x || r x))
    (hd : ∀ x ∈ l, ¬ (q x = true ∧ r x = true)) :
    ((l.filter p).map f).sum = ((l.filter q).map f).sum + ((l.filter r).map f).sum := by
  induction l with
  | nil => simp
  | cons a l ih =>
    have ih' := ih (fun x hx => h x (List.mem_cons_of_mem _ hx)) fun x hx => hd x (List.mem_cons_of_mem _ hx)
    have h1 := h a List.mem_cons_self
    have h2 := hd a List.mem_cons_self
    simp only [List.filter_cons, h1]
    cases hq : q a <;> cases hr : r a
    · simpa using ih'
    · simp only [Bool.or_true, if_true, Bool.false_eq_true, if_false, List.map_cons, List.sum_cons, ih']
      ring
    · simp only [Bool.or_false, if_true, Bool.false_eq_true, if_false, List.map_cons, List.sum_cons, ih']
      ring
    · exact absurd ⟨hq, hr⟩ h2

section
variable {magA magB : ℕ → Bool}

theorem Two.tets (h : Two P magA magB) (f : Tet → ℝ) :
    ((magTet P.mag P.tets).map f).sum = ((magTet magA P.tets).map f).sum + ((magTet magB P.tets).map f).sum := by
  refine sum_split P.tets _ _ _ f (fun t ht => ?_) h.not_both
  rw [Bool.eq_iff_iff, Bool.or_eq_true]
  exact ⟨h.all t ht, fun h' => h'.elim (h.partA.sub t ht) (h.partB.sub t ht)⟩

theorem Two.tris (h : Two P magA magB) (hv : IndicesValid n P.tets) (hmt : ∀ f ∈ P.tris, f.1.isMagnetic (magNode P.mag n P.tets) = true)
    (f : Tri × ℝ → ℝ) :
    (P.tris.map f).sum = ((alone P n magA).tris.map f).sum + ((alone P n magB).tris.map f).sum := by
  have hnot : ∀ i, ¬ (NodeOf P magA i ∧ NodeOf P magB i) := by
    rintro i ⟨h1, t, ht, hm, k, rfl⟩
    refine h.partA.tets t ht (h.partB.sub t ht hm) ?_ k h1
    rw [Bool.eq_false_iff]
    exact fun h' => h.not_both t ht ⟨h', hm⟩
  have := sum_split P.tris (fun _ => true) (fun f => f.1.isMagnetic (magNode magA n P.tets)) (fun f => f.1.isMagnetic (magNode magB n P.tets)) f
    (fun x hx => ?_) fun x hx h' => hnot _ ⟨(tri_iff hv _).mp h'.1 0, (tri_iff hv _).mp h'.2 0⟩
  · rw [List.filter_true] at this
    exact this
  · symm
    rw [Bool.or_eq_true, tri_iff hv, tri_iff hv]
    obtain ⟨t, ht, hm, k, hk⟩ := (tri_iff (P := P) hv x.1).mp (hmt x hx) 0
    rcases h.all t ht hm with h' | h'
    · left
      rcases h.partA.tris x hx with h3 | h3
      · exact h3
      · exact absurd ⟨t, ht, h', k, hk⟩ (h3 0)
    · right
      rcases h.partB.tris x hx with h3 | h3
      · exact h3
      · exact absurd ⟨t, ht, h', k, hk⟩ (h3 0)

/-- **C114** The stray field of two magnets that do not touch is the sum of their stray fields: their potentials add up, when the sum
over the charges is exact. -/
theorem C114_potential (h : Two P magA magB) (hv : IndicesValid n P.tets)
    (hmt : ∀ f ∈ P.tris, f.1.isMagnetic (magNode P.mag n P.tets) = true) (hi : ∀ f ∈ P.tris, Function.Injective f.1.ind) (p u : ℕ → V3) (i : ℕ) :
    directPot P.G P.H p (fun r => (P.prm r).Ms) (magTet P.mag P.tets) P.tris u i =
      directPot P.G P.H p (fun r => (P.prm r).Ms) (magTet magA P.tets) (alone P n magA).tris u i +
      directPot P.G P.H p (fun r => (P.prm r).Ms) (magTet magB P.tets) (alone P n magB).tris u i := by
  unfold directPot
  rw [Potential.corr_eq P.H p u P.tris hi, Potential.corr_eq P.H p u (alone P n magA).tris fun f hf => hi f (List.mem_filter.mp hf).1,
    Potential.corr_eq P.H p u (alone P n magB).tris fun f hf => hi f (List.mem_filter.mp hf).1, h.tets, h.tris hv hmt, h.tris hv hmt]
  ring

/-- **C114** Each energy of two magnets that do not touch is the sum of their energies, in the same fields. -/
theorem C114_energy (h : Two P magA magB) (hv : IndicesValid n P.tets)
    (hmt : ∀ f ∈ P.tris, f.1.isMagnetic (magNode P.mag n P.tets) = true) (p u : ℕ → V3) (phi : ℕ → ℝ) (a : EnergyAll.Applied P.G.n)
    (ha : a ≠ .undef) :
    let E := EnergyAll.terms P.G P.H P.mu0 p P.prm P.sprm (magTet P.mag P.tets) P.tris u phi a
    let EA := EnergyAll.terms P.G P.H P.mu0 p P.prm P.sprm (magTet magA P.tets) (alone P n magA).tris u phi a
    let EB := EnergyAll.terms P.G P.H P.mu0 p P.prm P.sprm (magTet magB P.tets) (alone P n magB).tris u phi a
    E.exchange = EA.exchange + EB.exchange ∧ E.anisotropy = EA.anisotropy + EB.anisotropy ∧ E.demag = EA.demag + EB.demag ∧
      E.zeeman = EA.zeeman + EB.zeeman := by
  intro E EA EB
  have T := fun m => EnergyAll.tet_fold (G := P.G) (mu0 := P.mu0) (p := p) (prm := P.prm) u phi a m ⟨0, 0, 0, 0⟩
  obtain ⟨a1, a2, a3⟩ := T (magTet P.mag P.tets)
  obtain ⟨b1, b2, b3⟩ := T (magTet magA P.tets)
  obtain ⟨c1, c2, c3⟩ := T (magTet magB P.tets)
  refine ⟨?_, ?_, ?_, ?_⟩
  · simp only [E, EA, EB, EnergyAll.terms, EnergyAll.tri_fold]
    rw [a1, b1, c1, h.tets]
    ring
  · simp only [E, EA, EB, EnergyAll.terms, EnergyAll.tri_fold]
    unfold Llg.surfAniso
    rw [a2, b2, c2, h.tets, h.tris hv hmt]
    ring
  · simp only [E, EA, EB, EnergyAll.terms, EnergyAll.tri_fold]
    rw [a3, b3, c3, h.tets, h.tris hv hmt]
    ring
  · obtain ⟨g, hg⟩ : ∃ g, EnergyAll.fieldAt a = some g := by
      cases a with
      | undef => exact absurd rfl ha
      | uniform h => exact ⟨_, rfl⟩
      | space amp h => exact ⟨_, rfl⟩
    simp only [E, EA, EB]
    rw [EnergyAll.C82_zeeman_term _ _ u phi a g hg, EnergyAll.C82_zeeman_term _ _ u phi a g hg,
      EnergyAll.C82_zeeman_term _ _ u phi a g hg]
    unfold EnergyAll.zeemanSum
    rw [h.tets]
    rfl

end

/-! ## Example: two tetrahedrons side by side, each with surface anisotropy on one face -/

def exT : List Tet := [⟨![0, 1, 2, 3], 0⟩, ⟨![4, 5, 6, 7], 1⟩]

noncomputable def exPos (i : ℕ) : V3 := if i < 4 then exP2 i else exP2 (i - 4) + ⟨5, 0, 0⟩

noncomputable def exP (H : TriElem.Rule) : Problem :=
  { G := rule5, H := H, prm := Energy.ex2Prm, sprm := fun _ => ⟨1, ⟨0, 0, 1⟩⟩, mag := fun _ => true, tets := exT
    tris := [(⟨![0, 1, 2], 0⟩, 1), (⟨![4, 5, 6], 0⟩, 4)], mu0 := 1, theta := 1 / 2, dir := none }

noncomputable def exCfg (magN : Fin 8 → Bool) : Cfg 8 ℝ :=
  { tf := 20, DTMIN := 1, DTMAX := 100, DUMAX := 1, timeStep := 10, savePeriod := 2, gamma0 := 1, add := (· + ·)
    magNode := magN, energy := fun _ t => t, recenter := some }

noncomputable def exNd : Fin 8 → Node := fun i =>
  ⟨exPos i, 0, 0, ⟨0, 0, 0, 0⟩, ⟨if (i : ℕ) = 0 ∨ (i : ℕ) = 5 then ⟨1, 0, 0⟩ else ⟨0, 0, 1⟩, 0, 0, 0⟩⟩

theorem ex_indices : IndicesValid 8 exT := by
  intro t ht k
  simp only [exT, List.mem_cons, List.not_mem_nil, or_false] at ht
  rcases ht with rfl | rfl <;> fin_cases k <;> simp

theorem ex_node (H : TriElem.Rule) (mag : ℕ → Bool) (i : ℕ) :
    NodeOf (exP H) mag i ↔ (mag 0 = true ∧ i < 4) ∨ (mag 1 = true ∧ 4 ≤ i ∧ i < 8) := by
  unfold NodeOf
  simp only [exP, exT, List.mem_cons, List.not_mem_nil, or_false, exists_eq_or_imp, exists_eq_left]
  refine or_congr (and_congr Iff.rfl ⟨?_, fun h => ⟨⟨i, h⟩, ?_⟩⟩) (and_congr Iff.rfl ⟨?_, fun h => ⟨⟨i - 4, by omega⟩, ?_⟩⟩)
  · rintro ⟨k, rfl⟩
    fin_cases k <;> simp
  · interval_cases i <;> rfl
  · rintro ⟨k, rfl⟩
    fin_cases k <;> simp
  · obtain ⟨h1, h2⟩ := h
    interval_cases i <;> rfl

theorem ex_two (H : TriElem.Rule) : Two (exP H) (fun r => r == 0) (fun r => r == 1) := by
  have mem : ∀ t ∈ (exP H).tets, (t.reg = 0 ∧ ∀ k, t.ind k < 4) ∨ (t.reg = 1 ∧ ∀ k, 4 ≤ t.ind k ∧ t.ind k < 8) := by
    intro t ht
    simp only [exP, exT, List.mem_cons, List.not_mem_nil, or_false] at ht
    rcases ht with rfl | rfl
    · left
      refine ⟨rfl, fun k => ?_⟩
      fin_cases k <;> simp
    · right
      refine ⟨rfl, fun k => ?_⟩
      fin_cases k <;> simp
  have tri : ∀ f ∈ (exP H).tris, (∀ k, f.1.ind k < 4) ∨ ∀ k, 4 ≤ f.1.ind k ∧ f.1.ind k < 8 := by
    intro f hf
    simp only [exP, List.mem_cons, List.not_mem_nil, or_false] at hf
    rcases hf with rfl | rfl
    · left
      intro k
      fin_cases k <;> simp
    · right
      intro k
      fin_cases k <;> simp
  refine ⟨⟨fun _ _ _ => rfl, ?_, ?_⟩, ⟨fun _ _ _ => rfl, ?_, ?_⟩, ?_, ?_⟩
  · intro t ht _ h2 k
    rw [ex_node]
    rcases mem t ht with ⟨h3, -⟩ | ⟨-, h4⟩
    · simp [h3] at h2
    · have := h4 k
      simp
      omega
  · intro f hf
    simp only [ex_node]
    rcases tri f hf with h | h
    · exact Or.inl fun k => Or.inl ⟨rfl, h k⟩
    · refine Or.inr fun k => ?_
      have := h k
      simp
      omega
  · intro t ht _ h2 k
    rw [ex_node]
    rcases mem t ht with ⟨-, h4⟩ | ⟨h3, -⟩
    · have := h4 k
      simp
      omega
    · simp [h3] at h2
  · intro f hf
    simp only [ex_node]
    rcases tri f hf with h | h
    · refine Or.inr fun k => ?_
      have := h k
      simp
      omega
    · exact Or.inl fun k => Or.inr ⟨rfl, h k⟩
  · intro t ht _
    rcases mem t ht with ⟨h3, -⟩ | ⟨h3, -⟩ <;> simp [h3]
  · intro t ht
    rcases mem t ht with ⟨h3, -⟩ | ⟨h3, -⟩ <;> simp [h3]

theorem ex_oriented : ∀ t ∈ exT, 0 < detJ (nod4 (fun i => (ext exNd i).p) t) := by
  intro t ht
  have e : nod4 (fun i => (ext exNd i).p) t = nod4 exPos t := by
    funext k
    have := ex_indices t ht k
    unfold nod4 Run.ext
    dsimp only
    rw [dif_pos this]
    rfl
  rw [e]
  simp only [exT, List.mem_cons, List.not_mem_nil, or_false] at ht
  rcases ht with rfl | rfl <;> rw [Tetra.detJ_eq] <;> simp [nod4, exPos, exP2, V3.dot, V3.cross]

theorem ex_triMag (H : TriElem.Rule) : ∀ f ∈ (exP H).tris, f.1.isMagnetic (magNode (exP H).mag 8 (exP H).tets) = true := by
  intro f hf
  rw [tri_iff (P := exP H) ex_indices]
  simp only [ex_node]
  simp only [exP, List.mem_cons, List.not_mem_nil, or_false] at hf
  rcases hf with rfl | rfl <;> intro k <;> fin_cases k <;> simp [exP]

theorem ex_triValid (H : TriElem.Rule) : ∀ f ∈ (exP H).tris, ∀ k, f.1.ind k < 8 := by
  intro f hf k
  simp only [exP, List.mem_cons, List.not_mem_nil, or_false] at hf
  rcases hf with rfl | rfl <;> fin_cases k <;> simp

theorem ex_inj (H : TriElem.Rule) : ∀ f ∈ (exP H).tris, Function.Injective f.1.ind := by
  intro f hf
  simp only [exP, List.mem_cons, List.not_mem_nil, or_false] at hf
  rcases hf with rfl | rfl <;> intro a b h <;> fin_cases a <;> fin_cases b <;> simp at h ⊢

theorem ex_unit (i : Fin 8) : IsUnit3 (exNd i).next.u := by
  unfold exNd
  dsimp only
  split_ifs <;> simp [IsUnit3]

theorem ex_start (H : TriElem.Rule) : Start (exP H) (exCfg fun _ => true) exNd where
  rule := Or.inr rfl
  valid := ex_indices
  oriented := ex_oriented
  magNode i := by
    refine ⟨fun _ => (ex_node H _ i).mpr ?_, fun _ => rfl⟩
    simp only [exP, true_and]
    omega
  unit i _ := ex_unit i
  triValid := ex_triValid H
  triMag := ex_triMag H
  alpha := fun _ _ => by simp [exP, Energy.ex2Prm]
  exchange := fun _ _ => by simp [exP, Energy.ex2Prm]
  magnetic := fun t _ => by
    simp only [exP, Energy.ex2Prm]
    split_ifs <;> norm_num
  gamma0 := by norm_num [exCfg]
  mu0 := by norm_num [exP]
  theta := by norm_num [exP]

theorem ex_startA (H : TriElem.Rule) : Start (alone (exP H) 8 fun r => r == 0) (exCfg fun i => decide ((i : ℕ) < 4)) exNd where
  rule := Or.inr rfl
  valid := ex_indices
  oriented := ex_oriented
  magNode i := by
    refine Iff.trans ?_ (ex_node H _ i).symm
    simp [exCfg, alone]
  unit i _ := ex_unit i
  triValid f hf := ex_triValid H f (List.mem_filter.mp hf).1
  triMag f hf := (List.mem_filter.mp hf).2
  alpha := fun _ _ => by simp [alone, exP, Energy.ex2Prm]
  exchange := fun _ _ => by simp [alone, exP, Energy.ex2Prm]
  magnetic := fun t _ => by
    simp only [alone, exP, Energy.ex2Prm]
    split_ifs <;> norm_num
  gamma0 := by norm_num [exCfg]
  mu0 := by norm_num [alone, exP]
  theta := by norm_num [alone, exP]

theorem ex_valid (m : Fin 8 → Bool) : Valid (exCfg m) :=
  ⟨by norm_num [exCfg], by norm_num [exCfg], by norm_num [exCfg], by norm_num [exCfg], fun t dt => by norm_num [exCfg]⟩

theorem ex_keeps (m : Fin 8 → Bool) : RecenterKeepsUnit (exCfg m) ∧ RecenterKeepsNext (exCfg m) :=
  ⟨fun _ _ h hu => by cases h; exact hu, fun _ _ h _ => by cases h; exact ⟨rfl, rfl, rfl⟩⟩

/-- The hypotheses of `C114_step` are met: the two tetrahedrons in a field which is not the same in them, and the first alone, with other
tangent bases; both systems exist and have a solution. `ex_two`, `ex_indices`, `ex_triMag` and `ex_inj` are the hypotheses of `C114_potential`
and `C114_energy`. -/
example (H : TriElem.Rule) (inp : ℕ → Input 8) :
    let cfg := exCfg fun _ => true
    let cfg' := exCfg fun i => decide ((i : ℕ) < 4)
    let nd := baseProjection 0 (run cfg 0 exNd (fun _ => (0, 0)) inp 0).nodes
    let nd' := baseProjection 1 (run cfg' 0 exNd (fun _ => (0, 0)) inp 0).nodes
    let F : Fields (exP H) := { Hext := Energy.ex2H, Hst := fun _ _ => 0, V := 0 }
    let F' : Fields (alone (exP H) 8 fun r => r == 0) := { Hext := Energy.ex2H, Hst := fun _ _ => 0, V := 0 }
    TimeStep (exP H).G (exP H).prm ((exP H).step cfg 10) (exP H).mag 8 (exP H).tets (ext nd) ∧
    TimeStep (exP H).G (exP H).prm ((exP H).step cfg 10) (fun r => r == 0) 8 (exP H).tets (ext nd') ∧
    (∀ i : Fin 8, NodeOf (exP H) (fun r => r == 0) i → (nd' i).p = (nd i).p ∧ (nd' i).cur = (nd i).cur) ∧
    (∃ (M : Sp ℝ) (b : List ℝ) (X : Fin 8 → ℝ × ℝ), IsSystem (exP H) cfg F nd 10 M b ∧ M.mult (unknowns X) = b) ∧
    ∃ (M : Sp ℝ) (b : List ℝ) (X : Fin 8 → ℝ × ℝ), IsSystem (alone (exP H) 8 fun r => r == 0) cfg' F' nd' 10 M b ∧ M.mult (unknowns X) = b := by
  intro cfg cfg' nd nd' F F'
  refine ⟨timeStep (ex_start H) (ex_valid _) (ex_keeps _).1 (ex_keeps _).2 0 _ inp 0 0 10 (by norm_num),
    timeStep (ex_startA H) (ex_valid _) (ex_keeps _).1 (ex_keeps _).2 0 _ inp 0 1 10 (by norm_num), fun i hi => ?_, ?_, ?_⟩
  · rw [ex_node] at hi
    have hi4 : (i : ℕ) < 4 := by
      simp at hi
      exact hi
    constructor
    · show (computeAllNodes _ _ exNd i).p = (computeAllNodes _ _ exNd i).p
      simp [computeAllNodes, setPot, exCfg, hi4, cfg, cfg']
    · show (computeAllNodes _ _ exNd i).cur = (computeAllNodes _ _ exNd i).cur
      simp [computeAllNodes, setPot, exCfg, hi4, cfg, cfg']
  · obtain ⟨⟨M, b, hs⟩, h2⟩ := C72_solvable (ex_start H) (ex_valid _) (ex_keeps _).1 (ex_keeps _).2 0 (fun _ => (0, 0)) inp 0 F 0 10 (by norm_num)
    obtain ⟨X, hX, -⟩ := h2 M b hs
    exact ⟨M, b, X, hs, hX⟩
  · obtain ⟨⟨M, b, hs⟩, h2⟩ := C72_solvable (ex_startA H) (ex_valid _) (ex_keeps _).1 (ex_keeps _).2 0 (fun _ => (0, 0)) inp 0 F' 1 10
      (by norm_num)
    obtain ⟨X, hX, -⟩ := h2 M b hs
    exact ⟨M, b, X, hs, hX⟩

end Verif.Apart
