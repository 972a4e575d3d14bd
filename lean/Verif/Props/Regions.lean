import Verif.Spec.Regions
import Verif.Props.Reproducible
import Verif.Props.EnergyTable
import Verif.Props.Motion
import Verif.Props.MeshCheck
import Verif.Props.NonFinite
import Verif.Props.Potential

/-!
# The division of the sample into regions does not matter (C98)
-/

namespace Verif.Regions

open Verif.Mesh Verif.MeshElem Verif.Assembly Verif.Tetra Verif.SparseMat Verif.Llg Verif.WeakForm Verif.TimeLoop Verif.Run

variable {prm prm' : ℕ → Prm} {mag mag' : ℕ → Bool} {sprm sprm' : ℕ → SurfPrm} {tets tets' : List Tet}
  {tris tris' : List (Tri × ℝ)}

theorem forall₂_map {α β γ : Type} {R : α → β → Prop} {f : α → γ} {f' : β → γ} (h : ∀ a b, R a b → f' b = f a) {l : List α}
    {l' : List β} (hl : List.Forall₂ R l l') : l'.map f' = l.map f := by
  induction hl with
  | nil => rfl
  | cons hab _ ih => rw [List.map_cons, List.map_cons, h _ _ hab, ih]

theorem forall₂_filter {α β : Type} {R : α → β → Prop} {f : α → Bool} {f' : β → Bool} (h : ∀ a b, R a b → f' b = f a) {l : List α}
    {l' : List β} (hl : List.Forall₂ R l l') : List.Forall₂ R (l.filter f) (l'.filter f') := by
  induction hl with
  | nil => exact .nil
  | cons hab _ ih =>
    rw [List.filter_cons, List.filter_cons, h _ _ hab]
    split
    · exact .cons hab ih
    · exact ih

theorem magTet_same (hT : List.Forall₂ (SameTet prm prm' mag mag') tets tets') :
    List.Forall₂ (SameTet prm prm' mag mag') (magTet mag tets) (magTet mag' tets') :=
  forall₂_filter (fun _ _ h => h.magnetic) hT

theorem edges_same (hT : List.Forall₂ (SameTet prm prm' mag mag') tets tets') : edges tets' = edges tets := by
  unfold edges
  rw [List.flatMap, List.flatMap, forall₂_map (f := tetEdges) (f' := tetEdges) ?_ hT]
  intro t t' h
  unfold tetEdges
  rw [h.nodes]

theorem magNode_same (n : ℕ) (hT : List.Forall₂ (SameTet prm prm' mag mag') tets tets') :
    magNode mag' n tets' = magNode mag n tets := by
  unfold magNode
  generalize List.replicate n false = l
  induction hT generalizing l with
  | nil => rfl
  | cons hab _ ih =>
    rw [List.foldl_cons, List.foldl_cons, ← ih]
    unfold Tet.isMagnetic
    rw [hab.nodes, hab.magnetic]

theorem shape_same (n : ℕ) (hT : List.Forall₂ (SameTet prm prm' mag mag') tets tets') :
    llgShape mag' n tets' = llgShape mag n tets := by
  unfold llgShape
  rw [edges_same hT, magNode_same n hT]

theorem nodal_same {t t' : Tet} (h : t'.ind = t.ind) (nodes : ℕ → Node) : nodalOf nodes t' = nodalOf nodes t := by
  unfold nodalOf
  rw [h]

theorem nod4_same {α : Type} {t t' : Tet} (h : t'.ind = t.ind) (f : ℕ → α) : nod4 f t' = nod4 f t := by
  unfold nod4
  rw [h]

theorem nod3_same {α : Type} {t t' : Tri} (h : t'.ind = t.ind) (f : ℕ → α) : nod3 f t' = nod3 f t := by
  unfold nod3
  rw [h]

theorem tetElem_same {G : Rule} {s : Step} {nodes : ℕ → Node} {Hext Hst Hext' Hst' : Tet → Fin G.n → V3} {dir : Option (Fin 3)}
    {V : ℝ} {t t' : Tet} (h : SameTet prm prm' mag mag' t t') (h1 : Hext' t' = Hext t) (h2 : Hst' t' = Hst t) :
    tetElem G prm' s nodes Hext' Hst' dir V t' = tetElem G prm s nodes Hext Hst dir V t := by
  unfold tetElem
  rw [nodal_same h.nodes, h.nodes, h.material, h1, h2]

theorem triElem_same {H : TriElem.Rule} {nodes : ℕ → Node} {f f' : Tri × ℝ} (h : SameTri sprm sprm' f f') :
    triElem H sprm' nodes f' = triElem H sprm nodes f := by
  unfold triElem
  rw [h.nodes, h.material, h.jump]

/-! ## additions of zero -/

theorem vecAdd_zero (v : List ℝ) (k : ℕ) (h : k < v.length) : vecAdd v k 0 = some v := by
  unfold vecAdd
  rw [if_pos h]
  congr 1
  apply List.ext_getElem?
  intro i
  rw [List.getElem?_modify]
  split <;> cases v[i]? <;> simp

theorem runVect_length {l : List (ℕ × ℝ)} {v w : List ℝ} (h : runVect v l = some w) : w.length = v.length := by
  induction l generalizing v with
  | nil => cases h; rfl
  | cons e l ih =>
    obtain ⟨k, x⟩ := e
    rw [runVect] at h
    unfold vecAdd at h
    split at h
    · exact (ih h).trans (by simp)
    · cases h

theorem runVect_append (l l' : List (ℕ × ℝ)) (v : List ℝ) : runVect v (l ++ l') = (runVect v l).bind fun w => runVect w l' := by
  induction l generalizing v with
  | nil => rfl
  | cons e l ih =>
    obtain ⟨k, x⟩ := e
    rw [List.cons_append, runVect, runVect]
    cases vecAdd v k x with
    | none => rfl
    | some w => exact ih w

theorem runVect_zeros (l : List (ℕ × ℝ)) (v : List ℝ) (h : ∀ e ∈ l, e.2 = 0 ∧ e.1 < v.length) : runVect v l = some v := by
  induction l with
  | nil => rfl
  | cons e l ih =>
    obtain ⟨k, x⟩ := e
    have := h _ List.mem_cons_self
    dsimp only at this
    rw [runVect, this.1, vecAdd_zero v k this.2]
    exact ih fun e he => h e (List.mem_cons_of_mem _ he)

theorem runVect_filter {τ : Type} (c : τ → List (ℕ × ℝ)) (q : τ → Bool) (l : List τ) (v : List ℝ)
    (h : ∀ f ∈ l, q f = false → ∀ e ∈ c f, e.2 = 0 ∧ e.1 < v.length) :
    runVect v (l.flatMap c) = runVect v ((l.filter q).flatMap c) := by
  induction l generalizing v with
  | nil => rfl
  | cons f l ih =>
    rw [List.flatMap_cons, runVect_append, List.filter_cons]
    cases hq : q f with
    | false =>
      rw [runVect_zeros _ _ (h f List.mem_cons_self hq), if_neg (by simp)]
      exact ih v fun f hf => h f (List.mem_cons_of_mem _ hf)
    | true =>
      rw [if_pos rfl, List.flatMap_cons, runVect_append]
      cases hr : runVect v (c f) with
      | none => rfl
      | some w =>
        refine ih w fun f hf hq e he => ?_
        rw [runVect_length hr]
        exact h f (List.mem_cons_of_mem _ hf) hq e he

open Classical in
/-- triangles with surface anisotropy -/
noncomputable def active (sprm : ℕ → SurfPrm) (f : Tri × ℝ) : Bool := decide ((sprm f.1.reg).Ks ≠ 0)

theorem calls_inactive {H : TriElem.Rule} {nodes : ℕ → Node} {f : Tri × ℝ} {n : ℕ} (h : active sprm f = false)
    (hn : ∀ k, f.1.ind k < n) : ∀ e ∈ buildVectCalls 2 (triElem H sprm nodes f), e.2 = 0 ∧ e.1 < 2 * n := by
  have h0 : (sprm f.1.reg).Ks = 0 := by simpa [active] using h
  intro e he
  unfold buildVectCalls at he
  obtain ⟨k, _, he⟩ := List.mem_flatMap.mp he
  obtain ⟨d, hd, rfl⟩ := List.mem_map.mp he
  have := hn k
  have := List.mem_range.mp hd
  refine ⟨?_, ?_⟩
  · show (triElem H sprm nodes f).Le _ = 0
    unfold triElem
    simp [h0]
  · show 2 * f.1.ind k + d < 2 * n
    omega

theorem rhs_active {H : TriElem.Rule} {nodes : ℕ → Node} {n : ℕ} (magN : List Bool) (es : List (Elem 4 ℝ)) (l : List (Tri × ℝ))
    (hn : ∀ f ∈ l, ∀ k, f.1.ind k < n) :
    llgRhs magN n es (l.map (triElem H sprm nodes)) = llgRhs magN n es ((l.filter (active sprm)).map (triElem H sprm nodes)) := by
  unfold llgRhs
  congr 1
  rw [runVect_append, runVect_append]
  cases hr : runVect (List.replicate (2 * n) (0 : ℝ)) (es.flatMap (buildVectCalls 2)) with
  | none => rfl
  | some w =>
    have hw : w.length = 2 * n := (runVect_length hr).trans (List.length_replicate ..)
    show runVect w _ = runVect w _
    rw [List.flatMap_map, List.flatMap_map]
    refine runVect_filter _ (active sprm) l w fun f hf hq e he => ?_
    rw [hw]
    exact calls_inactive hq (hn f hf) e he

/-! ## the linear systems -/

/-- the problem with other elements and other regions -/
abbrev regroup (P : Problem) (prm' : ℕ → Prm) (sprm' : ℕ → SurfPrm) (mag' : ℕ → Bool) (tets' : List Tet)
    (tris' : List (Tri × ℝ)) : Problem :=
  { P with prm := prm', sprm := sprm', mag := mag', tets := tets', tris := tris' }

theorem perm_follow {α β : Type} {R : α → β → Prop} {l u : List α} {v : List β} (h : l.Perm u) (hr : List.Forall₂ R u v) :
    ∃ w, List.Forall₂ R l w ∧ w.Perm v := List.perm_comp_forall₂ h hr

theorem forall₂_mem {α β : Type} {R : α → β → Prop} {l : List α} {l' : List β} (h : List.Forall₂ R l l') :
    List.Forall₂ (fun a b => R a b ∧ a ∈ l ∧ b ∈ l') l l' := by
  induction h with
  | nil => exact .nil
  | cons hab _ ih =>
    refine .cons ⟨hab, List.mem_cons_self, List.mem_cons_self⟩ (ih.imp fun a b h => ?_)
    exact ⟨h.1, List.mem_cons_of_mem _ h.2.1, List.mem_cons_of_mem _ h.2.2⟩

section
variable {n : ℕ} {ET : Type} {P : Problem} {cfg : Cfg n ET}

theorem active_same {kept extra : List (Tri × ℝ)} (hp : tris'.Perm (kept ++ extra))
    (hk : List.Forall₂ (SameTri sprm sprm') tris kept) (hx : ∀ f ∈ extra, Inert sprm' f) :
    ∃ l, (tris'.filter (active sprm')).Perm l ∧ List.Forall₂ (SameTri sprm sprm') (tris.filter (active sprm)) l := by
  refine ⟨kept.filter (active sprm'), ?_, forall₂_filter (fun f f' h => ?_) hk⟩
  · have := hp.filter (active sprm')
    rwa [List.filter_append, (List.filter_eq_nil_iff (l := extra)).mpr (fun f hf => by simp [active, (hx f hf).2]),
      List.append_nil] at this
  · unfold active
    rw [h.material]

/-- the system only depends on the triangles with surface anisotropy -/
theorem isSystem_active {F : Fields P} {nd : Fin n → Node} {dt : ℝ} {M : Sp ℝ} {b : List ℝ}
    (hn : ∀ f ∈ P.tris, ∀ k, f.1.ind k < n) :
    IsSystem P cfg F nd dt M b ↔ ∃ (order : List Tet) (orderT : List (Tri × ℝ)) (before : List (Op ℝ)),
      order.Perm (magTet P.mag P.tets) ∧ orderT.Perm (P.tris.filter (active P.sprm)) ∧
      (∀ o ∈ before, o.InShape (llgShape P.mag n P.tets)) ∧
      (ofShape (llgShape P.mag n P.tets) : Sp ℝ).run (before ++ llgOps (magNode P.mag n P.tets) n
          (elems (tetElem P.G P.prm (P.step cfg dt) (ext nd) F.Hext F.Hst P.dir F.V) order)) = some M ∧
      llgRhs (magNode P.mag n P.tets) n (order.map (tetElem P.G P.prm (P.step cfg dt) (ext nd) F.Hext F.Hst P.dir F.V))
          (orderT.map (triElem P.H P.sprm (ext nd))) = some b := by
  constructor
  · rintro ⟨order, orderT, before, h1, h2, h3, h4, h5⟩
    refine ⟨order, orderT.filter (active P.sprm), before, h1, h2.filter _, h3, h4, ?_⟩
    rw [← rhs_active _ _ _ fun f hf => hn f (h2.subset hf)]
    exact h5
  · rintro ⟨order, orderT, before, h1, h2, h3, h4, h5⟩
    have hperm : (orderT ++ P.tris.filter (fun f => !active P.sprm f)).Perm P.tris :=
      (h2.append_right _).trans (List.filter_append_perm _ _)
    refine ⟨order, orderT ++ P.tris.filter (fun f => !active P.sprm f), before, h1, hperm, h3, h4, ?_⟩
    rw [rhs_active _ _ _ fun f hf => hn f (hperm.subset hf), List.filter_append,
      (List.filter_eq_self (l := orderT)).mpr fun f hf => (List.mem_filter.mp (h2.subset hf)).2,
      (List.filter_eq_nil_iff (l := P.tris.filter _)).mpr fun f hf => by simpa using (List.mem_filter.mp hf).2, List.append_nil]
    exact h5

/-- the same fields at the same elements -/
def SameFields (P : Problem) (prm' : ℕ → Prm) (sprm' : ℕ → SurfPrm) (mag' : ℕ → Bool) (tets' : List Tet)
    (tris' : List (Tri × ℝ)) (F : Fields P) (F' : Fields (regroup P prm' sprm' mag' tets' tris')) : Prop :=
  F'.V = F.V ∧ ∀ t ∈ P.tets, ∀ t' ∈ tets', t'.ind = t.ind → F'.Hext t' = F.Hext t ∧ F'.Hst t' = F.Hst t

/-- **C98** The linear systems of the divided sample are those of the sample, number for number. -/
theorem C98_system (hS : SameSample P.prm prm' P.mag mag' P.sprm sprm' P.tets tets' P.tris tris')
    (hn : ∀ f ∈ P.tris, ∀ k, f.1.ind k < n) (hn' : ∀ f ∈ tris', ∀ k, f.1.ind k < n) (F : Fields P)
    (F' : Fields (regroup P prm' sprm' mag' tets' tris')) (hF : SameFields P prm' sprm' mag' tets' tris' F F')
    (nd : Fin n → Node) (dt : ℝ) (M : Sp ℝ) (b : List ℝ) :
    IsSystem (regroup P prm' sprm' mag' tets' tris') cfg F' nd dt M b ↔ IsSystem P cfg F nd dt M b := by
  obtain ⟨hT, kept, extra, hp, hk, hx⟩ := hS
  obtain ⟨l, hl, hl'⟩ := active_same hp hk hx
  have hmag := forall₂_mem (magTet_same hT)
  have hel : ∀ t t', (SameTet P.prm prm' P.mag mag' t t' ∧ t ∈ magTet P.mag P.tets ∧ t' ∈ magTet mag' tets') →
      tetElem P.G prm' (P.step cfg dt) (ext nd) F'.Hext F'.Hst P.dir F'.V t' =
        tetElem P.G P.prm (P.step cfg dt) (ext nd) F.Hext F.Hst P.dir F.V t := by
    intro t t' ⟨h, h1, h2⟩
    have := hF.2 t (List.mem_filter.mp h1).1 t' (List.mem_filter.mp h2).1 h.nodes
    rw [hF.1]
    exact tetElem_same h this.1 this.2
  rw [isSystem_active hn, isSystem_active (P := regroup P prm' sprm' mag' tets' tris') hn']
  show (∃ (order : List Tet) (orderT : List (Tri × ℝ)) (before : List (Op ℝ)),
      order.Perm (magTet mag' tets') ∧ orderT.Perm (tris'.filter (active sprm')) ∧
      (∀ o ∈ before, o.InShape (llgShape mag' n tets')) ∧
      (ofShape (llgShape mag' n tets') : Sp ℝ).run (before ++ llgOps (magNode mag' n tets') n
          (elems (tetElem P.G prm' (P.step cfg dt) (ext nd) F'.Hext F'.Hst P.dir F'.V) order)) = some M ∧
      llgRhs (magNode mag' n tets') n (order.map (tetElem P.G prm' (P.step cfg dt) (ext nd) F'.Hext F'.Hst P.dir F'.V))
          (orderT.map (triElem P.H sprm' (ext nd))) = some b) ↔ _
  rw [shape_same n hT, magNode_same n hT]
  constructor
  · rintro ⟨order, orderT, before, h1, h2, h3, h4, h5⟩
    obtain ⟨order', a1, a2⟩ := perm_follow h1 hmag.flip
    obtain ⟨orderT', b1, b2⟩ := perm_follow (h2.trans hl) hl'.flip
    refine ⟨order', orderT', before, a2, b2, h3, ?_, ?_⟩
    · unfold elems at h4 ⊢
      rwa [← forall₂_map hel a1.flip]
    · rwa [← forall₂_map hel a1.flip, ← forall₂_map (fun f f' h => triElem_same h) b1.flip]
  · rintro ⟨order, orderT, before, h1, h2, h3, h4, h5⟩
    obtain ⟨order', a1, a2⟩ := perm_follow h1 hmag
    obtain ⟨orderT', b1, b2⟩ := perm_follow h2 hl'
    refine ⟨order', orderT', before, a2, b2.trans hl.symm, h3, ?_, ?_⟩
    · unfold elems at h4 ⊢
      rwa [forall₂_map hel a1]
    · rwa [forall₂_map hel a1, forall₂_map (fun f f' h => triElem_same h) b1]

/-- **C98** The runs of the divided sample are those of the sample: the same states at all times, whatever the recentering, the
outputs, rejected steps or signals. -/
theorem C98_run (hS : SameSample P.prm prm' P.mag mag' P.sprm sprm' P.tets tets' P.tris tris')
    (hn : ∀ f ∈ P.tris, ∀ k, f.1.ind k < n) (hn' : ∀ f ∈ tris', ∀ k, f.1.ind k < n) (W : World n P)
    (W' : World n (regroup P prm' sprm' mag' tets' tris')) (V : ℕ → ℝ)
    (hW : ∀ t nd, ∀ e ∈ P.tets, ∀ e' ∈ tets', e'.ind = e.ind → W'.Hext t nd e' = W.Hext t nd e ∧ W'.Hst t nd e' = W.Hst t nd e)
    (hpot : W'.pot = W.pot) (t0 : ℝ) (nodes : Fin n → Node) (inp : ℕ → Input n) :
    ExactRun (regroup P prm' sprm' mag' tets' tris') cfg W' V t0 nodes inp ↔ ExactRun P cfg W V t0 nodes inp := by
  have key := fun (k : ℕ) (s : St n ET) (nd : Fin n → Node) dt M b => C98_system (cfg := cfg) hS hn hn'
    ⟨W.Hext s.t s.nodes, W.Hst s.t s.nodes, V k⟩ ⟨W'.Hext s.t s.nodes, W'.Hst s.t s.nodes, V k⟩
    ⟨rfl, fun e he e' he' h => hW s.t s.nodes e he e' he' h⟩ nd dt M b
  constructor
  · rintro ⟨h1, h2⟩
    rw [hpot] at h1 h2
    refine ⟨fun k X => ?_, h2⟩
    intro s ha hd hX
    obtain ⟨M, b, hm, e⟩ := h1 k X ha hd hX
    exact ⟨M, b, (key k s _ _ M b).mp hm, e⟩
  · rintro ⟨h1, h2⟩
    refine ⟨fun k X => ?_, fun k X => ?_⟩
    · rw [hpot]
      intro s ha hd hX
      obtain ⟨M, b, hm, e⟩ := h1 k X ha hd hX
      exact ⟨M, b, (key k s _ _ M b).mpr hm, e⟩
    · rw [hpot]
      exact h2 k X

end

/-! ## energies, potential, averages -/

theorem foldl_same {α β γ : Type} {R : α → β → Prop} {f : γ → α → γ} {f' : γ → β → γ} (h : ∀ c a b, R a b → f' c b = f c a)
    {l : List α} {l' : List β} (hl : List.Forall₂ R l l') (c : γ) : l'.foldl f' c = l.foldl f c := by
  induction hl generalizing c with
  | nil => rfl
  | cons hab _ ih => rw [List.foldl_cons, List.foldl_cons, h _ _ _ hab, ih]

/-- a sum over the triangles, to which inert triangles do not contribute -/
theorem tri_sum (hS : ∃ kept extra, tris'.Perm (kept ++ extra) ∧ List.Forall₂ (SameTri sprm sprm') tris kept ∧
      ∀ f ∈ extra, Inert sprm' f) (g g' : Tri × ℝ → ℝ) (hg : ∀ f f', SameTri sprm sprm' f f' → g' f' = g f)
    (h0 : ∀ f, Inert sprm' f → g' f = 0) : (tris'.map g').sum = (tris.map g).sum := by
  obtain ⟨kept, extra, hp, hk, hx⟩ := hS
  rw [(hp.map g').sum_eq, List.map_append, List.sum_append, forall₂_map hg hk,
    List.map_congr_left (g := fun _ => (0 : ℝ)) (fun f hf => h0 f (hx f hf))]
  simp

/-- the same applied field at the same elements -/
def SameApplied {m : ℕ} (tets tets' : List Tet) : EnergyAll.Applied m → EnergyAll.Applied m → Prop
  | .undef, .undef => True
  | .uniform h, .uniform h' => h' = h
  | .space amp h, .space amp' h' => amp' = amp ∧ ∀ t ∈ tets, ∀ t' ∈ tets', t'.ind = t.ind → h' t' = h t
  | _, _ => False

/-- **C98** The energies of the divided sample are those of the sample. -/
theorem C98_energy (hS : SameSample prm prm' mag mag' sprm sprm' tets tets' tris tris') (G : Rule) (H : TriElem.Rule) (mu0 : ℝ)
    (p u : ℕ → V3) (phi : ℕ → ℝ) (a a' : EnergyAll.Applied G.n) (ha : SameApplied tets tets' a a') :
    EnergyAll.terms G H mu0 p prm' sprm' (magTet mag' tets') tris' u phi a' =
      EnergyAll.terms G H mu0 p prm sprm (magTet mag tets) tris u phi a := by
  have hmag := forall₂_mem (magTet_same hS.volumes)
  unfold EnergyAll.terms
  rw [EnergyAll.tri_fold, EnergyAll.tri_fold]
  rw [foldl_same (f := EnergyAll.tetStep G mu0 p prm u phi a) ?_ hmag]
  · unfold Llg.surfAniso
    rw [tri_sum hS.surfaces (fun f => if (sprm f.1.reg).Ks ≠ 0 then
        TriElem.anisotropyEnergy H (sprm f.1.reg).Ks (sprm f.1.reg).uk (nod3 p f.1) (nod3 u f.1) else 0) _ ?_ ?_,
      tri_sum hS.surfaces (fun f => TriElem.demagEnergy H mu0 f.2 (nod3 p f.1) (nod3 u f.1) (fun i => phi (f.1.ind i))) _ ?_ ?_]
    · intro f f' h
      rw [nod3_same h.nodes, nod3_same h.nodes, h.nodes, h.jump]
    · intro f h
      unfold TriElem.demagEnergy
      rw [h.1]
      ring
    · intro f f' h
      rw [nod3_same h.nodes, nod3_same h.nodes, h.material]
    · intro f h
      rw [if_neg (by simpa using h.2)]
  · rintro c t t' ⟨h, h1, h2⟩
    unfold EnergyAll.tetStep
    rw [nod4_same h.nodes, nod4_same h.nodes, nod4_same h.nodes, h.material]
    congr 1
    cases a <;> cases a' <;> first | exact absurd ha id | skip
    · rfl
    · cases ha
      rfl
    · obtain ⟨rfl, hh⟩ := ha
      dsimp only
      rw [hh t (List.mem_filter.mp h1).1 t' (List.mem_filter.mp h2).1 h.nodes]

theorem charges_zero (H : TriElem.Rule) (q w : Fin 3 → V3) (j : Fin H.n) : TriElem.charges H 0 q w j = 0 := by
  simp [TriElem.charges]

theorem correction_zero (H : TriElem.Rule) (q w : Fin 3 → V3) (i : Fin 3) : TriElem.correction H 0 q w i = 0 := by
  unfold TriElem.correction TriElem.potentialAt TriElem.potential
  simp [charges_zero]

/-- **C98** The demagnetizing potential of the divided sample is that of the sample, when the sum over the charges is exact. -/
theorem C98_potential (hS : SameSample prm prm' mag mag' sprm sprm' tets tets' tris tris') (G : Rule) (H : TriElem.Rule)
    (p u : ℕ → V3) (hi : ∀ f ∈ tris, Function.Injective f.1.ind) (hi' : ∀ f ∈ tris', Function.Injective f.1.ind) (i : ℕ) :
    directPot G H p (fun r => (prm' r).Ms) (magTet mag' tets') tris' u i =
      directPot G H p (fun r => (prm r).Ms) (magTet mag tets) tris u i := by
  unfold directPot
  rw [Potential.corr_eq H p u tris hi, Potential.corr_eq H p u tris' hi',
    tri_sum hS.surfaces (fun f => ∑ j, TriElem.charges H f.2 (nod3 p f.1) (nod3 u f.1) j
      / (p i - TriElem.ptGauss H (nod3 p f.1) j).norm) _ ?_ ?_,
    tri_sum hS.surfaces (fun f => ∑ k, if f.1.ind k = i then TriElem.correction H f.2 (nod3 p f.1) (nod3 u f.1) k else 0) _ ?_ ?_,
    forall₂_map ?_ (magTet_same hS.volumes)]
  · intro t t' h
    dsimp only
    rw [nod4_same h.nodes, nod4_same h.nodes, h.material]
  · intro f f' h
    rw [nod3_same h.nodes, nod3_same h.nodes, h.nodes, h.jump]
  · intro f h
    simp [h.1, correction_zero]
  · intro f f' h
    rw [nod3_same h.nodes, nod3_same h.nodes, h.jump]
  · intro f h
    simp [h.1, charges_zero]

/-- **C98** The average over the whole magnetic sample does not depend on the division. -/
theorem C98_average (hT : List.Forall₂ (SameTet prm prm' mag mag') tets tets') (G : Rule) (p : ℕ → V3) (nreg nreg' : ℕ)
    (f : ℕ → ℝ) : avg G p mag' nreg' tets' f none = avg G p mag nreg tets f none := by
  have hv : (volumes G p mag' nreg' tets').2 = (volumes G p mag nreg tets).2 := by
    have key : ∀ s s' : List ℝ × ℝ, s'.2 = s.2 →
        (tets'.foldl (fun s t => (s.1.modify t.reg (· + tetVol G p t), if t.isMagnetic mag' then s.2 + tetVol G p t else s.2)) s').2
        = (tets.foldl (fun s t => (s.1.modify t.reg (· + tetVol G p t), if t.isMagnetic mag then s.2 + tetVol G p t else s.2)) s).2 := by
      induction hT with
      | nil => intro s s' h; exact h
      | @cons t t' l l' h _ ih =>
        intro s s' hs
        rw [List.foldl_cons, List.foldl_cons]
        apply ih
        have e : tetVol G p t' = tetVol G p t := by
          unfold tetVol
          rw [nod4_same h.nodes]
        unfold Tet.isMagnetic
        dsimp only
        rw [h.magnetic, e, hs]
    exact key _ _ rfl
  unfold avg
  dsimp only
  rw [hv, forall₂_map ?_ (magTet_same hT)]
  intro t t' h
  simp only [ne_eq, reduceCtorEq, not_false_eq_true, not_true_eq_false, and_false, if_false]
  rw [nod4_same h.nodes, nod4_same h.nodes]

/-- the sum over the elements of a region of the undivided sample -/
theorem parts_sum (g : ℕ → ℕ) (R nreg' : ℕ) (hT : List.Forall₂ (fun t t' => t'.ind = t.ind ∧ g t'.reg = t.reg) tets tets')
    (hreg : ∀ t ∈ tets', t.reg < nreg') (w w' : Tet → ℝ) (hw : ∀ t t', t'.ind = t.ind → w' t' = w t) :
    ((tets.filter fun t => t.reg == R).map w).sum =
      ∑ r ∈ (Finset.range nreg').filter fun r => g r = R, ((tets'.filter fun t => t.reg == r).map w').sum := by
  induction hT with
  | nil => simp
  | @cons t t' l l' h _ ih =>
    have e : ∀ (ts : List Tet) (x : Tet) (v : Tet → ℝ) r, (((x :: ts).filter fun t => t.reg == r).map v).sum =
        (if x.reg = r then v x else 0) + ((ts.filter fun t => t.reg == r).map v).sum := by
      intro ts x v r
      by_cases hr : x.reg = r
      · rw [List.filter_cons_of_pos (by simpa using hr), List.map_cons, List.sum_cons, if_pos hr]
      · rw [List.filter_cons_of_neg (by simpa using hr), if_neg hr, zero_add]
    simp only [e, Finset.sum_add_distrib]
    rw [ih fun x hx => hreg x (List.mem_cons_of_mem _ hx), Finset.sum_ite_eq, hw t t' h.1]
    congr 1
    have hlt := hreg t' (by simp)
    simp [hlt, h.2]

/-- **C98** Region by region: the volume of a region is the sum of the volumes of its parts, and volume times average is the sum
of volume times average over the parts. -/
theorem C98_parts {G : Rule} (hG : Compiled G) (p : ℕ → V3) (g : ℕ → ℕ) (nreg nreg' R : ℕ) (hR : R < nreg) (hm : mag R = true)
    (hmag : ∀ r, mag' r = mag (g r)) (hT : List.Forall₂ (fun t t' => t'.ind = t.ind ∧ g t'.reg = t.reg) tets tets')
    (hreg : ∀ t ∈ tets', t.reg < nreg') (hpos : ∀ t ∈ tets, 0 < detJ (nod4 p t)) (f : ℕ → ℝ) :
    (volumes G p mag nreg tets).1.getD R 0 =
      (∑ r ∈ (Finset.range nreg').filter fun r => g r = R, (volumes G p mag' nreg' tets').1.getD r 0) ∧
    avg G p mag nreg tets f (some R) * (volumes G p mag nreg tets).1.getD R 0 =
      ∑ r ∈ (Finset.range nreg').filter fun r => g r = R,
        avg G p mag' nreg' tets' f (some r) * (volumes G p mag' nreg' tets').1.getD r 0 := by
  have hpos' : ∀ t ∈ tets', 0 < detJ (nod4 p t) := by
    clear hreg
    induction hT with
    | nil => simp
    | @cons t t' l l' h _ ih =>
      intro x hx
      rcases List.mem_cons.mp hx with rfl | hx
      · rw [nod4_same h.1]
        exact hpos t (by simp)
      · exact ih (fun y hy => hpos y (List.mem_cons_of_mem _ hy)) x hx
  have hvol : ∀ t t' : Tet, t'.ind = t.ind → tetVol G p t' = tetVol G p t := by
    intro t t' h
    unfold tetVol
    rw [nod4_same h]
  constructor
  · rw [C55_region _ _ _ _ _ _ hR, parts_sum g R nreg' hT hreg _ (tetVol G p) hvol]
    refine Finset.sum_congr rfl fun r hr => ?_
    rw [C55_region _ _ _ _ _ _ (Finset.mem_range.mp (Finset.mem_filter.mp hr).1)]
  · rw [EnergyAll.avg_volume hG mag nreg tets f R hR hm hpos,
      parts_sum g R nreg' hT hreg _ (fun t => tetVol G p t * ((∑ i, f (t.ind i)) / 4)) ?_]
    · refine Finset.sum_congr rfl fun r hr => ?_
      obtain ⟨h1, h2⟩ := Finset.mem_filter.mp hr
      rw [EnergyAll.avg_volume hG mag' nreg' tets' f r (Finset.mem_range.mp h1) (by rw [hmag, h2, hm]) hpos']
    · intro t t' h
      rw [hvol t t' h, h]

end Verif.Regions
