import Mathlib.Analysis.SpecialFunctions.Exp
import Mathlib.Analysis.SpecialFunctions.Log.Basic
import Verif.Props.SpinSource
import Verif.Proofs.NonObtuse

/-!
# C109: potential and spin accumulation stay within the values of the contacts
-/

namespace Verif.Electro

open Verif.Mesh Verif.MeshElem Verif.Assembly Verif.SparseMat Verif.Llg Verif.Tetra Verif.Continuum

section
variable {G : Rule} {H : TriElem.Rule} {nod : ℕ} {p : ℕ → V3} {sigma : ℕ → ℝ} {tets : List Tet} {tris : List Tri}

/-- the equations assembled for the nodes outside `S` are the weak form of the potential problem -/
theorem pot_solved (h : Problem G H nod p sigma tets tris) (prm : ℕ → SurfPrm) :
    ∃ K L, potSystem G H nod p sigma prm tets tris = some (K, L) ∧
      ∀ (S : ℕ → Prop) (V : ℕ → ℝ), (∀ i, i < nod → ¬ S i → (K.mult V)[i]? = L[i]?) ↔
        WeakPotential p sigma (fun r => currentDensity (prm r)) tets tris S V := by
  obtain ⟨K, hK, hw, hget⟩ := full_matrix 1 nod tets h.valid [potTet G p sigma] (fun el hel t => by
    rw [List.mem_singleton] at hel; rw [hel]; rfl)
  obtain ⟨L, hL, hLl, hLget⟩ := vect_run 1 nod (tris.map (potTri H p prm)) (by
    intro e he k
    obtain ⟨f, hf, rfl⟩ := List.mem_map.mp he
    exact h.validT f hf k) (List.replicate (1 * nod) (0 : ℝ)) (by simp)
  have hK' : (ofShape (fullShape 1 nod tets) : Sp ℝ).run (fullOps 1 (tets.map (potTet G p sigma))) = some K := by
    rw [← hK]
    simp [elems]
  refine ⟨K, L, ?_, fun S V => ?_⟩
  · unfold potSystem
    rw [hK']
    show (runVect _ _).bind _ = _
    rw [hL]
    rfl
  have hlen : (fullShape 1 nod tets).length = nod := by
    have := (buildShape_in 1 nod _ (fun _ => true) (edges_lt h.valid) 0 0).1
    rw [one_mul] at this
    exact this
  have hsq : ∀ st ∈ fullShape 1 nod tets, ∀ j ∈ st, j < (fullShape 1 nod tets).length := by
    intro st hst j hj
    obtain ⟨i, hi, e⟩ := List.getElem_of_mem hst
    rw [hlen]
    have := (C21_columns 1 nod tets h.valid _ i j ⟨st, List.getElem?_eq_some_iff.mpr ⟨hi, e⟩, hj⟩).2
    rw [one_mul] at this
    exact this
  obtain ⟨-, hmul⟩ := C19_mult _ hsq K hw V
  rw [weak_iff h prm S V]
  refine forall_congr' fun i => forall_congr' fun hi => forall_congr' fun _ => ?_
  have hi' : i < L.length := by rw [hLl, one_mul]; exact hi
  have e2 : L[i]? = some (potRhs H p prm tris i) := by
    have := hLget i (by rw [one_mul]; exact hi)
    rw [List.getD_eq_getElem?_getD, List.getElem?_eq_getElem hi', Option.getD_some] at this
    rw [List.getElem?_eq_getElem hi', this, List.map_map]
    have hz : (List.replicate (1 * nod) (0 : ℝ)).getD i 0 = 0 := by
      rw [List.getD_eq_getElem?_getD, List.getElem?_replicate]
      split_ifs <;> rfl
    rw [hz, zero_add]
    rfl
  have e1 : (∑ j ∈ Finset.range (fullShape 1 nod tets).length, (K.get i j).getD 0 * V j) =
      ∑ c ∈ Finset.range nod, fullCoef 1 tets (potTet G p sigma) i c * V c := by
    rw [hlen]
    refine Finset.sum_congr rfl fun q _ => ?_
    have := hget i q (by rw [one_mul]; exact hi)
    rw [this]
    simp
  rw [hmul i (by rw [hlen]; exact hi), e1, e2, Option.some.injEq]

theorem weak_larger {J : ℕ → ℝ} {S S' : ℕ → Prop} {V : ℕ → ℝ} (hS : ∀ i, S i → S' i) (h : WeakPotential p sigma J tets tris S V) :
    WeakPotential p sigma J tets tris S' V := fun w hw => h w fun i hi => hw i (hS i hi)

theorem weak_neg {J : ℕ → ℝ} {S : ℕ → Prop} {V : ℕ → ℝ} (h : WeakPotential p sigma J tets tris S V) :
    WeakPotential p sigma (fun r => -J r) tets tris S fun i => -V i := by
  intro w hw
  have h0 := h (fun i => -w i) fun i hi => by rw [hw i hi, neg_zero]
  rw [← h0]
  unfold weakForm
  congr 1
  · congr 1
    refine List.map_congr_left fun t _ => ?_
    congr 1
    rw [gradV_dot, gradV_dot]
    refine Finset.sum_congr rfl fun i _ => Finset.sum_congr rfl fun j _ => ?_
    simp only [nod4]
    ring
  · congr 1
    refine List.map_congr_left fun f _ => ?_
    ring

theorem map_sum_zero {α : Type} {l : List α} {f : α → ℝ} (hf : ∀ a ∈ l, 0 ≤ f a) (h : (l.map f).sum ≤ 0) (a : α) (ha : a ∈ l) : f a = 0 := by
  have hnn : ∀ x ∈ l.map f, 0 ≤ x := by
    intro x hx
    obtain ⟨b, hb, rfl⟩ := List.mem_map.mp hx
    exact hf b hb
  exact list_sum_zero hnn (le_antisymm h (List.sum_nonneg hnn)) _ (List.mem_map.mpr ⟨a, ha, rfl⟩)

/-- where the current leaves the body, or nothing flows, the potential does not exceed that of the other nodes -/
theorem pot_le (h : Problem G H nod p sigma tets tris) (hobt : ∀ t ∈ tets, 0 < sigma t.reg → NonObtuse4 (nod4 p t)) {J : ℕ → ℝ}
    {S : ℕ → Prop} {V : ℕ → ℝ} (hcon : Connected nod sigma tets S) (hV : WeakPotential p sigma J tets tris S V)
    (hJ : ∀ f ∈ tris, (∀ k, S (f.ind k)) ∨ 0 ≤ J f.reg) {c : ℝ} (hS : ∀ i, i < nod → S i → V i ≤ c) {i : ℕ} (hi : i < nod) : V i ≤ c := by
  classical
  set w : ℕ → ℝ := fun i => if S i then 0 else max (V i - c) 0 with hw
  have hw0 : ∀ i, 0 ≤ w i := fun i => by
    simp only [hw]
    split_ifs
    · exact le_rfl
    · exact le_max_right _ _
  have hwm : ∀ i, i < nod → w i = max (V i - c) 0 := fun i hi => by
    simp only [hw]
    split_ifs with h1
    · rw [max_eq_right (by linarith [hS i hi h1])]
    · rfl
  have hwt : ∀ t ∈ tets, nod4 w t = fun i => max ((fun k => V (t.ind k) - c) i) 0 := by
    intro t ht
    funext k
    exact hwm _ (h.valid t ht k)
  have key := hV w fun i hi => by simp only [hw, if_pos hi]
  unfold weakForm at key
  have htri : 0 ≤ (tris.map fun f => J f.reg * TriElem.surf (nod3 p f) * ((w (f.ind 0) + w (f.ind 1) + w (f.ind 2)) / 3)).sum := by
    refine List.sum_nonneg fun x hx => ?_
    obtain ⟨f, hf, rfl⟩ := List.mem_map.mp hx
    rcases hJ f hf with h1 | h1
    · have z : ∀ k, w (f.ind k) = 0 := fun k => by simp only [hw, if_pos (h1 k)]
      rw [z, z, z]
      simp
    · have h2 := TriElem.surf_nonneg (nod3 p f)
      have h3 := hw0 (f.ind 0)
      have h4 := hw0 (f.ind 1)
      have h5 := hw0 (f.ind 2)
      positivity
  have htet : ∀ t ∈ tets, sigma t.reg * (detJ (nod4 p t) / 6) * (gradV (nod4 p t) (nod4 w t)).dot (gradV (nod4 p t) (nod4 w t)) ≤
      sigma t.reg * (detJ (nod4 p t) / 6) * (gradV (nod4 p t) (nod4 w t)).dot (gradV (nod4 p t) (nod4 V t)) := by
    intro t ht
    rcases (h.cond t ht).lt_or_eq with hs | hs
    · have hd := h.oriented t ht
      refine mul_le_mul_of_nonneg_left ?_ (by positivity)
      rw [hwt t ht]
      refine (gradV_trunc (hobt t ht hs) fun k => V (t.ind k) - c).trans (le_of_eq ?_)
      congr 1
      have e := gradV_const (nod4 p t) c
      have e2 : gradV (nod4 p t) (fun k => V (t.ind k) - c) = gradV (nod4 p t) (nod4 V t) - gradV (nod4 p t) (fun _ => c) := by
        unfold gradV nod4
        simp only [Fin.sum_univ_four]
        ext <;> simp <;> ring
      rw [e2, e]
      ext <;> simp
    · rw [← hs]
      simp
  have hsum : (tets.map fun t => sigma t.reg * (detJ (nod4 p t) / 6) *
      (gradV (nod4 p t) (nod4 w t)).dot (gradV (nod4 p t) (nod4 w t))).sum ≤ 0 := by
    have := List.sum_le_sum htet
    linarith
  have hz := map_sum_zero (fun t ht => by
    have h1 := h.cond t ht
    have h2 := h.oriented t ht
    exact mul_nonneg (by positivity) (nsq_nonneg _)) hsum
  have step : ∀ a b, Conducts sigma tets a b → w a = w b := by
    rintro a b ⟨t, ht, hs, ⟨i, rfl⟩, k, rfl⟩
    have hd := h.oriented t ht
    have hg := fun j => gradV_diff (nod4 p t) hd.ne' (nod4 w t) j
    rw [dot_self_eq_zero ((mul_eq_zero.mp (hz t ht)).resolve_left (by positivity))] at hg
    have h3 : ∀ j, w (t.ind j) = w (t.ind 0) := by
      intro j
      have := hg j
      simp [V3.dot, nod4] at this
      linarith
    rw [h3 i, h3 k]
  obtain ⟨k, hk, hSk, hr⟩ := hcon i hi
  have hwi : w i = w k := by
    clear hi hk hSk
    induction hr with
    | refl => rfl
    | tail _ hbc ih => rw [ih, step _ _ hbc]
  have : w k = 0 := by simp only [hw, if_pos hSk]
  rw [this, hwm i hi] at hwi
  have := le_max_left (V i - c) 0
  linarith

/-- **C109** (partial: without obtuse angles between the faces of the conducting elements). In the solution of the equations assembled for the
nodes which are not on the electrode: if the current leaves the body through the surfaces where a current is given, the potential is nowhere higher than on
the electrode; if it enters there, the potential is nowhere lower. -/
theorem C109_potential_partial (h : Problem G H nod p sigma tets tris) (hobt : ∀ t ∈ tets, 0 < sigma t.reg → NonObtuse4 (nod4 p t))
    (prm : ℕ → SurfPrm) (hcon : Connected nod sigma tets (OnPotential prm tris)) :
    ∃ K L, potSystem G H nod p sigma prm tets tris = some (K, L) ∧
      ∀ V : ℕ → ℝ, (∀ i, i < nod → ¬ OnPotential prm tris i → (K.mult V)[i]? = L[i]?) → ∀ v : ℝ, (∀ i, OnPotential prm tris i → V i = v) →
        ((∀ f ∈ tris, ∀ j, (prm f.reg).jn = .fin j → 0 ≤ j) → ∀ i, i < nod → V i ≤ v) ∧
        ((∀ f ∈ tris, ∀ j, (prm f.reg).jn = .fin j → j ≤ 0) → ∀ i, i < nod → v ≤ V i) := by
  obtain ⟨K, L, h1, h2⟩ := pot_solved h prm
  refine ⟨K, L, h1, fun V hV v hv => ?_⟩
  have hV := (h2 _ V).mp hV
  have hd : ∀ (f : Tri) (P : ℝ → Prop), P 0 → (∀ j, (prm f.reg).jn = .fin j → P j) → P (currentDensity (prm f.reg)) := by
    intro f P h0 hj
    unfold currentDensity
    split_ifs with hf
    · cases hc : (prm f.reg).jn with
      | nan => rw [hc] at hf; exact absurd hf id
      | inf s => rw [hc] at hf; exact absurd hf id
      | fin x => exact hj x hc
    · exact h0
  refine ⟨fun hj i hi => pot_le h hobt hcon hV (fun f hf => Or.inr (hd f (0 ≤ ·) le_rfl (hj f hf))) (fun i _ hi => (hv i hi).le) hi,
    fun hj i hi => ?_⟩
  have := pot_le h hobt hcon (weak_neg hV) (fun f hf => Or.inr (neg_nonneg.mpr (hd f (· ≤ 0) le_rfl (hj f hf)))) (c := -v)
    (fun i _ hi => by rw [hv i hi]) hi
  linarith

/-- a node of the electrode or of a surface through which a given current flows -/
def OnContact (prm : ℕ → SurfPrm) (tris : List Tri) (i : ℕ) : Prop :=
  OnPotential prm tris i ∨ ∃ f ∈ tris, (∃ j, (prm f.reg).jn = .fin j ∧ j ≠ 0) ∧ ∃ k, f.ind k = i

/-- **C109** (partial: without obtuse angles between the faces of the conducting elements). The lowest and the highest potential are found
on the contacts, whatever the currents. -/
theorem C109_contacts_partial (h : Problem G H nod p sigma tets tris) (hobt : ∀ t ∈ tets, 0 < sigma t.reg → NonObtuse4 (nod4 p t))
    (prm : ℕ → SurfPrm) (hcon : Connected nod sigma tets (OnPotential prm tris)) :
    ∃ K L, potSystem G H nod p sigma prm tets tris = some (K, L) ∧
      ∀ V : ℕ → ℝ, (∀ i, i < nod → ¬ OnPotential prm tris i → (K.mult V)[i]? = L[i]?) → ∀ i, i < nod →
        (∃ k, k < nod ∧ OnContact prm tris k ∧ V k ≤ V i) ∧ ∃ k, k < nod ∧ OnContact prm tris k ∧ V i ≤ V k := by
  classical
  obtain ⟨K, L, h1, h2⟩ := pot_solved h prm
  refine ⟨K, L, h1, fun V hV i hi => ?_⟩
  have hV := weak_larger (S' := OnContact prm tris) (fun i hi => Or.inl hi) ((h2 _ V).mp hV)
  have hcon' : Connected nod sigma tets (OnContact prm tris) := fun i hi => by
    obtain ⟨k, h3, h4, h5⟩ := hcon i hi
    exact ⟨k, h3, Or.inl h4, h5⟩
  have hJ : ∀ f ∈ tris, (∀ k, OnContact prm tris (f.ind k)) ∨ currentDensity (prm f.reg) = 0 := by
    intro f hf
    by_cases h0 : currentDensity (prm f.reg) = 0
    · exact Or.inr h0
    · left
      intro k
      refine Or.inr ⟨f, hf, ?_, k, rfl⟩
      unfold currentDensity at h0
      split_ifs at h0 with hfin
      · cases hc : (prm f.reg).jn with
        | nan => rw [hc] at hfin; exact absurd hfin id
        | inf s => rw [hc] at hfin; exact absurd hfin id
        | fin x =>
          rw [hc] at h0
          exact ⟨x, rfl, h0⟩
      · exact absurd rfl h0
  have hne : ((Finset.range nod).filter fun k => OnContact prm tris k).Nonempty := by
    obtain ⟨k, hk, hSk, -⟩ := hcon' i hi
    exact ⟨k, Finset.mem_filter.mpr ⟨Finset.mem_range.mpr hk, hSk⟩⟩
  constructor
  · obtain ⟨k, hk, hmin⟩ := Finset.exists_min_image _ V hne
    rw [Finset.mem_filter, Finset.mem_range] at hk
    refine ⟨k, hk.1, hk.2, ?_⟩
    have := pot_le h hobt hcon' (weak_neg hV) (fun f hf => (hJ f hf).imp id fun e => by rw [e, neg_zero]) (c := -V k) (fun a ha hc =>
      neg_le_neg (hmin a (Finset.mem_filter.mpr ⟨Finset.mem_range.mpr ha, hc⟩))) hi
    linarith
  · obtain ⟨k, hk, hmax⟩ := Finset.exists_max_image _ V hne
    rw [Finset.mem_filter, Finset.mem_range] at hk
    exact ⟨k, hk.1, hk.2, pot_le h hobt hcon' hV (fun f hf => (hJ f hf).imp id fun e => by rw [e]) (fun a ha hc =>
      hmax a (Finset.mem_filter.mpr ⟨Finset.mem_range.mpr ha, hc⟩)) hi⟩

end

/-! ## Spin accumulation -/

section
variable {G : Rule} {H : TriElem.Rule} {nod : ℕ} {d : SpinData}

theorem source_zero (hor : ∀ t ∈ d.tets, 0 < detJ (nod4 d.p t)) {S : ℕ → Prop}
    (hsrc : (∀ t ∈ d.tets, t.isMagnetic d.mag → (d.vol t.reg).P.val = 0) ∨ ∃ SV P, Wire d SV S P) {w : ℕ → V3} (hw : ∀ i, S i → w i = 0)
    (n : ℕ → V3) : nodalSource d n w = 0 := by
  rcases hsrc with h | ⟨SV, P, h⟩
  · unfold nodalSource
    apply List.sum_eq_zero
    intro x hx
    obtain ⟨t, ht, rfl⟩ := List.mem_map.mp hx
    by_cases hm : t.isMagnetic d.mag = true
    · simp only [hm, if_true, polarized, h t ht hm]
      simp
    · simp [hm]
  · exact h.zero hor hw n

/-- weak form for a test field parallel to the solution, without sources -/
theorem spinWeak_parallel (hor : ∀ t ∈ d.tets, 0 < detJ (nod4 d.p t)) {S : ℕ → Prop}
    (hsrc : (∀ t ∈ d.tets, t.isMagnetic d.mag → (d.vol t.reg).P.val = 0) ∨ ∃ SV P, Wire d SV S P)
    (hf : ∀ f ∈ d.tris, (∀ k, S (f.ind k)) ∨ ∀ a, flow d.c (d.surf f.reg) a = 0) (m n : ℕ → V3) {w x : ℕ → V3} {q : ℕ → ℝ}
    (hq : ∀ i, w i = q i * x i) (hw : ∀ i, S i → w i = 0) :
    spinWeak d m n w x = (d.tets.map fun t => diffusivity d.c (d.vol t.reg) * (detJ (nod4 d.p t) / 6) *
      ((∑ i, ∑ j, (daRow (nod4 d.p t) i).dot (daRow (nod4 d.p t) j) * (w (t.ind i)).dot (x (t.ind j))) +
        (∑ i : Fin 4, (w (t.ind i)).dot (x (t.ind i))) / 4 / ((d.vol t.reg).lsf * (d.vol t.reg).lsf))).sum := by
  rw [spinWeak_source hor, source_zero hor hsrc hw n, sub_zero]
  unfold spinWeak
  have e : ((unpolarized d).tris.map fun f => TriElem.surf (nod3 (unpolarized d).p f) * ∑ a : Fin 3, flow (unpolarized d).c ((unpolarized d).surf f.reg) a *
      (((w (f.ind 0)).comp a + (w (f.ind 1)).comp a + (w (f.ind 2)).comp a) / 3)).sum = 0 := by
    apply List.sum_eq_zero
    intro y hy
    obtain ⟨f, hf', rfl⟩ := List.mem_map.mp hy
    rcases hf f hf' with hS | h0
    · rw [hw _ (hS 0), hw _ (hS 1), hw _ (hS 2)]
      simp [Fin.sum_univ_three, V3.comp]
    · simp [unpolarized, h0]
  rw [e, add_zero]
  congr 1
  refine List.map_congr_left fun t _ => ?_
  have hc : ∀ i, (w i).dot ((x i).cross (m i)) = 0 := fun i => by
    rw [hq]
    simp only [V3.dot, V3.cross, V3.smul_x, V3.smul_y, V3.smul_z]
    ring
  have hg : (∑ a : Fin 3, (gradV (nod4 d.p t) (comp4 w a t)).dot (gradV (nod4 d.p t) (comp4 x a t))) =
      ∑ i, ∑ j, (daRow (nod4 d.p t) i).dot (daRow (nod4 d.p t) j) * (w (t.ind i)).dot (x (t.ind j)) := by
    simp only [gradV_dot, Fin.sum_univ_three, ← Finset.sum_add_distrib]
    refine Finset.sum_congr rfl fun i _ => Finset.sum_congr rfl fun j _ => ?_
    simp only [comp4, V3.comp, V3.dot]
    ring
  simp only [unpolarized, hc, Finset.sum_const_zero, zero_div, mul_zero, show Fl.val (.fin 0) = 0 from rfl, zero_mul, sub_zero, ite_self,
    add_zero, hg, diffusivity]
  ring

/-- **C109** (partial: without obtuse angles, and where the current brings no spins of its own). After any computations, the solution of the assembled system
stays below any density that would need sources to be maintained, if it does so on the contacts. -/
theorem C109_below_partial (h : SpinProblem G H nod d) (hm : ∀ t ∈ d.tets, Material d.c (d.vol t.reg))
    (hobt : ∀ t ∈ d.tets, NonObtuse4 (nod4 d.p t)) {S : ℕ → Prop}
    (hsrc : (∀ t ∈ d.tets, t.isMagnetic d.mag → (d.vol t.reg).P.val = 0) ∨ ∃ SV P, Wire d SV S P)
    (hf : ∀ f ∈ d.tris, (∀ k, S (f.ind k)) ∨ ∀ a, flow d.c (d.surf f.reg) a = 0) (hs : List MagState) (hne : hs ≠ []) {g : ℕ → ℝ}
    (hg : Maintained d S g) :
    ∃ sys, (SpinSys.new nod d.tets).history G H d.c d.p d.mag d.vol d.surf d.V d.tets d.tris hs = some sys ∧
      ∀ x : ℕ → V3, sys.Solved nod S x → (∀ i, S i → (x i).norm ≤ g i) → ∀ t ∈ d.tets, ∀ k, (x (t.ind k)).norm ≤ g (t.ind k) := by
  obtain ⟨sys, h1, h2⟩ := C45_history h hs
  refine ⟨sys, h1, fun x hx hS t ht k => ?_⟩
  set ω : ℕ → ℝ := fun i => max ((x i).norm - g i) 0 with hω
  have hω0 : ∀ i, 0 ≤ ω i := fun i => le_max_right _ _
  have hωS : ∀ i, S i → ω i = 0 := fun i hi => max_eq_right (by linarith [hS i hi])
  set w : ℕ → V3 := fun i => (ω i / (x i).norm) * x i with hw
  have hwS : ∀ i, S i → w i = 0 := by
    intro i hi
    simp only [hw, hωS i hi, zero_div]
    ext <;> simp
  have hdot : ∀ i j, (w i).dot (x j) ≤ ω i * (x j).norm := by
    intro i j
    have e : (w i).dot (x j) = ω i / (x i).norm * (x i).dot (x j) := V3.dot_smul_left _ _ _
    rw [e]
    rcases eq_or_ne (x i).norm 0 with h0 | h0
    · rw [h0, div_zero, zero_mul]
      exact mul_nonneg (hω0 i) (V3.norm_nonneg _)
    · have hp : 0 < (x i).norm := lt_of_le_of_ne (V3.norm_nonneg _) h0.symm
      calc ω i / (x i).norm * (x i).dot (x j) ≤ ω i / (x i).norm * ((x i).norm * (x j).norm) :=
            mul_le_mul_of_nonneg_left (Rounded.dot_le _ _) (div_nonneg (hω0 i) hp.le)
        _ = ω i * (x j).norm := by field_simp
  have hself : ∀ i, (w i).dot (x i) = ω i * (x i).norm := by
    intro i
    have e : (w i).dot (x i) = ω i / (x i).norm * (x i).dot (x i) := V3.dot_smul_left _ _ _
    have e2 : (x i).dot (x i) = (x i).norm * (x i).norm := (Real.mul_self_sqrt (nsq_nonneg _)).symm
    rw [e, e2]
    rcases eq_or_ne (x i).norm 0 with h0 | h0
    · rw [h0]; simp
    · field_simp
  have hsum := (h2 S x).mp hx w hwS
  rw [List.map_congr_left fun s _ => spinWeak_parallel h.oriented hsrc hf s.cur s.next (fun _ => rfl) hwS] at hsum
  rw [List.map_const', List.sum_replicate, nsmul_eq_mul] at hsum
  have hl : (hs.length : ℝ) ≠ 0 := by
    rw [Nat.cast_ne_zero]
    exact fun hl => hne (List.length_eq_zero_iff.mp hl)
  have hsum := (mul_eq_zero.mp hsum).resolve_left hl
  -- what is left of the form
  have hc : ∀ t ∈ d.tets, 0 < diffusivity d.c (d.vol t.reg) * (detJ (nod4 d.p t) / 6) := by
    intro t ht
    have h1 : 0 < diffusivity d.c (d.vol t.reg) := (hm t ht).pos
    have h2 := h.oriented t ht
    positivity
  have hl2 : ∀ t ∈ d.tets, 0 < (d.vol t.reg).lsf * (d.vol t.reg).lsf := fun t ht => mul_self_pos.mpr (hm t ht).lsf
  have elem : ∀ t ∈ d.tets, diffusivity d.c (d.vol t.reg) * (detJ (nod4 d.p t) / 6) *
        ((gradV (nod4 d.p t) (nod4 ω t)).dot (gradV (nod4 d.p t) (nod4 g t)) +
          (∑ i : Fin 4, ω (t.ind i) * g (t.ind i)) / 4 / ((d.vol t.reg).lsf * (d.vol t.reg).lsf)) +
      diffusivity d.c (d.vol t.reg) * (detJ (nod4 d.p t) / 6) *
        ((∑ i : Fin 4, ω (t.ind i) * ω (t.ind i)) / 4 / ((d.vol t.reg).lsf * (d.vol t.reg).lsf)) ≤
      diffusivity d.c (d.vol t.reg) * (detJ (nod4 d.p t) / 6) *
        ((∑ i, ∑ j, (daRow (nod4 d.p t) i).dot (daRow (nod4 d.p t) j) * (w (t.ind i)).dot (x (t.ind j))) +
        (∑ i : Fin 4, (w (t.ind i)).dot (x (t.ind i))) / 4 / ((d.vol t.reg).lsf * (d.vol t.reg).lsf)) := by
    intro t ht
    rw [← mul_add]
    refine mul_le_mul_of_nonneg_left ?_ (hc t ht).le
    have a1 : (gradV (nod4 d.p t) (nod4 ω t)).dot (gradV (nod4 d.p t) (nod4 g t)) +
        (gradV (nod4 d.p t) (nod4 ω t)).dot (gradV (nod4 d.p t) fun k => (x (t.ind k)).norm - g (t.ind k)) ≤
        ∑ i, ∑ j, (daRow (nod4 d.p t) i).dot (daRow (nod4 d.p t) j) * (w (t.ind i)).dot (x (t.ind j)) := by
      rw [gradV_dot, gradV_dot, ← Finset.sum_add_distrib]
      refine Finset.sum_le_sum fun i _ => ?_
      rw [← Finset.sum_add_distrib]
      refine Finset.sum_le_sum fun j _ => ?_
      have e : ∀ A : ℝ, A * (nod4 ω t i * nod4 g t j) + A * (nod4 ω t i * ((x (t.ind j)).norm - g (t.ind j))) =
          A * (ω (t.ind i) * (x (t.ind j)).norm) := fun A => by simp only [nod4]; ring
      rw [e]
      by_cases hij : i = j
      · subst hij
        rw [hself]
      · exact mul_le_mul_of_nonpos_left (hdot _ _) (daRow_nonobtuse (hobt t ht) i j hij)
    have a2 : 0 ≤ (gradV (nod4 d.p t) (nod4 ω t)).dot (gradV (nod4 d.p t) fun k => (x (t.ind k)).norm - g (t.ind k)) :=
      (nsq_nonneg _).trans (gradV_trunc (hobt t ht) fun k => (x (t.ind k)).norm - g (t.ind k))
    have a3 : (∑ i : Fin 4, ω (t.ind i) * g (t.ind i)) + ∑ i : Fin 4, ω (t.ind i) * ω (t.ind i) = ∑ i : Fin 4, (w (t.ind i)).dot (x (t.ind i)) := by
      rw [← Finset.sum_add_distrib]
      refine Finset.sum_congr rfl fun i _ => ?_
      rw [hself]
      have : ω (t.ind i) * ω (t.ind i) = ω (t.ind i) * ((x (t.ind i)).norm - g (t.ind i)) := by
        simp only [hω]
        rcases le_total ((x (t.ind i)).norm - g (t.ind i)) 0 with hy | hy
        · rw [max_eq_right hy]; ring
        · rw [max_eq_left hy]
      rw [this]
      ring
    rw [← a3]
    have a4 : ∀ a b l : ℝ, (a + b) / 4 / l = a / 4 / l + b / 4 / l := fun a b l => by ring
    rw [a4]
    linarith
  have hsum2 := List.sum_le_sum elem
  rw [hsum, List.sum_map_add] at hsum2
  have hG := hg ω hω0 hωS
  unfold diffusionForm at hG
  have hsum3 : (d.tets.map fun t => diffusivity d.c (d.vol t.reg) * (detJ (nod4 d.p t) / 6) *
        ((∑ i : Fin 4, ω (t.ind i) * ω (t.ind i)) / 4 / ((d.vol t.reg).lsf * (d.vol t.reg).lsf))).sum ≤ 0 := by linarith
  have hz := map_sum_zero (fun t ht => mul_nonneg (hc t ht).le (div_nonneg (div_nonneg
    (Finset.sum_nonneg fun i _ => mul_self_nonneg _) (by norm_num)) (hl2 t ht).le)) hsum3 t ht
  have hz := (mul_eq_zero.mp hz).resolve_left (hc t ht).ne'
  have hz : ∑ i : Fin 4, ω (t.ind i) * ω (t.ind i) = 0 := by
    have := (div_eq_zero_iff.mp hz).resolve_right (hl2 t ht).ne'
    linarith
  have hz := (Finset.sum_eq_zero_iff_of_nonneg fun i _ => mul_self_nonneg _).mp hz k (Finset.mem_univ k)
  have hz := mul_self_eq_zero.mp hz
  have := le_max_left ((x (t.ind k)).norm - g (t.ind k)) 0
  simp only [hω] at hz
  linarith

theorem gradV_row (p : Fin 4 → V3) (f g : Fin 4 → ℝ) :
    (gradV p f).dot (gradV p g) = ∑ i, f i * ∑ j, (daRow p i).dot (daRow p j) * (g j - g i) := by
  have e : ∀ i, ∑ j, (daRow p i).dot (daRow p j) * g i = 0 := by
    intro i
    rw [← Finset.sum_mul]
    have : ∑ j, (daRow p i).dot (daRow p j) = (daRow p i).dot (∑ j, daRow p j) := by
      simp only [Fin.sum_univ_four, V3.dot, V3.add_x, V3.add_y, V3.add_z]
      ring
    rw [this, daRow_sum]
    simp [V3.dot]
  rw [gradV_dot]
  refine Finset.sum_congr rfl fun i _ => ?_
  simp only [mul_sub, Finset.sum_sub_distrib, e, sub_zero, Finset.mul_sum]
  refine Finset.sum_congr rfl fun j _ => ?_
  ring

/-- a density which is nowhere more than `1 + q` times that of a neighbour, with `q` less than the square of height by twice the spin flip length -/
theorem maintained_of_ratio (hor : ∀ t ∈ d.tets, 0 < detJ (nod4 d.p t)) (hm : ∀ t ∈ d.tets, Material d.c (d.vol t.reg))
    (hobt : ∀ t ∈ d.tets, NonObtuse4 (nod4 d.p t)) {η q : ℝ} (hη : 0 < η) (hh : ∀ t ∈ d.tets, HeightsAtLeast η (nod4 d.p t))
    (hq : ∀ t ∈ d.tets, q * (4 * ((d.vol t.reg).lsf * (d.vol t.reg).lsf)) ≤ η ^ 2) {g : ℕ → ℝ} (hg0 : ∀ i, 0 ≤ g i)
    (hg : ∀ t ∈ d.tets, ∀ i j, g (t.ind j) ≤ (1 + q) * g (t.ind i)) (S : ℕ → Prop) : Maintained d S g := by
  intro w hw _
  refine List.sum_nonneg fun x hx => ?_
  obtain ⟨t, ht, rfl⟩ := List.mem_map.mp hx
  have h1 : 0 < diffusivity d.c (d.vol t.reg) := (hm t ht).pos
  have h2 := hor t ht
  have h3 : 0 < (d.vol t.reg).lsf * (d.vol t.reg).lsf := mul_self_pos.mpr (hm t ht).lsf
  refine mul_nonneg (by positivity) ?_
  rw [gradV_row, Finset.sum_div, Finset.sum_div, ← Finset.sum_add_distrib]
  refine Finset.sum_nonneg fun i _ => ?_
  have e : w (t.ind i) * g (t.ind i) / 4 / ((d.vol t.reg).lsf * (d.vol t.reg).lsf) =
      w (t.ind i) * (g (t.ind i) / 4 / ((d.vol t.reg).lsf * (d.vol t.reg).lsf)) := by ring
  rw [e]
  show 0 ≤ w (t.ind i) * _ + _
  rw [← mul_add]
  refine mul_nonneg (hw _) ?_
  -- the sum over the neighbours
  have hrow : ∑ j, (daRow (nod4 d.p t) i).dot (daRow (nod4 d.p t) j) * (q * g (t.ind i)) = 0 := by
    rw [← Finset.sum_mul]
    have : ∑ j, (daRow (nod4 d.p t) i).dot (daRow (nod4 d.p t) j) = (daRow (nod4 d.p t) i).dot (∑ j, daRow (nod4 d.p t) j) := by
      simp only [Fin.sum_univ_four, V3.dot, V3.add_x, V3.add_y, V3.add_z]
      ring
    rw [this, daRow_sum]
    simp [V3.dot]
  have hle : ∑ j, (daRow (nod4 d.p t) i).dot (daRow (nod4 d.p t) j) * (if j = i then 0 else q * g (t.ind i)) ≤
      ∑ j, (daRow (nod4 d.p t) i).dot (daRow (nod4 d.p t) j) * (nod4 g t j - nod4 g t i) := by
    refine Finset.sum_le_sum fun j _ => ?_
    split_ifs with hj
    · rw [hj, sub_self]
    · refine mul_le_mul_of_nonpos_left ?_ (daRow_nonobtuse (hobt t ht) i j (Ne.symm hj))
      have := hg t ht i j
      simp only [nod4]
      linarith
  have hdiag : ∑ j, (daRow (nod4 d.p t) i).dot (daRow (nod4 d.p t) j) * (if j = i then 0 else q * g (t.ind i)) =
      -((daRow (nod4 d.p t) i).dot (daRow (nod4 d.p t) i) * (q * g (t.ind i))) := by
    have : ∀ j, (daRow (nod4 d.p t) i).dot (daRow (nod4 d.p t) j) * (if j = i then 0 else q * g (t.ind i)) =
        (daRow (nod4 d.p t) i).dot (daRow (nod4 d.p t) j) * (q * g (t.ind i)) -
          (if j = i then (daRow (nod4 d.p t) i).dot (daRow (nod4 d.p t) i) * (q * g (t.ind i)) else 0) := by
      intro j
      split_ifs with hj
      · rw [hj]; ring
      · ring
    simp only [this, Finset.sum_sub_distrib, hrow, Finset.sum_ite_eq', Finset.mem_univ, if_true, zero_sub]
  have hheight := daRow_height h2 hη.le (hh t ht) i
  have hgi := hg0 (t.ind i)
  have hA : (daRow (nod4 d.p t) i).dot (daRow (nod4 d.p t) i) * (q * g (t.ind i)) ≤
      g (t.ind i) / 4 / ((d.vol t.reg).lsf * (d.vol t.reg).lsf) := by
    rw [div_div, le_div_iff₀ (by positivity)]
    have hA0 := nsq_nonneg (daRow (nod4 d.p t) i)
    calc (daRow (nod4 d.p t) i).dot (daRow (nod4 d.p t) i) * (q * g (t.ind i)) * (4 * ((d.vol t.reg).lsf * (d.vol t.reg).lsf))
        = (daRow (nod4 d.p t) i).dot (daRow (nod4 d.p t) i) * g (t.ind i) * (q * (4 * ((d.vol t.reg).lsf * (d.vol t.reg).lsf))) := by ring
      _ ≤ (daRow (nod4 d.p t) i).dot (daRow (nod4 d.p t) i) * g (t.ind i) * η ^ 2 :=
          mul_le_mul_of_nonneg_left (hq t ht) (mul_nonneg hA0 hgi)
      _ = η ^ 2 * (daRow (nod4 d.p t) i).dot (daRow (nod4 d.p t) i) * g (t.ind i) := by ring
      _ ≤ 1 * g (t.ind i) := mul_le_mul_of_nonneg_right hheight hgi
      _ = g (t.ind i) := one_mul _
  rw [hdiag] at hle
  linarith

/-- **C109** (partial: without obtuse angles, and where the current brings no spins of its own). The spin accumulation is nowhere larger than on the
contacts, whatever the magnetization, the materials and the computations made before. -/
theorem C109_spin_partial (h : SpinProblem G H nod d) (hm : ∀ t ∈ d.tets, Material d.c (d.vol t.reg))
    (hobt : ∀ t ∈ d.tets, NonObtuse4 (nod4 d.p t)) {S : ℕ → Prop}
    (hsrc : (∀ t ∈ d.tets, t.isMagnetic d.mag → (d.vol t.reg).P.val = 0) ∨ ∃ SV P, Wire d SV S P)
    (hf : ∀ f ∈ d.tris, (∀ k, S (f.ind k)) ∨ ∀ a, flow d.c (d.surf f.reg) a = 0) (hs : List MagState) (hne : hs ≠ []) :
    ∃ sys, (SpinSys.new nod d.tets).history G H d.c d.p d.mag d.vol d.surf d.V d.tets d.tris hs = some sys ∧
      ∀ x : ℕ → V3, sys.Solved nod S x → ∀ c : ℝ, 0 ≤ c → (∀ i, S i → (x i).norm ≤ c) → ∀ t ∈ d.tets, ∀ k, (x (t.ind k)).norm ≤ c := by
  obtain ⟨sys, h1, -⟩ := C45_history h hs
  refine ⟨sys, h1, fun x hx c hc hS => ?_⟩
  have hg : Maintained d S fun _ => c := by
    intro w hw _
    refine List.sum_nonneg fun y hy => ?_
    obtain ⟨t, ht, rfl⟩ := List.mem_map.mp hy
    have h1 : 0 < diffusivity d.c (d.vol t.reg) := (hm t ht).pos
    have h2 := h.oriented t ht
    have h3 : 0 < (d.vol t.reg).lsf * (d.vol t.reg).lsf := mul_self_pos.mpr (hm t ht).lsf
    have e : gradV (nod4 d.p t) (nod4 (fun _ => c) t) = 0 := gradV_const _ c
    rw [e]
    refine mul_nonneg (by positivity) (add_nonneg (by simp [V3.dot]) (div_nonneg (div_nonneg (Finset.sum_nonneg fun i _ => ?_) (by norm_num)) h3.le))
    exact mul_nonneg (hw _) hc
  obtain ⟨sys', h1', h2⟩ := C109_below_partial h hm hobt hsrc hf hs hne hg
  rw [h1] at h1'
  injection h1' with e
  subst e
  exact h2 x hx hS

/-- **C109** (partial: without obtuse angles, and where the current brings no spins of its own). The spins which a contact brings are lost on the way: if the
spin accumulation is at most `c` on one contact and zero on the others, it decreases at least by the factor `1 + (η / 2λ)²` over every size of element `h`, for
elements of edges at most `h` and heights at least `η` and materials of spin flip length at most `λ`. `δ` is the distance from the contact, or any function which
changes by no more than the distance. -/
theorem C109_decay_partial (h : SpinProblem G H nod d) (hm : ∀ t ∈ d.tets, Material d.c (d.vol t.reg))
    (hobt : ∀ t ∈ d.tets, NonObtuse4 (nod4 d.p t)) {S : ℕ → Prop}
    (hsrc : (∀ t ∈ d.tets, t.isMagnetic d.mag → (d.vol t.reg).P.val = 0) ∨ ∃ SV P, Wire d SV S P)
    (hf : ∀ f ∈ d.tris, (∀ k, S (f.ind k)) ∨ ∀ a, flow d.c (d.surf f.reg) a = 0) (hs : List MagState) (hne : hs ≠ []) {η l e : ℝ}
    (hη : 0 < η) (hh : ∀ t ∈ d.tets, HeightsAtLeast η (nod4 d.p t)) (he : 0 < e)
    (hedge : ∀ t ∈ d.tets, ∀ i j, (d.p (t.ind i) - d.p (t.ind j)).norm ≤ e) (hl : 0 < l)
    (hlsf : ∀ t ∈ d.tets, |(d.vol t.reg).lsf| ≤ l) {δ : ℕ → ℝ} (hδ : ∀ t ∈ d.tets, ∀ i j, δ (t.ind i) - δ (t.ind j) ≤ (d.p (t.ind i) - d.p (t.ind j)).norm) :
    ∃ sys, (SpinSys.new nod d.tets).history G H d.c d.p d.mag d.vol d.surf d.V d.tets d.tris hs = some sys ∧
      ∀ x : ℕ → V3, sys.Solved nod S x → ∀ c : ℝ, (∀ i, S i → (x i).norm ≤ c ∧ δ i ≤ 0 ∨ x i = 0) → 0 ≤ c → ∀ t ∈ d.tets, ∀ k,
        (x (t.ind k)).norm ≤ c / (1 + (η / (2 * l)) ^ 2) ^ (δ (t.ind k) / e) := by
  obtain ⟨sys, h1, -⟩ := C45_history h hs
  refine ⟨sys, h1, fun x hx c hS hc => ?_⟩
  set q : ℝ := (η / (2 * l)) ^ 2 with hq
  have hq0 : 0 < q := by positivity
  have h1q : 1 ≤ 1 + q := by linarith
  have hpow : ∀ a : ℝ, 0 < (1 + q) ^ a := fun a => Real.rpow_pos_of_pos (by linarith) a
  have hg0 : ∀ i, 0 ≤ c / (1 + q) ^ (δ i / e) := fun i => div_nonneg hc (hpow _).le
  have hg : Maintained d S fun i => c / (1 + q) ^ (δ i / e) := by
    refine maintained_of_ratio (q := q) h.oriented hm hobt hη hh (fun t ht => ?_) hg0 (fun t ht i j => ?_) S
    · have h3 : (d.vol t.reg).lsf * (d.vol t.reg).lsf ≤ l * l := by
        rw [← abs_mul_abs_self]
        exact mul_self_le_mul_self (abs_nonneg _) (hlsf t ht)
      calc q * (4 * ((d.vol t.reg).lsf * (d.vol t.reg).lsf)) ≤ q * (4 * (l * l)) := mul_le_mul_of_nonneg_left (by linarith) hq0.le
        _ = η ^ 2 := by rw [hq]; field_simp; ring
    · rw [div_le_iff₀ (hpow _)]
      have h3 : δ (t.ind i) / e ≤ 1 + δ (t.ind j) / e := by
        rw [div_le_iff₀ he, add_mul, div_mul_cancel₀ _ he.ne']
        have := hδ t ht i j
        have := hedge t ht i j
        linarith
      have h4 : (1 + q) ^ (δ (t.ind i) / e) ≤ (1 + q) * (1 + q) ^ (δ (t.ind j) / e) := by
        calc (1 + q) ^ (δ (t.ind i) / e) ≤ (1 + q) ^ (1 + δ (t.ind j) / e) := Real.rpow_le_rpow_of_exponent_le h1q h3
          _ = _ := by rw [Real.rpow_add (by linarith), Real.rpow_one]
      have h5 := hpow (δ (t.ind i) / e)
      have e1 : (1 + q) * (c / (1 + q) ^ (δ (t.ind i) / e)) * (1 + q) ^ (δ (t.ind j) / e) =
          c * ((1 + q) * (1 + q) ^ (δ (t.ind j) / e)) / (1 + q) ^ (δ (t.ind i) / e) := by ring
      rw [e1, le_div_iff₀ h5]
      exact mul_le_mul_of_nonneg_left h4 hc
  obtain ⟨sys', h1', h2⟩ := C109_below_partial h hm hobt hsrc hf hs hne hg
  rw [h1] at h1'
  injection h1' with e'
  subst e'
  refine h2 x hx fun i hi => ?_
  rcases hS i hi with ⟨h3, h4⟩ | h3
  · refine h3.trans ?_
    rw [le_div_iff₀ (hpow _)]
    have : (1 + q) ^ (δ i / e) ≤ 1 := Real.rpow_le_one_of_one_le_of_nonpos h1q (div_nonpos_of_nonpos_of_nonneg h4 he.le)
    exact (mul_le_mul_of_nonneg_left this hc).trans (mul_one c).le
  · rw [h3]
    have : (0 : V3).norm = 0 := by simp [V3.norm, V3.nsq]
    rw [this]
    exact hg0 i

end

/-! ## Cases that meet the hypotheses -/

theorem ex_nonobtuse : NonObtuse4 (nod4 Tetra.exP Tetra.exT) := by
  have e : nod4 Tetra.exP Tetra.exT = ![⟨0, 0, 0⟩, ⟨1, 0, 0⟩, ⟨0, 1, 0⟩, ⟨0, 0, 1⟩] := by
    funext k
    fin_cases k <;> rfl
  rw [e]
  exact corner_nonobtuse

theorem ex_problem : Problem Tetra.rule5 TriElem.rule4 4 Tetra.exP (fun _ => 1) [Tetra.exT] exTris where
  rule := Or.inr rfl
  ruleT := Or.inr rfl
  valid := by
    intro t ht k
    rw [List.mem_singleton] at ht
    subst ht
    fin_cases k <;> decide
  validT := by
    intro f hf k
    simp only [exTris, List.mem_cons, List.not_mem_nil, or_false] at hf
    rcases hf with rfl | rfl <;> fin_cases k <;> decide
  oriented := by
    intro t ht
    rw [List.mem_singleton] at ht
    subst ht
    rw [Tetra.ex_detJ]; norm_num
  cond := fun _ _ => zero_le_one

/-- parameters of a surface where nothing is given -/
noncomputable def noSurf : SurfPrm := ⟨"none", .nan, .nan, fun _ => .nan, fun _ => .nan⟩

theorem ex_connected : Connected 4 (fun _ => 1) [Tetra.exT] (OnPotential (fun r => exSurf.getD r noSurf) exTris) := by
  intro i hi
  refine ⟨3, by norm_num, ⟨⟨![1, 2, 3], 2⟩, by simp [exTris], ?_, 2, rfl⟩,
    Relation.ReflTransGen.single ⟨Tetra.exT, by simp, zero_lt_one, ⟨⟨i, hi⟩, by interval_cases i <;> rfl⟩, 3, rfl⟩⟩
  show ¬ Fl.IsNan (.fin 0)
  exact id

example := C109_potential_partial ex_problem (fun t ht _ => by
  rw [List.mem_singleton] at ht
  rw [ht]
  exact ex_nonobtuse) _ ex_connected

/-- a non-magnetic lead: spins come in through one face -/
noncomputable def leadD : SpinData where
  c := ⟨1, 1⟩
  p := Tetra.exP
  mag := fun _ => false
  vol := fun _ => ⟨"lead", 0, 1, .fin 1, .fin 0, 1, 1⟩
  surf := fun _ => ⟨"left", .nan, .fin 0, fun _ => .nan, ![.fin 0, .fin 0, .fin 3]⟩
  V := fun _ => 0
  tets := [Tetra.exT]
  tris := [⟨![1, 2, 3], 1⟩]

theorem lead_problem : SpinProblem Tetra.rule5 TriElem.rule4 4 leadD where
  rule := Or.inr rfl
  ruleT := Or.inr rfl
  valid := by
    intro t ht k
    have ht : t ∈ [Tetra.exT] := ht
    rw [List.mem_singleton] at ht
    subst ht
    fin_cases k <;> decide
  validT := by
    intro f hf k
    have hf : f ∈ [(⟨![1, 2, 3], 1⟩ : Tri)] := hf
    rw [List.mem_singleton] at hf
    subst hf
    fin_cases k <;> decide
  oriented := by
    intro t ht
    have ht : t ∈ [Tetra.exT] := ht
    rw [List.mem_singleton] at ht
    subst ht
    show 0 < detJ (nod4 Tetra.exP Tetra.exT)
    rw [Tetra.ex_detJ]; norm_num

theorem lead_tets {P : Tet → Prop} (h : P Tetra.exT) : ∀ t ∈ leadD.tets, P t := by
  intro t ht
  have ht : t ∈ [Tetra.exT] := ht
  rw [List.mem_singleton] at ht
  rw [ht]
  exact h

/-- the hypotheses of the decay, with the height 1/2 and the edge 3/2 -/
example (hs : List MagState) (hne : hs ≠ []) :=
  C109_decay_partial lead_problem (lead_tets ⟨one_ne_zero, zero_lt_one, zero_lt_one, one_ne_zero⟩) (lead_tets ex_nonobtuse) (S := fun i => i ≠ 0)
    (Or.inl (lead_tets fun _ => rfl)) (by
      intro f hf
      have hf : f ∈ [(⟨![1, 2, 3], 1⟩ : Tri)] := hf
      rw [List.mem_singleton] at hf
      subst hf
      left
      intro k
      fin_cases k <;> decide) hs hne (η := 1 / 2) (l := 1) (e := 3 / 2) (by norm_num) (lead_tets (by
        intro i j k l h1 h2 h3 h4 h5 h6
        show _ ≤ detJ (nod4 Tetra.exP Tetra.exT)
        rw [Tetra.ex_detJ]
        have : ((nod4 Tetra.exP Tetra.exT k - nod4 Tetra.exP Tetra.exT j).cross (nod4 Tetra.exP Tetra.exT l - nod4 Tetra.exP Tetra.exT j)).norm ≤ 2 := by
          refine Real.sqrt_le_iff.mpr ⟨by norm_num, ?_⟩
          generalize hq : nod4 Tetra.exP Tetra.exT = q
          have q0 : q 0 = ⟨0, 0, 0⟩ := by rw [← hq]; rfl
          have q1 : q 1 = ⟨1, 0, 0⟩ := by rw [← hq]; rfl
          have q2 : q 2 = ⟨0, 1, 0⟩ := by rw [← hq]; rfl
          have q3 : q 3 = ⟨0, 0, 1⟩ := by rw [← hq]; rfl
          clear hq h1 h2 h3 h4 h5 h6
          fin_cases j <;> fin_cases k <;> fin_cases l <;> simp [q0, q1, q2, q3, V3.cross, V3.nsq] <;> norm_num
        have e : leadD.p = Tetra.exP := rfl
        rw [e]
        linarith)) (by norm_num) (lead_tets (by
        intro i j
        refine Real.sqrt_le_iff.mpr ⟨by norm_num, ?_⟩
        show (nod4 Tetra.exP Tetra.exT i - nod4 Tetra.exP Tetra.exT j).nsq ≤ _
        fin_cases i <;> fin_cases j <;> norm_num [nod4, Tetra.exT, Tetra.exP, V3.nsq])) one_pos (lead_tets (by
          show |(1 : ℝ)| ≤ 1
          norm_num)) (δ := fun i => if i = 0 then 1 / 2 else 0) (lead_tets (by
        intro i j
        show _ ≤ (nod4 Tetra.exP Tetra.exT i - nod4 Tetra.exP Tetra.exT j).norm
        by_cases hij : i = j
        · rw [hij, sub_self]
          exact Real.sqrt_nonneg _
        · refine le_trans ?_ (Real.le_sqrt_of_sq_le (x := 1 / 2) ?_)
          · fin_cases i <;> fin_cases j <;> norm_num [Tetra.exT]
          · fin_cases i <;> fin_cases j <;> first | exact absurd rfl hij | norm_num [nod4, Tetra.exT, Tetra.exP, V3.nsq]))

/-! ## With an obtuse angle -/

/-- two elements: the angle of the second at the edge of the nodes 0 and 1 is obtuse -/
def obtP : ℕ → V3
  | 0 => ⟨0, 0, 0⟩
  | 1 => ⟨1, 0, 0⟩
  | 2 => ⟨0, 0, -1⟩
  | 3 => ⟨0, 1, 0⟩
  | _ => ⟨0, -1, 1⟩

def obtT : List Tet := [⟨![0, 1, 2, 3], 0⟩, ⟨![0, 1, 3, 4], 0⟩]

/-- a current enters through the second triangle, the first is the electrode -/
def obtTri : List Tri := [⟨![0, 1, 2], 2⟩, ⟨![0, 2, 3], 1⟩]

noncomputable def obtSurf : List SurfPrm :=
  [⟨"__default__", .nan, .nan, fun _ => .nan, fun _ => .nan⟩,
   ⟨"left", .fin (-1), .nan, fun _ => .fin 1, fun _ => .nan⟩, ⟨"right", .nan, .fin 0, fun _ => .nan, fun _ => .fin 0⟩]

noncomputable def obtV : ℕ → ℝ
  | 3 => 1 / 2
  | 4 => -1 / 2
  | _ => 0

theorem obt_detJ : detJ (nod4 obtP ⟨![0, 1, 2, 3], 0⟩) = 1 ∧ detJ (nod4 obtP ⟨![0, 1, 3, 4], 0⟩) = 1 := by
  constructor <;> rw [detJ_eq] <;> simp [nod4, obtP, V3.dot, V3.cross]

theorem obt_problem : Problem Tetra.rule5 TriElem.rule4 5 obtP (fun _ => 1) obtT obtTri where
  rule := Or.inr rfl
  ruleT := Or.inr rfl
  valid := by
    intro t ht k
    simp only [obtT, List.mem_cons, List.not_mem_nil, or_false] at ht
    rcases ht with rfl | rfl <;> fin_cases k <;> decide
  validT := by
    intro f hf k
    simp only [obtTri, List.mem_cons, List.not_mem_nil, or_false] at hf
    rcases hf with rfl | rfl <;> fin_cases k <;> decide
  oriented := by
    intro t ht
    simp only [obtT, List.mem_cons, List.not_mem_nil, or_false] at ht
    rcases ht with rfl | rfl
    · rw [obt_detJ.1]; norm_num
    · rw [obt_detJ.2]; norm_num
  cond := fun _ _ => zero_le_one

theorem obt_on (i : ℕ) : OnPotential (fun r => obtSurf.getD r noSurf) obtTri i ↔ i < 3 := by
  constructor
  · rintro ⟨f, hf, hn, k, rfl⟩
    simp only [obtTri, List.mem_cons, List.not_mem_nil, or_false] at hf
    rcases hf with rfl | rfl
    · fin_cases k <;> decide
    · exact absurd (show Fl.IsNan .nan from trivial) hn
  · intro hi
    refine ⟨⟨![0, 1, 2], 2⟩, by simp [obtTri], (id : ¬ Fl.IsNan (.fin 0)), ⟨i, hi⟩, ?_⟩
    interval_cases i <;> rfl

theorem obt_check : checkV obtSurf = true := by
  rw [C57_start_potential]
  refine ⟨⟨[_], _, [_], rfl, trivial, ?_⟩, ⟨[_, _], _, [], rfl, trivial, ?_⟩⟩
  · intro b hb
    simp at hb
    rcases hb with rfl | rfl <;> exact id
  · intro b hb
    simp at hb
    rcases hb with rfl | rfl <;> exact id

theorem obt_connected : Connected 5 (fun _ => 1) obtT fun i => i < 3 := by
  intro i hi
  refine ⟨0, by norm_num, by norm_num, Relation.ReflTransGen.single ?_⟩
  by_cases h4 : i = 4
  · exact ⟨⟨![0, 1, 3, 4], 0⟩, by simp [obtT], zero_lt_one, ⟨3, h4.symm⟩, 0, rfl⟩
  · have hi : i < 4 := by omega
    exact ⟨⟨![0, 1, 2, 3], 0⟩, by simp [obtT], zero_lt_one, ⟨⟨i, hi⟩, by interval_cases i <;> rfl⟩, 0, rfl⟩

theorem obt_weak : WeakPotential obtP (fun _ => 1) (fun r => currentDensity (obtSurf.getD r noSurf)) obtT obtTri (fun i => i < 3) obtV := by
  intro w hw
  have w0 := hw 0 (by norm_num)
  have w1 := hw 1 (by norm_num)
  have w2 := hw 2 (by norm_num)
  have j1 : currentDensity (obtSurf.getD 1 noSurf) = -1 := by
    show currentDensity ⟨"left", .fin (-1), .nan, fun _ => .fin 1, fun _ => .nan⟩ = -1
    unfold currentDensity
    exact if_pos trivial
  have j2 : currentDensity (obtSurf.getD 2 noSurf) = 0 := by
    show currentDensity ⟨"right", .nan, .fin 0, fun _ => .nan, fun _ => .fin 0⟩ = 0
    unfold currentDensity
    exact if_neg id
  have s1 : TriElem.surf (nod3 obtP ⟨![0, 2, 3], 1⟩) = 1 / 2 := by
    unfold TriElem.surf
    simp [nod3, obtP, V3.cross, V3.norm, V3.nsq, TriElem.normalVect]
  have g1 : ∀ f : ℕ → ℝ, f 0 = 0 → f 1 = 0 → f 2 = 0 → gradV (nod4 obtP ⟨![0, 1, 2, 3], 0⟩) (nod4 f ⟨![0, 1, 2, 3], 0⟩) = ⟨0, f 3, 0⟩ := by
    intro f f0 f1 f2
    unfold gradV
    simp only [Fin.sum_univ_four, daRow_eq, obt_detJ.1]
    simp [nod4, gradNum, obtP, V3.cross, f0, f1, f2]
    ext <;> simp
  have g2 : ∀ f : ℕ → ℝ, f 0 = 0 → f 1 = 0 → f 2 = 0 → gradV (nod4 obtP ⟨![0, 1, 3, 4], 0⟩) (nod4 f ⟨![0, 1, 3, 4], 0⟩) = ⟨0, f 3, f 3 + f 4⟩ := by
    intro f f0 f1 f2
    unfold gradV
    simp only [Fin.sum_univ_four, daRow_eq, obt_detJ.2]
    simp [nod4, gradNum, obtP, V3.cross, f0, f1]
    ext <;> simp
  unfold weakForm
  simp only [obtT, obtTri, List.map_cons, List.map_nil, List.sum_cons, List.sum_nil, obt_detJ.1, obt_detJ.2]
  rw [g1 w w0 w1 w2, g2 w w0 w1 w2, g1 obtV rfl rfl rfl, g2 obtV rfl rfl rfl, j1, j2, s1]
  simp [V3.dot, w0, w2, obtV]
  ring

/-- **C109** (negation). With an obtuse angle the potential may be lower than on all contacts: here the current enters and the equations hold (by C59 they have
no other solution), and the potential of a node is below that of the electrode. -/
theorem C109_negation :
    ∃ (p : ℕ → V3) (tets : List Tet) (tris : List Tri) (prms : List SurfPrm), checkV prms = true ∧
      Problem Tetra.rule5 TriElem.rule4 5 p (fun _ => 1) tets tris ∧ Connected 5 (fun _ => 1) tets (OnPotential (fun r => prms.getD r noSurf) tris) ∧
      (∀ f ∈ tris, ∀ j, (prms.getD f.reg noSurf).jn = .fin j → j ≤ 0) ∧
      ∃ K L, potSystem Tetra.rule5 TriElem.rule4 5 p (fun _ => 1) (fun r => prms.getD r noSurf) tets tris = some (K, L) ∧
        ∃ V : ℕ → ℝ, (∀ i, i < 5 → ¬ OnPotential (fun r => prms.getD r noSurf) tris i → (K.mult V)[i]? = L[i]?) ∧
          (∀ i, OnPotential (fun r => prms.getD r noSurf) tris i → V i = 0) ∧ V 4 = -1 / 2 ∧
          (∀ i, i < 5 → OnContact (fun r => prms.getD r noSurf) tris i → V 4 < V i) := by
  obtain ⟨K, L, h1, h2⟩ := pot_solved obt_problem fun r => obtSurf.getD r noSurf
  have e : OnPotential (fun r => obtSurf.getD r noSurf) obtTri = fun i => i < 3 := funext fun i => propext (obt_on i)
  refine ⟨obtP, obtT, obtTri, obtSurf, obt_check, obt_problem, e ▸ obt_connected, ?_, K, L, h1, obtV, ?_, ?_, rfl, ?_⟩
  · intro f hf j hj
    simp only [obtTri, List.mem_cons, List.not_mem_nil, or_false] at hf
    rcases hf with rfl | rfl
    · have hj : Fl.nan = .fin j := hj
      cases hj
    · have hj : Fl.fin (-1) = .fin j := hj
      injection hj with hj
      rw [← hj]
      norm_num
  · rw [e]
    exact (h2 _ _).mpr obt_weak
  · intro i hi
    rw [obt_on] at hi
    interval_cases i <;> rfl
  · rintro i hi (h3 | ⟨f, hf, ⟨j, hj, -⟩, k, rfl⟩)
    · rw [obt_on] at h3
      interval_cases i <;> norm_num [obtV]
    · simp only [obtTri, List.mem_cons, List.not_mem_nil, or_false] at hf
      rcases hf with rfl | rfl
      · have hj : Fl.nan = .fin j := hj
        cases hj
      · fin_cases k <;> norm_num [obtV]

end Verif.Electro
