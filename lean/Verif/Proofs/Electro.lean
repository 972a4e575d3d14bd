import Verif.Proofs.FullSystem
import Verif.Model.Electro

/-!
# Lemmas on the electrostatic and spin diffusion systems
-/

namespace Verif.Electro

open Verif.Mesh Verif.Assembly Verif.SparseMat Verif.Llg

/-! ## matrices handed to the solvers -/

theorem rowsOf_eq (n : ℕ) (m : Sp Fl) : rowsOf n m = toMat n m := rfl

theorem liftSp_wf {shape : Shape} {m : Sp ℝ} (w : m.WF shape) : (liftSp m).WF shape := by
  refine ⟨by simp [liftSp, w.1], fun i s hs => ?_⟩
  obtain ⟨r, hr, wr⟩ := w.2 i s hs
  refine ⟨⟨r.indices, r.values.map .fin⟩, by simp [liftSp, hr], ⟨wr.indices, by simp [wr.length]⟩⟩

theorem liftSp_get {m : Sp ℝ} {i j : ℕ} {v : ℝ} (h : m.get i j = some v) : (liftSp m).get i j = some (.fin v) := by
  unfold Sp.get at h ⊢
  unfold liftSp
  rw [List.getElem?_map]
  cases hr : m.rows[i]? with
  | none => rw [hr] at h; simp at h
  | some r =>
    rw [hr] at h
    simp only [Option.map_some]
    have h : r.get j = some v := h
    show Row.get _ j = _
    unfold Row.get at h ⊢
    dsimp only at h ⊢
    by_cases hc : r.indices[lowerBound r.indices j]? ≠ some j
    · rw [if_pos hc] at h ⊢
      injection h with h
      rw [← h]; rfl
    · rw [if_neg hc] at h ⊢
      rw [List.getElem?_map, h]
      rfl

theorem represents (n : ℕ) (shape : Shape) (hn : shape.length = n) (m : Sp ℝ) (w : m.WF shape) (M : ℕ → ℕ → ℝ)
    (hM : ∀ i j, i < n → m.get i j = some (M i j)) (hd : ∀ i, i < n → InShape shape i i) :
    Krylov.Represents (rowsOf n (liftSp m)) (fun i j : Fin n => M i j) ∧ Krylov.DiagStored (rowsOf n (liftSp m)) := by
  subst hn
  obtain ⟨h1, h2⟩ := toMat_represents shape (liftSp m) (liftSp_wf w) (fun i j => M i j)
    (fun i j => liftSp_get (hM i j i.2))
  exact ⟨h1, h2 fun i => hd i i.2⟩

/-- the right hand sides: additions never cleared -/
theorem vect_run {α : Type} [AddCommMonoid α] (D nod : ℕ) {N : ℕ} (es : List (Elem N α)) (hv : ∀ e ∈ es, ∀ k, e.ind k < nod)
    (v : List α) (hl : v.length = D * nod) :
    ∃ w, runVect v (es.flatMap (buildVectCalls D)) = some w ∧ w.length = D * nod ∧
      ∀ r, r < D * nod → w.getD r 0 = v.getD r 0 + (es.map fun e => e.rhsContribution D r).sum := by
  obtain ⟨w, h1, h2, h3⟩ := runVect_spec (es.flatMap (buildVectCalls D)) v (by
    intro q hq
    obtain ⟨e, he, hq⟩ := List.mem_flatMap.mp hq
    simp only [buildVectCalls, List.mem_flatMap, List.mem_finRange, true_and, List.mem_map, List.mem_range] at hq
    obtain ⟨ie, di, hdi, rfl⟩ := hq
    rw [hl]
    exact lt_of_lt_of_le (Nat.add_lt_add_left hdi _) (block_le (hv e he ie)))
  refine ⟨w, h1, h2.trans hl, fun r hr => ?_⟩
  rw [h3 r (by rw [hl]; exact hr), sum_map_flatMap]
  simp only [buildVect_sum]

/-! ## element matrices -/

theorem potMat_eq (G : Tetra.Rule) (sigma : ℝ) (p : Fin 4 → V3) (i k : Fin 4) :
    potMat G sigma p i k = sigma * Tetra.calcVol G p * (Tetra.daRow p i).dot (Tetra.daRow p k) := by
  unfold potMat Tetra.calcVol
  rw [← Finset.sum_mul, ← Finset.mul_sum]
  rfl

/-- the form of the element: conductivity times volume times scalar product of the gradients -/
theorem potMat_form (G : Tetra.Rule) (sigma : ℝ) (p : Fin 4 → V3) (x y : Fin 4 → ℝ) :
    ∑ i, ∑ k, x i * potMat G sigma p i k * y k =
      sigma * Tetra.calcVol G p * (Tetra.gradV p x).dot (Tetra.gradV p y) := by
  simp only [potMat_eq, Tetra.gradV, Fin.sum_univ_four, V3.dot, V3.add_x, V3.add_y, V3.add_z, V3.smul_x, V3.smul_y,
    V3.smul_z]
  ring

theorem nsq_nonneg (v : V3) : 0 ≤ v.dot v := by
  unfold V3.dot
  nlinarith [mul_self_nonneg v.x, mul_self_nonneg v.y, mul_self_nonneg v.z]

theorem dot_self_eq_zero {v : V3} (h : v.dot v = 0) : v = 0 := by
  unfold V3.dot at h
  have hx := mul_self_nonneg v.x
  have hy := mul_self_nonneg v.y
  have hz := mul_self_nonneg v.z
  have h1 : v.x * v.x = 0 := by linarith
  have h2 : v.y * v.y = 0 := by linarith
  have h3 : v.z * v.z = 0 := by linarith
  ext
  · exact mul_self_eq_zero.mp h1
  · exact mul_self_eq_zero.mp h2
  · exact mul_self_eq_zero.mp h3

/-- differences of nodal values are read off the gradient -/
theorem gradV_diff (p : Fin 4 → V3) (hp : Tetra.detJ p ≠ 0) (x : Fin 4 → ℝ) (i : Fin 4) :
    (p i - p 0).dot (Tetra.gradV p x) = x i - x 0 := by
  have hd := Tetra.detJ_eq p
  unfold Tetra.gradV
  simp only [Fin.sum_univ_four, Tetra.daRow_eq]
  fin_cases i <;> simp [Tetra.gradNum, V3.cross, V3.dot] <;> field_simp <;> rw [hd] <;> simp [V3.cross, V3.dot] <;> ring

theorem gradV_const (p : Fin 4 → V3) (c : ℝ) : Tetra.gradV p (fun _ => c) = 0 := by
  have h := Tetra.daRow_sum p
  have hx := congrArg V3.x h
  have hy := congrArg V3.y h
  have hz := congrArg V3.z h
  unfold Tetra.gradV
  simp only [V3.sum_x, V3.sum_y, V3.sum_z] at hx hy hz
  ext
  · simp only [V3.sum_x, V3.smul_x, ← Finset.mul_sum, hx]; simp
  · simp only [V3.sum_y, V3.smul_y, ← Finset.mul_sum, hy]; simp
  · simp only [V3.sum_z, V3.smul_z, ← Finset.mul_sum, hz]; simp

theorem dot_gradV (p : Fin 4 → V3) (v : V3) (x : Fin 4 → ℝ) :
    v.dot (Tetra.gradV p x) = ∑ k, v.dot (Tetra.daRow p k) * x k := by
  simp only [Tetra.gradV, Fin.sum_univ_four, V3.dot, V3.add_x, V3.add_y, V3.add_z, V3.smul_x, V3.smul_y, V3.smul_z]
  ring

theorem potMat_mulVec (G : Tetra.Rule) (sigma : ℝ) (p : Fin 4 → V3) (x : Fin 4 → ℝ) (i : Fin 4) :
    ∑ k, potMat G sigma p i k * x k = sigma * Tetra.calcVol G p * (Tetra.daRow p i).dot (Tetra.gradV p x) := by
  rw [dot_gradV, Finset.mul_sum]
  simp only [potMat_eq]
  exact Finset.sum_congr rfl fun k _ => by ring

theorem one_mul_add (n : ℕ) (a : Fin 1) : 1 * n + (a : ℕ) = n := by omega

theorem ofNat4 (i : Fin 4) : Fin.ofNat 4 (i : ℕ) = i := by
  apply Fin.ext
  show (i : ℕ) % 4 = i
  exact Nat.mod_eq_of_lt i.2

theorem ofNat3 (i : Fin 3) : Fin.ofNat 3 (i : ℕ) = i := by
  apply Fin.ext
  show (i : ℕ) % 3 = i
  exact Nat.mod_eq_of_lt i.2

/-- the form of the assembled potential matrix -/
theorem pot_form (G : Tetra.Rule) (hG : Tetra.Compiled G) (p : ℕ → V3) (sigma : ℕ → ℝ) (nod : ℕ) (tets : List Tet)
    (hv : IndicesValid nod tets) (f g : ℕ → ℝ) :
    ∑ r ∈ Finset.range (1 * nod), ∑ c ∈ Finset.range (1 * nod), f r * fullCoef 1 tets (potTet G p sigma) r c * g c =
      (tets.map fun t => sigma t.reg * (Tetra.detJ (MeshElem.nod4 p t) / 6) *
        (Tetra.gradV (MeshElem.nod4 p t) (MeshElem.nod4 f t)).dot
          (Tetra.gradV (MeshElem.nod4 p t) (MeshElem.nod4 g t))).sum := by
  rw [full_form 1 nod tets hv (potTet G p sigma) (fun _ => rfl) f g]
  congr 1
  refine List.map_congr_left fun t _ => ?_
  rw [← Tetra.calcVol_eq hG.ok, ← potMat_form]
  refine Finset.sum_congr rfl fun i _ => Finset.sum_congr rfl fun k _ => ?_
  rw [Fin.sum_univ_one, Fin.sum_univ_one]
  simp only [potTet, one_mul, add_zero, Fin.val_zero, zero_mul, zero_add, ofNat4]
  rfl

/-- the form of the right hand side of the potential problem -/
theorem pot_rhs_form (H : TriElem.Rule) (hH : H.Ok) (p : ℕ → V3) (prm : ℕ → SurfPrm) (nod : ℕ) (f : Tri)
    (hv : ∀ k, f.ind k < nod) (w : ℕ → ℝ) :
    ∑ r ∈ Finset.range (1 * nod), w r * (potTri H p prm f).rhsContribution 1 r =
      -(currentDensity (prm f.reg) * TriElem.surf (MeshElem.nod3 p f) *
        ((w (f.ind 0) + w (f.ind 1) + w (f.ind 2)) / 3)) := by
  rw [rhs_form 1 (potTri H p prm f) nod hv w]
  have e : ∑ i, (MeshElem.nod3 w f) i * potVec H (currentDensity (prm f.reg)) (MeshElem.nod3 p f) i =
      -(currentDensity (prm f.reg) * ∑ j, TriElem.weight H (MeshElem.nod3 p f) j * TriElem.interpS H (MeshElem.nod3 w f) j) := by
    simp only [potVec, TriElem.interpS, Finset.mul_sum]
    rw [Finset.sum_comm, ← Finset.sum_neg_distrib]
    refine Finset.sum_congr rfl fun j _ => ?_
    rw [← Finset.sum_neg_distrib]
    exact Finset.sum_congr rfl fun i _ => by ring
  rw [TriElem.sum_weight_interpS hH] at e
  have e2 : -(currentDensity (prm f.reg) * TriElem.surf (MeshElem.nod3 p f) *
        ((w (f.ind 0) + w (f.ind 1) + w (f.ind 2)) / 3)) =
      -(currentDensity (prm f.reg) * (TriElem.surf (MeshElem.nod3 p f) * ((∑ i, MeshElem.nod3 w f i) / 3))) := by
    rw [Fin.sum_univ_three]
    simp only [MeshElem.nod3]
    ring
  rw [e2, ← e]
  refine Finset.sum_congr rfl fun i _ => ?_
  rw [Fin.sum_univ_one]
  simp only [potTri, one_mul, add_zero, Fin.val_zero, zero_mul, zero_add, ofNat3]
  rfl

/-! ## Dirichlet data -/

/-- successive writes of values, with the list of the positions written -/
def writes {α : Type} (st : List α × List ℕ) (ws : List (ℕ × α)) : List α × List ℕ :=
  ws.foldl (fun st w => (st.1.set w.1 w.2, st.2 ++ [w.1])) st

theorem writes_spec {α : Type} (d : α) (ws : List (ℕ × α)) : ∀ st : List α × List ℕ,
    (writes st ws).2 = st.2 ++ ws.map Prod.fst ∧ (writes st ws).1.length = st.1.length ∧
    ∀ i, i < st.1.length → ((i ∉ ws.map Prod.fst ∧ (writes st ws).1.getD i d = st.1.getD i d) ∨
      ∃ v, (i, v) ∈ ws ∧ (writes st ws).1.getD i d = v) := by
  induction ws with
  | nil => intro st; exact ⟨by simp [writes], rfl, fun i _ => Or.inl ⟨by simp, rfl⟩⟩
  | cons w ws ih =>
    intro st
    obtain ⟨h1, h2, h3⟩ := ih (st.1.set w.1 w.2, st.2 ++ [w.1])
    refine ⟨?_, ?_, ?_⟩
    · refine Eq.trans h1 ?_
      simp
    · refine Eq.trans h2 ?_
      simp
    · intro i hi
      rcases h3 i (by simpa using hi) with ⟨h4, h5⟩ | ⟨v, h4, h5⟩
      · by_cases e : i = w.1
        · refine Or.inr ⟨w.2, by rw [e]; exact List.mem_cons_self, ?_⟩
          refine Eq.trans h5 ?_
          rw [e] at hi ⊢
          simp [List.getD_eq_getElem?_getD, hi]
        · refine Or.inl ⟨?_, ?_⟩
          · rw [List.map_cons, List.mem_cons]
            rintro (h | h)
            · exact e h
            · exact h4 h
          · refine Eq.trans h5 ?_
            simp [List.getD_eq_getElem?_getD, Ne.symm e]
      · exact Or.inr ⟨v, List.mem_cons_of_mem _ h4, h5⟩

theorem writes_flatMap {α β : Type} (f : β → List (ℕ × α)) (l : List β) : ∀ st : List α × List ℕ,
    l.foldl (fun st b => writes st (f b)) st = writes st (l.flatMap f) := by
  induction l with
  | nil => intro st; rfl
  | cons b l ih =>
    intro st
    rw [List.foldl_cons, ih, List.flatMap_cons]
    unfold writes
    rw [List.foldl_append]

open Classical in
/-- the writes of the potential problem -/
noncomputable def potWrites (prm : ℕ → SurfPrm) (f : Tri) : List (ℕ × Fl) :=
  if (prm f.reg).V.IsNan then [] else (List.finRange 3).map fun i => (f.ind i, (prm f.reg).V)

theorem potDirichlet_writes (nod : ℕ) (prm : ℕ → SurfPrm) (tris : List Tri) :
    potDirichlet nod prm tris = writes (List.replicate nod 0, []) (tris.flatMap (potWrites prm)) := by
  rw [← writes_flatMap]
  unfold potDirichlet
  congr 1
  funext st f
  unfold potWrites
  by_cases h : (prm f.reg).V.IsNan
  · rw [if_pos h, if_pos h]; rfl
  · rw [if_neg h, if_neg h]
    unfold writes
    rw [List.foldl_map]

theorem mem_potWrites {prm : ℕ → SurfPrm} {f : Tri} {i : ℕ} {v : Fl} :
    (i, v) ∈ potWrites prm f ↔ ¬ (prm f.reg).V.IsNan ∧ (∃ k, f.ind k = i) ∧ v = (prm f.reg).V := by
  unfold potWrites
  by_cases h : (prm f.reg).V.IsNan
  · rw [if_pos h]; simp [h]
  · rw [if_neg h]
    simp only [List.mem_map, List.mem_finRange, true_and, Prod.mk.injEq]
    constructor
    · rintro ⟨k, e1, e2⟩; exact ⟨h, ⟨k, e1⟩, e2.symm⟩
    · rintro ⟨_, ⟨k, e1⟩, e2⟩; exact ⟨k, e1, e2.symm⟩

/-- the nine writes of a triangle -/
def triWrites (f : Tri) (v : Fin 3 → Fl) : List (ℕ × Fl) :=
  (List.finRange 3).flatMap fun i => (List.finRange 3).map fun d : Fin 3 => (3 * f.ind i + (d : ℕ), v d)

theorem fillDirichlet_writes (f : Tri) (v : Fin 3 → Fl) (st : List Fl × List ℕ) :
    fillDirichlet f v st = writes st (triWrites f v) := by
  unfold fillDirichlet triWrites
  rw [← writes_flatMap]
  congr 1

theorem mem_triWrites {f : Tri} {v : Fin 3 → Fl} {i : ℕ} {x : Fl} :
    (i, x) ∈ triWrites f v ↔ ∃ k, ∃ d : Fin 3, i = 3 * f.ind k + d ∧ x = v d := by
  unfold triWrites
  simp only [List.mem_flatMap, List.mem_map, List.mem_finRange, true_and, Prod.mk.injEq]
  constructor
  · rintro ⟨k, d, e1, e2⟩; exact ⟨k, d, e1.symm, e2.symm⟩
  · rintro ⟨k, d, e1, e2⟩; exact ⟨k, d, e1.symm, e2.symm⟩

/-- the value prescribed by a triangle in the spin problem, if any -/
noncomputable def spinValue (c : Consts) (m : SurfPrm) : Option (Fin 3 → Fl) := open Classical in
  if (norm3 m.s).IsNan ∧ m.jn.IsFin then some fun d => (-m.jn) * .fin (c.mub / c.e) * m.uP d
  else if (norm3 m.s).IsFin ∧ m.jn.IsNan then some m.s
  else none

theorem spinDirichlet_writes (c : Consts) (nod : ℕ) (prm : ℕ → SurfPrm) (tris : List Tri) :
    spinDirichlet c nod prm tris = writes (List.replicate (3 * nod) 0, [])
      (tris.flatMap fun f => ((spinValue c (prm f.reg)).elim [] (triWrites f))) := by
  rw [← writes_flatMap]
  unfold spinDirichlet
  congr 1
  funext st f
  dsimp only
  unfold spinValue
  split_ifs
  · exact fillDirichlet_writes _ _ _
  · exact fillDirichlet_writes _ _ _
  · rfl

end Verif.Electro
