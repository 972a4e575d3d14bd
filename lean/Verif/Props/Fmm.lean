import Mathlib.Tactic.NormNum
import Mathlib.Algebra.BigOperators.Fin
import Mathlib.Algebra.Order.BigOperators.Ring.Finset
import Mathlib.Tactic.Linarith
import Mathlib.Tactic.FieldSimp
import Verif.Model.Fmm
import Verif.Props.BoundingBox
import Verif.Spec.Fmm

/-!
# C47: each charge reaches the potential solver at its own position
-/

namespace Verif.Fmm

variable {E T F : Type}

theorem insert_fold (norm : ℝ) (c : V3) (ps : List V3) : ∀ s : ℕ × List Particle,
    ps.foldl (fun s p => (s.1 + 1, s.2 ++ [⟨scaled norm c p, .source, s.1⟩])) s =
      (s.1 + ps.length, s.2 ++ (ps.zipIdx s.1).map fun p => (⟨scaled norm c p.1, .source, p.2⟩ : Particle)) := by
  induction ps with
  | nil => intro s; simp
  | cons p ps ih =>
    intro s
    rw [List.foldl_cons, ih]
    simp [List.zipIdx_cons]
    omega

theorem insertCharges_eq (npi : ℕ) (norm : ℝ) (c : V3) (gauss : E → ℕ → V3) (elems : List E) (s : ℕ × List Particle) :
    insertCharges npi norm c gauss elems s =
      (elems.flatMap fun e => (List.range npi).map (gauss e)).foldl
        (fun s p => (s.1 + 1, s.2 ++ [⟨scaled norm c p, .source, s.1⟩])) s := by
  unfold insertCharges
  induction elems generalizing s with
  | nil => rfl
  | cons e l ih =>
    rw [List.foldl_cons, List.flatMap_cons, List.foldl_append, List.foldl_map]
    exact ih _

theorem set_range (m : ℕ) (f : ℕ → ℝ) (A : List ℝ) : ∀ (B C : List ℝ), B.length = m →
    (List.range m).foldl (fun d i => d.set (A.length + i) (f i)) (A ++ B ++ C) = A ++ (List.range m).map f ++ C := by
  induction m with
  | zero => intro B C hB; simp [List.eq_nil_of_length_eq_zero hB]
  | succ m ih =>
    intro B C hB
    rcases List.eq_nil_or_concat B with h | ⟨B', b, h⟩
    · subst h; simp at hB
    · subst h
      rw [List.concat_eq_append] at *
      have hB' : B'.length = m := by simpa using hB
      rw [List.range_succ, List.foldl_append, List.foldl_cons, List.foldl_nil]
      have e : A ++ (B' ++ [b]) ++ C = A ++ B' ++ ([b] ++ C) := by simp
      rw [e, ih B' ([b] ++ C) hB']
      have hl : (A ++ (List.range m).map f).length = A.length + m := by simp
      rw [List.set_append_right _ _ (by rw [hl]), hl]
      simp

theorem fill_fold (npi : ℕ) (charge : E → ℕ → ℝ) (elems : List E) : ∀ (A B C : List ℝ),
    B.length = elems.length * npi →
    fillCharges npi charge elems (A.length, A ++ B ++ C) =
      (A.length + elems.length * npi, A ++ (elems.flatMap fun e => (List.range npi).map (charge e)) ++ C) := by
  unfold fillCharges
  induction elems with
  | nil => intro A B C hB; simp at hB; simp [hB]
  | cons e l ih =>
    intro A B C hB
    rw [List.foldl_cons]
    have h1 : (B.take npi).length = npi := by
      rw [List.length_take, hB]
      have : npi ≤ (e :: l).length * npi := Nat.le_mul_of_pos_left _ (by simp)
      omega
    have h2 : (B.drop npi).length = l.length * npi := by
      rw [List.length_drop, hB, List.length_cons, Nat.succ_mul]; omega
    have e1 : A ++ B ++ C = A ++ B.take npi ++ (B.drop npi ++ C) := by
      simp only [List.append_assoc]
      rw [← List.append_assoc (B.take npi), List.take_append_drop]
    rw [e1]
    dsimp only
    rw [set_range npi (charge e) A _ _ h1]
    have e2 : A.length + npi = (A ++ (List.range npi).map (charge e)).length := by simp
    have e3 : A ++ List.map (charge e) (List.range npi) ++ (List.drop npi B ++ C) =
        (A ++ (List.range npi).map (charge e)) ++ B.drop npi ++ C := by simp
    rw [e2, e3, ih _ _ _ h2]
    simp only [List.length_append, List.length_map, List.length_range, List.flatMap_cons, List.length_cons,
      List.append_assoc, Prod.mk.injEq, and_true]
    rw [Nat.succ_mul]; omega

theorem flat_length (npi : ℕ) (charge : E → ℕ → ℝ) (elems : List E) :
    (elems.flatMap fun e => (List.range npi).map (charge e)).length = elems.length * npi := by
  induction elems with
  | nil => simp
  | cons e l ih => rw [List.flatMap_cons, List.length_append, ih]; simp [Nat.succ_mul]; omega

theorem calcCharges_eq (npiT npiF : ℕ) (chargeT : T → ℕ → ℝ) (chargeF : F → ℕ → ℝ) (magTet : List T)
    (magTri : List F) :
    calcCharges npiT npiF chargeT chargeF magTet magTri =
      (magTet.flatMap fun e => (List.range npiT).map (chargeT e)) ++
      (magTri.flatMap fun e => (List.range npiF).map (chargeF e)) := by
  unfold calcCharges
  have e0 : (List.replicate (magTri.length * npiF + magTet.length * npiT) (0 : ℝ)) =
      [] ++ List.replicate (magTet.length * npiT) 0 ++ List.replicate (magTri.length * npiF) 0 := by
    rw [List.nil_append, ← List.replicate_add, Nat.add_comm]
  have h1 := fill_fold npiT chargeT magTet [] (List.replicate (magTet.length * npiT) 0)
    (List.replicate (magTri.length * npiF) 0) (by simp)
  rw [e0]
  simp only [List.length_nil] at h1
  rw [h1, Nat.zero_add, ← flat_length npiT chargeT magTet]
  have h2 := fill_fold npiF chargeF magTri (magTet.flatMap fun e => (List.range npiT).map (chargeT e))
    (List.replicate (magTri.length * npiF) 0) [] (by simp)
  simp only [List.append_nil, List.nil_append] at h2 ⊢
  rw [h2]

theorem pointCharges_fst (npi : ℕ) (gauss : E → ℕ → V3) (charge : E → ℕ → ℝ) (elems : List E) :
    (pointCharges npi gauss charge elems).map Prod.fst = elems.flatMap fun e => (List.range npi).map (gauss e) := by
  simp [pointCharges, List.map_flatMap, Function.comp_def]

theorem pointCharges_snd (npi : ℕ) (gauss : E → ℕ → V3) (charge : E → ℕ → ℝ) (elems : List E) :
    (pointCharges npi gauss charge elems).map Prod.snd = elems.flatMap fun e => (List.range npi).map (charge e) := by
  simp [pointCharges, List.map_flatMap, Function.comp_def]

theorem tree_eq (npiT npiF : ℕ) (norm : ℝ) (c : V3) (p : ℕ → V3) (magNode : List Bool) (gaussT : T → ℕ → V3)
    (gaussF : F → ℕ → V3) (magTet : List T) (magTri : List F) :
    tree npiT npiF norm c p magNode gaussT gaussF magTet magTri =
      insertTargets norm c p magNode ++
      (((magTet.flatMap fun e => (List.range npiT).map (gaussT e)) ++
        (magTri.flatMap fun e => (List.range npiF).map (gaussF e))).zipIdx magNode.length).map
          fun q => (⟨scaled norm c q.1, .source, q.2⟩ : Particle) := by
  unfold tree
  rw [insertCharges_eq, insertCharges_eq, ← List.foldl_append, insert_fold]

theorem targets_kind (norm : ℝ) (c : V3) (p : ℕ → V3) (magNode : List Bool) :
    ∀ q ∈ insertTargets norm c p magNode, q.kind = .target := by
  intro q hq
  unfold insertTargets at hq
  obtain ⟨i, _, h⟩ := List.mem_filterMap.mp hq
  split at h
  · injection h with h; rw [← h]
  · exact absurd h (by simp)

/-- The sources of the octree are, one for one, the integration points of the magnetic elements (in scaled
coordinates), each with the charge computed for that point of that element. No access is out of bounds. -/
theorem C47_sources (npiT npiF : ℕ) (norm : ℝ) (c : V3) (p : ℕ → V3) (magNode : List Bool) (gaussT : T → ℕ → V3)
    (gaussF : F → ℕ → V3) (chargeT : T → ℕ → ℝ) (chargeF : F → ℕ → ℝ) (magTet : List T) (magTri : List F) :
    physicalValues magNode.length (calcCharges npiT npiF chargeT chargeF magTet magTri)
      (tree npiT npiF norm c p magNode gaussT gaussF magTet magTri) =
    (pointCharges npiT gaussT chargeT magTet ++ pointCharges npiF gaussF chargeF magTri).map
      fun q => (scaled norm c q.1, some q.2) := by
  set R := pointCharges npiT gaussT chargeT magTet ++ pointCharges npiF gaussF chargeF magTri with hR
  have hp : ((magTet.flatMap fun e => (List.range npiT).map (gaussT e)) ++
      (magTri.flatMap fun e => (List.range npiF).map (gaussF e))) = R.map Prod.fst := by
    rw [hR, List.map_append, pointCharges_fst, pointCharges_fst]
  have hq : calcCharges npiT npiF chargeT chargeF magTet magTri = R.map Prod.snd := by
    rw [calcCharges_eq, hR, List.map_append, pointCharges_snd, pointCharges_snd]
  rw [tree_eq, hp, hq]
  unfold physicalValues
  rw [List.filter_append]
  have h1 : (insertTargets norm c p magNode).filter (fun x => decide (x.kind = .source)) = [] := by
    rw [List.filter_eq_nil_iff]
    intro q hq
    rw [targets_kind norm c p magNode q hq]; simp
  rw [h1, List.nil_append, List.filter_eq_self.mpr (by
    intro q hq
    obtain ⟨x, _, e⟩ := List.mem_map.mp hq
    rw [← e]; simp)]
  apply List.ext_getElem
  · simp
  · intro i h2 h3
    have hi : i < R.length := by simpa using h3
    simp only [List.getElem_map, List.getElem_zipIdx, Prod.mk.injEq, true_and]
    rw [if_pos (by omega)]
    rw [show magNode.length + i - magNode.length = i by omega, List.getElem?_map, List.getElem?_eq_getElem hi]
    rfl

theorem update_fold (g : ℕ → ℝ) (l : List ℕ) : ∀ (phi : ℕ → ℝ) (i : ℕ),
    l.foldl (fun phi k => Function.update phi k (g k)) phi i = if i ∈ l then g i else phi i := by
  induction l with
  | nil => intro phi i; simp
  | cons a l ih =>
    intro phi i
    rw [List.foldl_cons, ih]
    by_cases h : i ∈ l
    · simp [h]
    · by_cases ha : i = a
      · subst ha; simp [h]
      · simp [h, ha]

/-- Each magnetic node receives the potential computed at its own position, plus its own correction; the other nodes
are left alone. -/
theorem C47_targets (npiT npiF : ℕ) (norm : ℝ) (c : V3) (p : ℕ → V3) (magNode : List Bool) (gaussT : T → ℕ → V3)
    (gaussF : F → ℕ → V3) (magTet : List T) (magTri : List F) (pot : V3 → ℝ) (corr phi : ℕ → ℝ) (i : ℕ) :
    writeBack norm pot corr (tree npiT npiF norm c p magNode gaussT gaussF magTet magTri) phi i =
      if magNode[i]? = some true then (pot (norm * (p i - c)) * norm + corr i) / (4 * Real.pi) else phi i := by
  rw [tree_eq]
  unfold writeBack
  rw [List.filter_append]
  have h2 : ∀ l : List (V3 × ℕ), (l.map fun q => (⟨scaled norm c q.1, .source, q.2⟩ : Particle)).filter
      (fun x => decide (x.kind = .target)) = [] := by
    intro l
    rw [List.filter_eq_nil_iff]
    intro q hq
    obtain ⟨x, _, e⟩ := List.mem_map.mp hq
    rw [← e]; simp
  rw [h2, List.append_nil, List.filter_eq_self.mpr (by
    intro q hq; rw [targets_kind norm c p magNode q hq]; simp)]
  -- the targets are the magnetic indices
  have h3 : insertTargets norm c p magNode =
      ((List.range magNode.length).filter fun k => magNode.getD k false).map
        fun k => (⟨scaled norm c (p k), .target, k⟩ : Particle) := by
    unfold insertTargets
    generalize List.range magNode.length = r
    induction r with
    | nil => rfl
    | cons k r ih =>
      rw [List.filterMap_cons]
      by_cases hk : magNode.getD k false = true
      · simp only [hk, if_true, List.filter_cons_of_pos]
        rw [ih]; rfl
      · simp only [hk, Bool.false_eq_true, if_false]
        rw [ih, List.filter_cons_of_neg (by simpa using hk)]
  rw [h3, List.foldl_map]
  have := update_fold (fun k => (pot (scaled norm c (p k)) * norm + corr k) / (4 * Real.pi))
    ((List.range magNode.length).filter fun k => magNode.getD k false) phi i
  dsimp only at this ⊢
  rw [this]
  have hiff : i ∈ (List.range magNode.length).filter (fun k => magNode.getD k false) ↔ magNode[i]? = some true := by
    rw [List.mem_filter, List.mem_range, List.getD_eq_getElem?_getD]
    by_cases hi : i < magNode.length
    · rw [List.getElem?_eq_getElem hi]; simp [hi]
    · rw [List.getElem?_eq_none (by omega)]; simp
  simp only [hiff]
  rfl

theorem norm_scaled (s : ℝ) (hs : 0 < s) (c a b : V3) : (scaled s c a - scaled s c b).norm = s * (a - b).norm := by
  have e : (scaled s c a - scaled s c b).nsq = s ^ 2 * (a - b).nsq := by
    simp [scaled, V3.nsq]; ring
  unfold V3.norm
  rw [e, Real.sqrt_mul (by positivity), Real.sqrt_sq (le_of_lt hs)]

/-- If the multipole algorithm returns the Coulomb potential of the charges it was given, then every magnetic node
receives the Coulomb potential, in the original coordinates, of the charges of the magnetic elements, plus its
correction: the scaling of the coordinates cancels. -/
theorem C47_coulomb (npiT npiF : ℕ) (norm : ℝ) (hnorm : 0 < norm) (c : V3) (p : ℕ → V3) (magNode : List Bool)
    (gaussT : T → ℕ → V3) (gaussF : F → ℕ → V3) (chargeT : T → ℕ → ℝ) (chargeF : F → ℕ → ℝ) (magTet : List T)
    (magTri : List F) (pot : V3 → ℝ) (corr phi : ℕ → ℝ)
    (hpot : ∀ x, pot x = coulomb ((physicalValues magNode.length (calcCharges npiT npiF chargeT chargeF magTet magTri)
      (tree npiT npiF norm c p magNode gaussT gaussF magTet magTri)).map fun q => (q.1, q.2.getD 0)) x)
    (i : ℕ) (hi : magNode[i]? = some true) :
    writeBack norm pot corr (tree npiT npiF norm c p magNode gaussT gaussF magTet magTri) phi i =
      (coulomb (pointCharges npiT gaussT chargeT magTet ++ pointCharges npiF gaussF chargeF magTri) (p i) + corr i) /
        (4 * Real.pi) := by
  rw [C47_targets, if_pos hi, hpot, C47_sources]
  congr 2
  unfold coulomb
  rw [← List.sum_map_mul_right, List.map_map, List.map_map]
  congr 1
  apply List.map_congr_left
  intro q _
  simp only [Function.comp_apply, Option.getD_some]
  have := norm_scaled norm hnorm c (p i) q.1
  unfold scaled at this ⊢
  rw [this]
  by_cases h0 : (p i - q.1).norm = 0
  · rw [h0]; simp
  · field_simp

/-- the concrete case of one magnetic node and one tetrahedron with two integration points -/
example : physicalValues 1 (calcCharges 2 1 (fun (_ : Unit) j => (j : ℝ) + 5) (fun (_ : Unit) _ => 0) [()] [])
    (tree 2 1 1 0 (fun _ => 0) [true] (fun (_ : Unit) j => ⟨j, 0, 0⟩) (fun (_ : Unit) _ => 0) [()] []) =
    [(scaled 1 0 ⟨((0 : ℕ) : ℝ), 0, 0⟩, some (((0 : ℕ) : ℝ) + 5)), (scaled 1 0 ⟨((1 : ℕ) : ℝ), 0, 0⟩, some (((1 : ℕ) : ℝ) + 5))] := by
  have := C47_sources (T := Unit) (F := Unit) 2 1 1 0 (fun _ => 0) [true] (fun _ j => ⟨j, 0, 0⟩) (fun _ _ => 0)
    (fun _ j => (j : ℝ) + 5) (fun _ _ => 0) [()] []
  simp only [List.length_singleton] at this
  rw [this]
  rfl

/-- `msh.l.maxCoeff()`, fmm_demag.h:72 -/
noncomputable def maxCoeff (l : V3) : ℝ := max l.x (max l.y l.z)

/-- a point with given barycentric coordinates in a tetrahedron or a triangle -/
def bary {n : ℕ} (a : Fin n → ℝ) (p : Fin n → V3) : V3 :=
  ⟨∑ k, a k * (p k).x, ∑ k, a k * (p k).y, ∑ k, a k * (p k).z⟩

theorem bary_comp {n : ℕ} (a : Fin n → ℝ) (p : Fin n → V3) (i : Fin 3) :
    (bary a p).comp i = ∑ k, a k * (p k).comp i := by
  fin_cases i <;> rfl

/-- With the scaling of the code, every node of the mesh and every point inside an element lies in the cube
[-1, 1]³, hence inside the box of width 2.01 given to the octree (fmm_demag.h:52). -/
theorem C58_inside_box {n : ℕ} (node : List V3) (p : Fin n → V3) (hp : ∀ k, p k ∈ node) (a : Fin n → ℝ)
    (ha : ∀ k, 0 ≤ a k) (hsum : ∑ k, a k = 1) (hl : 0 < maxCoeff (BoundingBox.lengths node)) (i : Fin 3) :
    |(scaled (2 / maxCoeff (BoundingBox.lengths node)) (BoundingBox.center node) (bary a p)).comp i| ≤ 1 ∧
    (1 : ℝ) < 2.01 / 2 := by
  refine ⟨?_, by norm_num⟩
  set l := BoundingBox.lengths node
  set c := BoundingBox.center node
  have h1 : ∀ k, |(p k).comp i - c.comp i| ≤ l.comp i / 2 := fun k => BoundingBox.C31_contains node (p k) (hp k) i
  have h2 : |(bary a p).comp i - c.comp i| ≤ l.comp i / 2 := by
    have e : (bary a p).comp i - c.comp i = ∑ k, a k * ((p k).comp i - c.comp i) := by
      rw [bary_comp]
      simp only [mul_sub, Finset.sum_sub_distrib]
      rw [← Finset.sum_mul, hsum, one_mul]
    rw [e]
    calc |∑ k, a k * ((p k).comp i - c.comp i)| ≤ ∑ k, |a k * ((p k).comp i - c.comp i)| :=
          Finset.abs_sum_le_sum_abs _ _
      _ ≤ ∑ k, a k * (l.comp i / 2) := by
          apply Finset.sum_le_sum
          intro k _
          rw [abs_mul, abs_of_nonneg (ha k)]
          exact mul_le_mul_of_nonneg_left (h1 k) (ha k)
      _ = l.comp i / 2 := by rw [← Finset.sum_mul, hsum, one_mul]
  have h3 : l.comp i ≤ maxCoeff l := by
    unfold maxCoeff
    fin_cases i
    · exact le_max_left _ _
    · exact le_trans (le_max_left _ _) (le_max_right _ _)
    · exact le_trans (le_max_right _ _) (le_max_right _ _)
  have e : (scaled (2 / maxCoeff l) c (bary a p)).comp i = 2 / maxCoeff l * ((bary a p).comp i - c.comp i) := by
    fin_cases i <;> rfl
  rw [e, abs_mul, abs_of_pos (div_pos two_pos hl), div_mul_eq_mul_div, div_le_one hl]
  linarith

/-- the length is positive as soon as two nodes differ -/
theorem maxCoeff_pos (node : List V3) (p q : V3) (hp : p ∈ node) (hq : q ∈ node) (h : p ≠ q) :
    0 < maxCoeff (BoundingBox.lengths node) := by
  by_contra hc
  push Not at hc
  apply h
  have key : ∀ i : Fin 3, p.comp i = q.comp i := by
    intro i
    have h1 := BoundingBox.C31_contains node p hp i
    have h2 := BoundingBox.C31_contains node q hq i
    have h3 : (BoundingBox.lengths node).comp i ≤ maxCoeff (BoundingBox.lengths node) := by
      unfold maxCoeff
      fin_cases i
      · exact le_max_left _ _
      · exact le_trans (le_max_left _ _) (le_max_right _ _)
      · exact le_trans (le_max_right _ _) (le_max_right _ _)
    rw [abs_le] at h1 h2
    linarith
  ext
  · exact key 0
  · exact key 1
  · exact key 2

/-- the hypotheses are met: centre of an edge of a mesh with two nodes -/
example : ∃ (node : List V3) (p : Fin 2 → V3) (a : Fin 2 → ℝ), (∀ k, p k ∈ node) ∧ (∀ k, 0 ≤ a k) ∧ ∑ k, a k = 1 ∧
    0 < maxCoeff (BoundingBox.lengths node) := by
  refine ⟨[⟨0, 0, 0⟩, ⟨-3, 0, 0⟩], fun k => if k = 0 then ⟨0, 0, 0⟩ else ⟨-3, 0, 0⟩, fun _ => 1 / 2, ?_, ?_, ?_, ?_⟩
  · intro k; fin_cases k <;> simp
  · intro k; norm_num
  · simp
  · apply maxCoeff_pos _ ⟨0, 0, 0⟩ ⟨-3, 0, 0⟩ (by simp) (by simp)
    intro h
    have := congrArg V3.x h
    norm_num at this

end Verif.Fmm
