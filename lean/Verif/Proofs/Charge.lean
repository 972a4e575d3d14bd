import Verif.Model.MeshElem
import Verif.Props.MeshCheck
import Verif.Props.Tetra
import Verif.Proofs.Mesh

/-!
# Lemmas for charge neutrality
-/

namespace Verif.MeshCheck

open Verif.Mesh Verif.Geom Verif.MeshElem

variable {π : Type}

/-- six times the flux of the interpolated field through an oriented triangle -/
def flux (p u : ℕ → V3) (a b c : ℕ) : ℝ := (u a + u b + u c).dot (V3.cross (p b - p a) (p c - p a))

def sg (b : Bool) : ℝ := if b then -1 else 1

/-- a quantity attached to oriented triangles: the same for cyclic permutations, opposite for the other ones -/
def Alternating (F : ℕ → ℕ → ℕ → ℝ) : Prop := ∀ a b c, F a b c = F b c a ∧ F a b c = - F b a c

theorem flux_alternating (p u : ℕ → V3) : Alternating (flux p u) := by
  intro a b c
  constructor <;> simp only [flux, V3.dot, V3.cross, V3.add_x, V3.add_y, V3.add_z, V3.sub_x, V3.sub_y, V3.sub_z] <;> ring

/-- flux through a triangle given by its sorted nodes -/
def kflux (F : ℕ → ℕ → ℕ → ℝ) (k : Key) : ℝ := F k.1 k.2.1 k.2.2

theorem flux_eq {F : ℕ → ℕ → ℕ → ℝ} (perm : Alternating F) (a b c : ℕ) :
    F a b c = sg (inversions a b c % 2 == 1) * kflux F (sort3 a b c) := by
  have P := perm a b c
  have P1 := perm b c a
  have P2 := perm c a b
  have P3 := perm b a c
  have P4 := perm a c b
  have P5 := perm c b a
  have go : ∀ x y z n, sort3 a b c = (x, y, z) → inversions a b c = n →
      F a b c = sg (n % 2 == 1) * F x y z →
      F a b c = sg (inversions a b c % 2 == 1) * kflux F (sort3 a b c) := by
    intro x y z n h1 h2 h3
    rw [h1, h2]
    exact h3
  by_cases h1 : a ≤ b <;> by_cases h2 : b ≤ c <;> by_cases h3 : a ≤ c
  · exact go a b c 0 (by unfold sort3; simp only [Prod.mk.injEq]; omega) (by unfold inversions; split_ifs <;> omega)
      (by simp [sg])
  · exfalso; omega
  · refine go a c b 1 (by unfold sort3; simp only [Prod.mk.injEq]; omega) (by unfold inversions; split_ifs <;> omega)
      (by simp [sg]; linarith)
  · exact go c a b 2 (by unfold sort3; simp only [Prod.mk.injEq]; omega) (by unfold inversions; split_ifs <;> omega)
      (by simp [sg]; linarith)
  · exact go b a c 1 (by unfold sort3; simp only [Prod.mk.injEq]; omega) (by unfold inversions; split_ifs <;> omega)
      (by simp [sg]; linarith)
  · exact go b c a 2 (by unfold sort3; simp only [Prod.mk.injEq]; omega) (by unfold inversions; split_ifs <;> omega)
      (by simp [sg]; linarith)
  · exfalso; omega
  · exact go c b a 3 (by unfold sort3; simp only [Prod.mk.injEq]; omega) (by unfold inversions; split_ifs <;> omega)
      (by simp [sg]; linarith)

/-- sum over the faces of a tetrahedron -/
theorem faces_sum {F : ℕ → ℕ → ℕ → ℝ} (perm : Alternating F) (Ms : ℕ → ℝ) (t : Tet) :
    ((faces t).map fun b => Ms b.reg * (sg b.flipped * kflux F b.nodes)).sum =
      Ms t.reg * (F (t.ind 0) (t.ind 2) (t.ind 1) + F (t.ind 1) (t.ind 2) (t.ind 3) + F (t.ind 2) (t.ind 0) (t.ind 3)
        + F (t.ind 3) (t.ind 0) (t.ind 1)) := by
  have e1 : ∀ a b c r, Ms (BasicTri.mk' a b c r false).reg *
      (sg (BasicTri.mk' a b c r false).flipped * kflux F (BasicTri.mk' a b c r false).nodes) = Ms r * F a b c := by
    intro a b c r
    rw [flux_eq perm]
    rfl
  unfold faces
  simp only [List.map_cons, List.map_nil, List.sum_cons, List.sum_nil, e1]
  ring

/-- total charge of a tetrahedron -/
theorem tet_charge {G : Tetra.Rule} (hG : G.Ok) (Ms : ℕ → ℝ) (p u : ℕ → V3) (t : Tet) (ht : 0 < mixedProd p t) :
    ∑ j, Tetra.charges G (Ms t.reg) (nod4 p t) (nod4 u t) j =
      -(1 / 6) * ((faces t).map fun b => Ms b.reg * (sg b.flipped * kflux (flux p u) b.nodes)).sum := by
  have hd : Tetra.detJ (nod4 p t) ≠ 0 := by rw [Tetra.detJ_nod]; exact ht.ne'
  rw [faces_sum (flux_alternating p u)]
  unfold Tetra.charges
  rw [← Finset.sum_mul, ← Finset.mul_sum]
  have e2 : ∑ j, Tetra.weight G (nod4 p t) j = Tetra.detJ (nod4 p t) / 6 := Tetra.calcVol_eq hG _
  rw [e2]
  simp only [Fin.sum_univ_four, Tetra.daRow_x, Tetra.daRow_y, Tetra.daRow_z, Tetra.daRow_eq]
  simp only [Tetra.gradNum, nod4, flux, V3.smul_x, V3.smul_y, V3.smul_z]
  field_simp
  simp [V3.dot, V3.cross]
  left
  ring

theorem tri_charge {H : TriElem.Rule} (hH : H.Ok) (d : ℝ) (p u : ℕ → V3) (f : Tri) :
    ∑ j, TriElem.charges H d (nod3 p f) (nod3 u f) j =
      1 / 6 * (d * flux p u (f.ind 0) (f.ind 1) (f.ind 2)) := by
  rw [TriElem.charges_sum hH]
  have : (nod3 u f 0 + nod3 u f 1 + nod3 u f 2).dot (TriElem.normalVect (nod3 p f)) =
      flux p u (f.ind 0) (f.ind 1) (f.ind 2) := rfl
  rw [this]
  ring

/-- flux density of a face weighted by the magnetization of its region -/
def wflux (Ms : ℕ → ℝ) (F : ℕ → ℕ → ℕ → ℝ) (b : BasicTri) : ℝ := Ms b.reg * (sg b.flipped * kflux F b.nodes)

/-- the charge of a triangle gathers the contributions of the incident faces -/
theorem tri_gather (Ms : ℕ → ℝ) (F : ℕ → ℕ → ℕ → ℝ) {tets : List Tet} {tris : List Tri} {sorted : List BasicTri}
    (h : IsSortOf sorted (allTri tets tris)) (f : Tri) :
    dMs Ms sorted f * (sg (BasicTri.ofTri f).flipped * kflux F (BasicTri.ofTri f).nodes) =
      ((grp (tets.flatMap faces) (BasicTri.ofTri f).nodes).map (wflux Ms F)).sum := by
  rw [dMs_eq_sum Ms h f]
  have hs : ∀ t, ∀ b ∈ faces t, b.surf = false := by
    intro t b hb
    unfold faces at hb
    simp only [List.mem_cons, List.not_mem_nil, or_false] at hb
    rcases hb with rfl | rfl | rfl | rfl <;> rfl
  have one : ∀ t, (((grp (faces t) (BasicTri.ofTri f).nodes).map (jumpOf Ms (BasicTri.ofTri f).flipped)).sum) *
      (sg (BasicTri.ofTri f).flipped * kflux F (BasicTri.ofTri f).nodes) =
      ((grp (faces t) (BasicTri.ofTri f).nodes).map (wflux Ms F)).sum := by
    intro t
    rw [← List.sum_map_mul_right]
    congr 1
    apply List.map_congr_left
    intro b hb
    obtain ⟨hb1, hb2⟩ := List.mem_filter.mp hb
    have hk : b.nodes = (BasicTri.ofTri f).nodes := by simpa using hb2
    unfold jumpOf wflux
    rw [hs t b hb1, hk]
    cases (BasicTri.ofTri f).flipped <;> cases b.flipped <;> simp [sg]
  have all : ∀ ts : List Tet, (ts.map fun t => ((grp (faces t) (BasicTri.ofTri f).nodes).map
      (jumpOf Ms (BasicTri.ofTri f).flipped)).sum).sum *
      (sg (BasicTri.ofTri f).flipped * kflux F (BasicTri.ofTri f).nodes) =
      ((grp (ts.flatMap faces) (BasicTri.ofTri f).nodes).map (wflux Ms F)).sum := by
    intro ts
    induction ts with
    | nil => simp [grp]
    | cons t ts ih =>
      rw [List.map_cons, List.sum_cons, add_mul, ih, one, List.flatMap_cons]
      unfold grp
      rw [List.filter_append, List.map_append, List.sum_append]
  exact all tets

/-- a list whose groups have zero sums has zero sum -/
theorem sum_of_groups {α κ : Type} [DecidableEq κ] (key : α → κ) (g : α → ℝ) : ∀ (n : ℕ) (l : List α), l.length ≤ n →
    (∀ k, ((l.filter fun b => decide (key b = k)).map g).sum = 0) → (l.map g).sum = 0 := by
  intro n
  induction n with
  | zero =>
    intro l hl _
    have : l = [] := List.length_eq_zero_iff.mp (by omega)
    rw [this]
    rfl
  | succ n ih =>
    intro l hl h
    cases l with
    | nil => rfl
    | cons b l =>
      have hsplit : ∀ l : List α, (l.map g).sum =
          ((l.filter fun x => decide (key x = key b)).map g).sum +
          ((l.filter fun x => !decide (key x = key b)).map g).sum := by
        intro l
        induction l with
        | nil => simp
        | cons x l ih =>
          by_cases hx : key x = key b
          · simp only [List.filter_cons, hx, decide_true, if_true, Bool.not_true, Bool.false_eq_true, if_false,
              List.map_cons, List.sum_cons, ih]
            ring
          · simp only [List.filter_cons, hx, decide_false, Bool.not_false, if_true, Bool.false_eq_true, if_false,
              List.map_cons, List.sum_cons, ih]
            ring
      rw [hsplit, h (key b), zero_add]
      apply ih
      · have : ((b :: l).filter fun x => !decide (key x = key b)) = l.filter fun x => !decide (key x = key b) := by
          simp
        rw [this]
        have := List.length_filter_le (fun x => !decide (key x = key b)) l
        simp at hl
        omega
      · intro k
        rw [List.filter_filter]
        by_cases hk : k = key b
        · have : ((b :: l).filter fun a => decide (key a = k) && !decide (key a = key b)) = [] := by
            rw [List.filter_eq_nil_iff]
            intro x _
            simp [hk]
          rw [this]
          rfl
        · have : ((b :: l).filter fun a => decide (key a = k) && !decide (key a = key b)) =
              (b :: l).filter fun a => decide (key a = k) := by
            apply List.filter_congr
            intro x _
            by_cases hx : key x = k
            · simp [hx, hk]
            · simp [hx]
          rw [this]
          exact h k

end Verif.MeshCheck
