import Verif.Spec.Electro
import Verif.Proofs.Electro
import Verif.Props.Krylov
import Verif.Props.Tetra

/-!
# C57, C59, C61: the electrostatic problem
-/

namespace Verif.Electro

open Verif.Mesh Verif.Assembly Verif.SparseMat Verif.Llg Verif.Krylov

/-! ## C57: checks -/

theorem countP_one {α : Type} (l : List α) (P : α → Bool) :
    (l.countP P == 1) = true ↔ ExactlyOne l fun a => P a = true := by
  rw [beq_iff_eq]
  constructor
  · intro h
    have hpos : 0 < l.countP P := by omega
    obtain ⟨a, ha, hPa⟩ := List.countP_pos_iff.mp hpos
    obtain ⟨b, c, rfl⟩ := List.append_of_mem ha
    refine ⟨b, a, c, rfl, hPa, ?_⟩
    rw [List.countP_append, List.countP_cons_of_pos hPa] at h
    have hb : b.countP P = 0 := by omega
    have hc : c.countP P = 0 := by omega
    intro x hx
    rcases List.mem_append.mp hx with hx | hx
    · exact List.countP_eq_zero.mp hb x hx
    · exact List.countP_eq_zero.mp hc x hx
  · rintro ⟨b, a, c, rfl, hPa, hn⟩
    have hb : b.countP P = 0 := List.countP_eq_zero.mpr fun x hx => hn x (List.mem_append_left _ hx)
    have hc : c.countP P = 0 := List.countP_eq_zero.mpr fun x hx => hn x (List.mem_append_right _ hx)
    rw [List.countP_append, List.countP_cons_of_pos hPa, hb, hc]

/-- **C57** The potential solver starts exactly when one surface has a current density and one surface has a
potential. -/
theorem C57_start_potential (prms : List SurfPrm) :
    checkV prms = true ↔ ExactlyOne prms (fun p => p.jn.IsFin) ∧ ExactlyOne prms (fun p => p.V.IsFin) := by
  classical
  unfold checkV
  dsimp only
  rw [Bool.and_eq_true, countP_one, countP_one]
  simp only [decide_eq_true_eq]

theorem countP_all {α : Type} (l : List α) (P Q : α → Bool) (h1 : ExactlyOne l fun a => P a = false) :
    (1 + l.countP (fun a => P a && Q a) == l.length) = true ↔ ∀ a ∈ l, P a = true → Q a = true := by
  obtain ⟨b, x, c, rfl, hx, hn⟩ := h1
  rw [beq_iff_eq, List.countP_append, List.countP_cons_of_neg (by simp [hx]), List.length_append, List.length_cons]
  have hb := List.countP_le_length (p := fun a => P a && Q a) (l := b)
  have hc := List.countP_le_length (p := fun a => P a && Q a) (l := c)
  have all : ∀ l' : List α, (∀ a ∈ l', a ∈ b ++ c) →
      (l'.countP (fun a => P a && Q a) = l'.length ↔ ∀ a ∈ l', Q a = true) := by
    intro l' hl'
    rw [List.countP_eq_length]
    refine forall₂_congr fun a ha => ?_
    have : P a = true := by
      have := hn a (hl' a ha)
      simpa using this
    rw [this]; simp
  have e1 := all b fun a ha => List.mem_append_left _ ha
  have e2 := all c fun a ha => List.mem_append_right _ ha
  constructor
  · intro h a ha hP
    have h1 : b.countP (fun a => P a && Q a) = b.length := by omega
    have h2 : c.countP (fun a => P a && Q a) = c.length := by omega
    rcases List.mem_append.mp ha with ha | ha
    · exact e1.mp h1 a ha
    · rcases List.mem_cons.mp ha with rfl | ha
      · rw [hx] at hP; simp at hP
      · exact e2.mp h2 a ha
  · intro h
    have key : ∀ a ∈ b ++ c, Q a = true := by
      intro a ha
      refine h a ?_ (by simpa using hn a ha)
      rcases List.mem_append.mp ha with ha | ha
      · exact List.mem_append_left _ ha
      · exact List.mem_append_right _ (List.mem_cons_of_mem _ ha)
    rw [e1.mpr fun a ha => key a (List.mem_append_left _ ha), e2.mpr fun a ha => key a (List.mem_append_right _ ha)]
    omega

/-- **C57** The spin solver starts exactly when, default entries left out, one surface has a current density, one
surface has a spin vector, and every volume region has a finite nonzero density of states and a polarization
in `[0, 1)`. The list of volume regions contains one default entry (settings.cpp:134-143). -/
theorem C57_start_spin (vol : List VolPrm) (prms : List SurfPrm)
    (hdef : ExactlyOne vol fun p => p.regName = "__default__") :
    checkS vol prms = true ↔
      ExactlyOne prms (fun p => p.regName ≠ "__default__" ∧ p.jn.IsFin) ∧
      ExactlyOne prms (fun p => p.regName ≠ "__default__" ∧ (norm3 p.s).IsFin) ∧
      (∀ p ∈ vol, p.regName ≠ "__default__" → p.N0.IsFin ∧ p.N0.val ≠ 0) ∧
      (∀ p ∈ vol, p.regName ≠ "__default__" → p.P.IsFin ∧ 0 ≤ p.P.val ∧ p.P.val < 1) := by
  classical
  have hd : ExactlyOne vol fun p => (p.regName != "__default__") = false := by
    simpa using hdef
  unfold checkS
  dsimp only
  rw [Bool.and_eq_true, Bool.and_eq_true, Bool.and_eq_true, countP_one, countP_one, countP_all _ _ _ hd,
    countP_all _ _ _ hd]
  simp only [Bool.and_eq_true, decide_eq_true_eq, bne_iff_ne, ne_eq, and_assoc]

/-- a list that passes both checks -/
noncomputable def exSurf : List SurfPrm :=
  [⟨"__default__", .nan, .nan, fun _ => .nan, fun _ => .nan⟩,
   ⟨"left", .fin 2, .nan, fun _ => .fin 1, fun _ => .nan⟩, ⟨"right", .nan, .fin 0, fun _ => .nan, fun _ => .fin 0⟩]

example : checkV exSurf = true := by
  rw [C57_start_potential]
  refine ⟨⟨[_], _, [_], rfl, trivial, ?_⟩, ⟨[_, _], _, [], rfl, trivial, ?_⟩⟩
  · intro b hb
    simp at hb
    rcases hb with rfl | rfl <;> exact id
  · intro b hb
    simp at hb
    rcases hb with rfl | rfl <;> exact id

/-! ## C57: element matrices -/

/-- **C57** The element matrix of the potential problem is symmetric, has zero row sums, and is positive semi-definite
for a positively oriented element with a non negative conductivity; its form vanishes only on constants when the
conductivity is positive. -/
theorem C57_element (G : Tetra.Rule) (hG : Tetra.Compiled G) (sigma : ℝ) (p : Fin 4 → V3) :
    (∀ i k, potMat G sigma p i k = potMat G sigma p k i) ∧
    (∀ i, ∑ k, potMat G sigma p i k = 0) ∧
    (0 ≤ sigma → 0 < Tetra.detJ p → ∀ x : Fin 4 → ℝ, 0 ≤ ∑ i, ∑ k, x i * potMat G sigma p i k * x k) ∧
    (0 < sigma → 0 < Tetra.detJ p → ∀ x : Fin 4 → ℝ, (∑ i, ∑ k, x i * potMat G sigma p i k * x k) = 0 →
      ∀ i k, x i = x k) := by
  refine ⟨fun i k => ?_, fun i => ?_, fun hs hd x => ?_, fun hs hd x h0 i k => ?_⟩
  · rw [potMat_eq, potMat_eq, V3.dot_comm]
  · have h := potMat_mulVec G sigma p (fun _ => 1) i
    rw [gradV_const] at h
    simp only [mul_one] at h
    rw [h]
    simp [V3.dot]
  · rw [potMat_form, Tetra.calcVol_eq hG.ok]
    exact mul_nonneg (by positivity) (nsq_nonneg _)
  · rw [potMat_form, Tetra.calcVol_eq hG.ok] at h0
    have h1 : Tetra.gradV p x = 0 := dot_self_eq_zero ((mul_eq_zero.mp h0).resolve_left (by positivity))
    have h2 := fun j => gradV_diff p hd.ne' x j
    rw [h1] at h2
    have h3 : ∀ j, x j = x 0 := by
      intro j
      have := h2 j
      simp [V3.dot] at this
      linarith
    rw [h3 i, h3 k]

example : 0 < Tetra.detJ (MeshElem.nod4 Tetra.exP Tetra.exT) := by rw [Tetra.ex_detJ]; norm_num

end Verif.Electro
