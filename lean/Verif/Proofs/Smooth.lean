import Mathlib.Analysis.Calculus.ContDiff.Operations
import Verif.Spec.SemiDiscrete
import Verif.Proofs.WeakForm

/-!
# The terms of the weak form are continuously differentiable in the values at the nodes
-/

namespace Verif.SemiDiscrete

open Verif.Mesh Verif.Tetra Verif.WeakForm Verif.Llg

variable {Z : Type*} [NormedAddCommGroup Z] [NormedSpace ℝ Z]

namespace SmoothV

theorem const (a : V3) : SmoothV fun _ : Z => a := ⟨contDiff_const, contDiff_const, contDiff_const⟩

variable {f g : Z → V3} {c : Z → ℝ}

theorem add (hf : SmoothV f) (hg : SmoothV g) : SmoothV fun z => f z + g z := ⟨hf.x.add hg.x, hf.y.add hg.y, hf.z.add hg.z⟩

theorem sub (hf : SmoothV f) (hg : SmoothV g) : SmoothV fun z => f z - g z := ⟨hf.x.sub hg.x, hf.y.sub hg.y, hf.z.sub hg.z⟩

theorem neg (hf : SmoothV f) : SmoothV fun z => -f z := ⟨hf.x.neg, hf.y.neg, hf.z.neg⟩

theorem smul (hc : ContDiff ℝ 1 c) (hf : SmoothV f) : SmoothV fun z => c z * f z := ⟨hc.mul hf.x, hc.mul hf.y, hc.mul hf.z⟩

theorem dot (hf : SmoothV f) (hg : SmoothV g) : ContDiff ℝ 1 fun z => (f z).dot (g z) :=
  ((hf.x.mul hg.x).add (hf.y.mul hg.y)).add (hf.z.mul hg.z)

theorem nsq (hf : SmoothV f) : ContDiff ℝ 1 fun z => (f z).nsq :=
  ((hf.x.mul hf.x).add (hf.y.mul hf.y)).add (hf.z.mul hf.z)

theorem cross (hf : SmoothV f) (hg : SmoothV g) : SmoothV fun z => (f z).cross (g z) :=
  ⟨(hf.y.mul hg.z).sub (hf.z.mul hg.y), (hf.z.mul hg.x).sub (hf.x.mul hg.z), (hf.x.mul hg.y).sub (hf.y.mul hg.x)⟩

theorem sum {ι : Type} [Fintype ι] {f : Z → ι → V3} (h : ∀ i, SmoothV fun z => f z i) : SmoothV fun z => ∑ i, f z i := by
  refine ⟨?_, ?_, ?_⟩
  · simp only [V3.sum_x]; exact ContDiff.sum fun i _ => (h i).x
  · simp only [V3.sum_y]; exact ContDiff.sum fun i _ => (h i).y
  · simp only [V3.sum_z]; exact ContDiff.sum fun i _ => (h i).z

end SmoothV

theorem smooth_list {α : Type} (l : List α) (F : Z → α → ℝ) (h : ∀ a ∈ l, ContDiff ℝ 1 fun z => F z a) :
    ContDiff ℝ 1 fun z => (l.map (F z)).sum := by
  induction l with
  | nil => simpa using contDiff_const
  | cons a l ih =>
    simp only [List.map_cons, List.sum_cons]
    exact (h a (by simp)).add (ih fun b hb => h b (by simp [hb]))

section
variable {G : Rule} {f u w v : Z → Fin 4 → V3} {phi : Z → Fin 4 → ℝ} (p : Fin 4 → V3)

theorem smooth_interpV (hf : ∀ k, SmoothV fun z => f z k) (j : Fin G.n) : SmoothV fun z => interpV G (f z) j :=
  SmoothV.sum fun k => SmoothV.smul contDiff_const (hf k)

theorem smooth_deriv (hf : ∀ k, SmoothV fun z => f z k) (d : Fin 3) : SmoothV fun z => Tetra.deriv p d (f z) :=
  SmoothV.sum fun k => SmoothV.smul contDiff_const (hf k)

theorem smooth_interpField (h : ∀ k, ContDiff ℝ 1 fun z => phi z k) : SmoothV fun z => interpField p (phi z) :=
  (SmoothV.sum fun k => SmoothV.smul (h k) (SmoothV.const _)).neg

theorem smooth_gradDot (hf : ∀ k, SmoothV fun z => f z k) (hw : ∀ k, SmoothV fun z => w z k) :
    ContDiff ℝ 1 fun z => gradDot p (f z) (w z) :=
  (((smooth_deriv p hf 0).dot (smooth_deriv p hw 0)).add ((smooth_deriv p hf 1).dot (smooth_deriv p hw 1))).add
    ((smooth_deriv p hf 2).dot (smooth_deriv p hw 2))

theorem smooth_work {H : Z → Fin G.n → V3} (hH : ∀ j, SmoothV fun z => H z j) (hw : ∀ k, SmoothV fun z => w z k) :
    ContDiff ℝ 1 fun z => work G p (H z) (w z) :=
  ContDiff.sum fun j _ => contDiff_const.mul ((hH j).dot (smooth_interpV hw j))

theorem smooth_anisoField (m : Prm) (mu0 : ℝ) {U : Z → V3} (hU : SmoothV U) : SmoothV fun z => anisoField m mu0 (U z) := by
  have hd : ∀ a : V3, ContDiff ℝ 1 fun z => a.dot (U z) := fun a => (SmoothV.const a).dot hU
  have hc : ∀ a : V3, ContDiff ℝ 1 fun z => a.dot (U z) * (1 - a.dot (U z) * a.dot (U z)) :=
    fun a => (hd a).mul (contDiff_const.sub ((hd a).mul (hd a)))
  exact (SmoothV.smul (contDiff_const.mul (hd _)) (SmoothV.const _)).sub (SmoothV.smul contDiff_const
    (((SmoothV.smul (hc _) (SmoothV.const _)).add (SmoothV.smul (hc _) (SmoothV.const _))).add (SmoothV.smul (hc _) (SmoothV.const _))))

theorem smooth_tetWork (m : Prm) (mu0 : ℝ) {Hext Hst : Z → Fin G.n → V3} (hu : ∀ k, SmoothV fun z => u z k)
    (hphi : ∀ k, ContDiff ℝ 1 fun z => phi z k) (hH : ∀ j, SmoothV fun z => Hext z j) (hS : ∀ j, SmoothV fun z => Hst z j)
    (hw : ∀ k, SmoothV fun z => w z k) :
    ContDiff ℝ 1 fun z => tetWork G m mu0 p (u z) (phi z) (Hext z) (Hst z) (w z) :=
  (contDiff_const.mul (smooth_gradDot p hu hw)).add (smooth_work p (fun j =>
    (((smooth_interpField p hphi).add (hH j)).add (smooth_anisoField m mu0 (smooth_interpV hu j))).add (hS j)) hw)

end

theorem smooth_surfaceWork {H : TriElem.Rule} (sp : SurfPrm) (dMs : ℝ) (p : Fin 3 → V3) {u w : Z → Fin 3 → V3}
    (hu : ∀ k, SmoothV fun z => u z k) (hw : ∀ k, SmoothV fun z => w z k) :
    ContDiff ℝ 1 fun z => surfaceWork H sp dMs p (u z) (w z) := by
  have hi : ∀ {f : Z → Fin 3 → V3}, (∀ k, SmoothV fun z => f z k) → ∀ j, SmoothV fun z => TriElem.interpV H (f z) j :=
    fun hf j => SmoothV.sum fun k => SmoothV.smul contDiff_const (hf k)
  exact contDiff_const.mul (ContDiff.sum fun j _ => (contDiff_const.mul ((SmoothV.const _).dot (hi hu j))).mul
    ((SmoothV.const _).dot (hi hw j)))

theorem smooth_totalWork {G : Rule} {H : TriElem.Rule} {prm : ℕ → Prm} {sprm : ℕ → SurfPrm} {mu0 : ℝ} {tets : List Tet}
    {tris : List (Tri × ℝ)} {p : ℕ → V3} {u w : Z → ℕ → V3} {phi : Z → ℕ → ℝ} {Hext Hst : Z → Tet → Fin G.n → V3}
    (hu : ∀ k, SmoothV fun z => u z k) (hphi : ∀ k, ContDiff ℝ 1 fun z => phi z k) (hH : ∀ t j, SmoothV fun z => Hext z t j)
    (hS : ∀ t j, SmoothV fun z => Hst z t j) (hw : ∀ k, SmoothV fun z => w z k) :
    ContDiff ℝ 1 fun z => totalWork G H prm sprm mu0 tets tris p (u z) (phi z) (Hext z) (Hst z) (w z) :=
  (smooth_list tets _ fun t _ => smooth_tetWork _ _ _ (fun _ => hu _) (fun _ => hphi _) (hH t) (hS t) fun _ => hw _).add
    (smooth_list tris _ fun f _ => smooth_surfaceWork _ _ _ (fun _ => hu _) fun _ => hw _)

end Verif.SemiDiscrete
