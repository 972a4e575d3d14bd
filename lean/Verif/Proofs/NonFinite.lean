import Verif.Proofs.Cg
import Verif.Proofs.Assembly
import Verif.Proofs.SolveError
import Verif.Model.NonFinite
import Verif.Spec.NonFinite

/-!
# Infinities and NaN in the linear solves
-/

namespace Verif.NonFinite

open Verif Verif.Krylov

variable {n : ℕ}

theorem div_nan_of {a b : Fl} (ha : ¬ a.IsFin) (hb : ¬ b.IsFin) : a / b = .nan := by
  cases a <;> cases b <;> first | rfl | exact absurd trivial ha | exact absurd trivial hb

theorem fold_not {β : Type} {f : β → Fl} {l : List β} {a : Fl} {e : β} (he : e ∈ l) (h : ¬ (f e).IsFin) :
    ¬ (l.foldl (fun s b => s + f b) a).IsFin := by
  intro hf
  rw [foldl_isFin] at hf
  exact h (hf.2 e he)

theorem dot_not {X Y : Vec n} (i : Fin n) (h : ¬ (X i).IsFin ∨ ¬ (Y i).IsFin) : ¬ (dot X Y).IsFin := by
  unfold dot
  apply fold_not (f := fun i => X i * Y i) (List.mem_finRange i)
  rw [Fl.isFin_mul]
  tauto

theorem norm_not {X : Vec n} {i : Fin n} (h : ¬ (X i).IsFin) : ¬ (norm X).IsFin := fun hf => h (norm_isFin hf i)

theorem abs_inf {a b : Fl} (h : ¬ a.IsFin) (hle : a.abs.le b) : a.abs = .inf false := by
  cases a with
  | nan => cases b <;> exact hle.elim
  | fin x => exact absurd trivial h
  | inf s => rfl

/-- the residual before the loop is finite exactly when the equation is -/
theorem init_isFin (A : Mat n) (ld : List (Fin n)) (x b : Vec n) (i : Fin n) (hi : i ∉ ld) :
    (applyMask ld (sub (mult A x) b) i).IsFin ↔ (b i).IsFin ∧ ∀ e ∈ A i, e.2.IsFin ∧ (x e.1).IsFin := by
  rw [applyMask_of_not_mem hi]
  show (b i - mult A x i).IsFin ↔ _
  rw [Fl.isFin_sub]
  unfold mult
  rw [foldl_isFin]
  simp only [Fl.isFin_mul]
  constructor
  · rintro ⟨h1, -, h2⟩; exact ⟨h1, h2⟩
  · rintro ⟨h1, h2⟩; exact ⟨h1, trivial, h2⟩

/-- a first residual that is not finite: the solver fails, or stops at once with the first guess -/
theorem bicg_nonfinite (A : Mat n) (D : Vec n) (ld : List (Fin n)) (st : BState n) (hrt : st.rt = st.r)
    (hn : st.iter.nit = 0) {i : Fin n} (hi : ¬ (st.r i).IsFin) (k : ℕ) :
    ∃ out, loop (bicgBody A D ld) (k + 1) st = some out ∧
      (out.iter.status = .CANNOT_CONVERGE ∨
        (out.iter.status = .CONVERGED ∧ out.x = st.x ∧ out.iter.res = .inf false ∧
          out.iter.resmax = st.iter.resmax ∧ (norm st.r).abs.le (st.iter.rhsn * st.iter.resmax))) := by
  have hs : norm (bS A D ld st) = .nan := by
    apply norm_of_nan (i := i)
    have ha : bAlpha A D ld st = .nan := by
      unfold bAlpha bRho1
      rw [hrt]
      exact div_nan_of (dot_not i (Or.inl hi)) (dot_not i (Or.inr hi))
    show st.r i + -(bAlpha A D ld st) * bV A D ld st i = _
    rw [ha]; simp
  have hk := bicgBody_kind A D ld st
  have hnan := finished_nan (it := bIt1 st) hs
  generalize he : bicgBody A D ld st = r at hk
  have hstop : ∀ s : BState n, bicgBody A D ld st = (true, s) → loop (bicgBody A D ld) (k + 1) st = some s := by
    intro s h
    unfold loop; dsimp only; rw [h]; rfl
  cases hk with
  | conv1 h =>
    refine ⟨_, hstop _ he, Or.inr ?_⟩
    have hc := (finished_spec st.iter (norm st.r)).cases
    have hle : (norm st.r).abs.le (st.iter.rhsn * st.iter.resmax) ∧ (bIt1 st).status = .CONVERGED := by
      rcases hc with g | g | g
      · rw [g.2.1] at h; cases h
      · exact ⟨g.1, g.2.2⟩
      · rw [g.2.2.1] at h; cases h
    have hres : (bIt1 st).res = (norm st.r).abs := (finished_spec _ _).res
    refine ⟨hle.2, rfl, ?_, (finished_spec _ _).resmax, hle.1⟩
    show (bIt1 st).res = .inf false
    rw [hres]
    exact abs_inf (norm_not hi) hle.1
  | zero h h0 hz =>
    rw [bIt1_nit, hn] at h0
    exact absurd h0 (lt_irrefl 0)
  | conv2 h h2 => rw [hnan.1] at h2; cases h2
  | stop h h2 hs' =>
    refine ⟨_, hstop _ he, Or.inl ?_⟩
    exact hnan.2
  | next h h2 hs' => exact absurd (Or.inr hnan.2) hs'

/-- the same for the conjugate gradient, which needs one more test -/
theorem cg_nonfinite (A : Mat n) (D : Vec n) (ld : List (Fin n)) (st : CState n) (hp : st.p = pDirect D st.r)
    (hrho : st.rho = dot (pDirect D st.r) st.r) (hn : st.iter.nit = 0) {i : Fin n} (hi : ¬ (st.r i).IsFin) (k : ℕ) :
    ∃ out, loop (cgBody A D ld) (k + 2) st = some out ∧
      (out.iter.status = .CANNOT_CONVERGE ∨ out.iter.status = .ITER_OVERFLOW ∨
        (out.iter.status = .CONVERGED ∧ out.x = st.x ∧ out.iter.res = .inf false ∧
          (norm st.r).abs.le (st.iter.rhsn * st.iter.resmax))) := by
  have hnit : (cIt st).nit = 0 := (finished_spec _ _).nit.trans hn
  have hpi : ¬ (pDirect D st.r i).IsFin := by
    show ¬ (D i * st.r i).IsFin
    rw [Fl.isFin_mul]; tauto
  have hP : cP D st = pDirect D st.r := by
    unfold cP; rw [if_neg (by rw [hnit]; exact lt_irrefl 0), hp]
  have hA : cA A D ld st = .nan := by
    unfold cA cRho
    rw [if_neg (by rw [hnit]; exact lt_irrefl 0), hrho, hP]
    exact div_nan_of (dot_not i (Or.inl hpi)) (dot_not i (Or.inr hpi))
  have hr : norm (cNext A D ld st).r = .nan := by
    apply norm_of_nan (i := i)
    show st.r i + -(cA A D ld st) * cQ A D ld st i = _
    rw [hA]; simp
  have hk := cgBody_kind A D ld st
  generalize he : cgBody A D ld st = r at hk
  have hstop : ∀ s : CState n, cgBody A D ld st = (true, s) → loop (cgBody A D ld) (k + 2) st = some s := by
    intro s h
    unfold loop; dsimp only; rw [h]; rfl
  cases hk with
  | leave h =>
    refine ⟨_, hstop _ he, ?_⟩
    have hc := (finished_spec st.iter (norm st.r)).cases
    have hres : (cIt st).res = (norm st.r).abs := (finished_spec _ _).res
    rcases hc with g | g | g
    · exact Or.inl g.2.2
    · refine Or.inr (Or.inr ⟨g.2.2, rfl, ?_, g.1⟩)
      show (cIt st).res = .inf false
      rw [hres]; exact abs_inf (norm_not hi) g.1
    · rcases h with h | h | h
      · rw [g.2.2.1] at h; cases h
      · exact Or.inr (Or.inl h)
      · exact Or.inl h
  | zero h => exact ⟨_, hstop _ he, Or.inl rfl⟩
  | next h hs hs' =>
    obtain ⟨o, h1, h2, -⟩ := cg_nan A D ld k (cNext A D ld st) hr
    refine ⟨o, ?_, Or.inl h2⟩
    rw [← h1]
    conv_lhs => unfold loop
    dsimp only
    rw [he]; rfl

end Verif.NonFinite
