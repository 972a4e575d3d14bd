import Verif.Proofs.NonFinite
import Verif.Proofs.KrylovExample
import Verif.Props.Krylov
import Verif.Props.LlgSolve
import Verif.Props.ElectroSolve
import Verif.Props.TimeLoop
import Verif.Props.MeshCheck

/-!
# Infinities and NaN do not get into the results (C97)
-/

namespace Verif.NonFinite

open Verif Verif.Krylov Verif.Mesh Verif.Assembly

variable {n : ℕ}

/-- **C97** A successful solve of the equation of motion used no infinity and no NaN: right hand side, coefficients and first
guess are finite in all equations of magnetic nodes, whatever the data handed to the solver. -/
theorem C97_success_finite (it : Iter) (tol : ℝ) (ht : it.resmax = .fin tol) (K : Mat n) (guess L : Vec n)
    (lvd : List (Fin n)) (X : Vec n) (h : llgSolve it K guess L lvd = some X) : FreeFinite K guess L lvd := by
  by_contra hf
  unfold FreeFinite at hf
  push Not at hf
  obtain ⟨i, hi, hbad⟩ := hf
  have hr : ¬ ((bicgInit it.reset K lvd guess (applyMask lvd L)).r i).IsFin := by
    intro hfin
    have := (init_isFin K lvd guess (applyMask lvd L) i hi).mp hfin
    rw [applyMask_of_not_mem hi] at this
    obtain ⟨e, he, h2⟩ := hbad this.1
    exact h2 (this.2 e he).1 (this.2 e he).2
  obtain ⟨out, h1, h2⟩ := bicg_nonfinite K (applyMask lvd (diagPrecond K)) lvd
    (bicgInit it.reset K lvd guess (applyMask lvd L)) rfl rfl hr ((max 1 it.reset.maxiter).toNat)
  have hb : bicgMask it.reset K guess L lvd = some out := h1
  unfold llgSolve at h
  rw [hb] at h
  dsimp only at h
  split at h
  · cases h
  · rename_i hn
    push Not at hn
    rcases h2 with h2 | ⟨-, -, h3, h5, -⟩
    · exact hn.2.1 h2
    · apply hn.2.2
      have h5' : out.iter.resmax = .fin tol := h5.trans ht
      rw [h5', h3]
      exact fun h => by cases h

/-- **C97** The whole statement on a successful solve, without any assumption on the numbers in the equations of the magnetic
nodes: they are finite, the velocities are finite, and they solve these equations up to the tolerance. In the rows of the mask
there are only the ones set by the program, and the guess is zero there. -/
theorem C97_success (it : Iter) (tol : ℝ) (ht : it.resmax = .fin tol) (K : Mat n) (guess L : Vec n) (lvd : List (Fin n))
    (hnd : ∀ i, ((K i).map Prod.fst).Nodup) (hd : DiagStored K) (hrow : ∀ i ∈ lvd, K i = [(i, .fin 1)])
    (hg : ∀ i ∈ lvd, guess i = 0) (X : Vec n) (h : llgSolve it K guess L lvd = some X) :
    FreeFinite K guess L lvd ∧ ∃ (M : Matrix (Fin n) (Fin n) ℝ) (l x : Fin n → ℝ), Represents K M ∧
      (∀ i, i ∉ lvd → L i = .fin (l i)) ∧ X = lift x ∧ (∀ i ∈ lvd, x i = 0) ∧
      freeNorm lvd (residual M l x) ≤ tol ∧ freeNorm lvd (residual M l x) ≤ tol * freeNorm lvd l := by
  have hf := C97_success_finite it tol ht K guess L lvd X h
  refine ⟨hf, ?_⟩
  have hK : ∀ i, ∀ e ∈ K i, e.2.IsFin := by
    intro i e he
    by_cases hi : i ∈ lvd
    · rw [hrow i hi, List.mem_singleton] at he
      rw [he]; trivial
    · exact ((hf i hi).2 e he).1
  have hgf : ∀ i, (guess i).IsFin := by
    intro i
    by_cases hi : i ∈ lvd
    · rw [hg i hi]; trivial
    · obtain ⟨e, he, hei⟩ := List.mem_map.mp (hd i)
      have := ((hf i hi).2 e he).2
      rw [hei] at this; exact this
  obtain ⟨g, hge⟩ := exists_lift hgf
  have hM : Represents K (fun i j => (coef K i j).val) := by
    refine ⟨hnd, ?_, ?_⟩
    · intro i j v hv
      have hc : coef K i j = v := by
        unfold coef
        have : (K i).find? (fun e => e.1 = j) = some (j, v) := by
          have hn := hnd i
          revert hv hn
          generalize K i = l
          intro hv hn
          induction l with
          | nil => cases hv
          | cons a l ih =>
            rw [List.map_cons, List.nodup_cons] at hn
            rcases List.mem_cons.mp hv with rfl | hv
            · simp
            · rw [List.find?_cons_of_neg]
              · exact ih hv hn.2
              · simp only [decide_eq_true_eq]
                intro e
                exact hn.1 (e ▸ List.mem_map_of_mem (f := Prod.fst) hv)
        rw [this]; rfl
      have hvf := hK i _ hv
      rw [hc]
      revert hvf
      cases v with
      | nan => exact fun h => h.elim
      | inf s => exact fun h => h.elim
      | fin x => exact fun _ => rfl
    · intro i j hj
      have : (K i).find? (fun e => e.1 = j) = none := by
        rw [List.find?_eq_none]
        intro e he
        simp only [decide_eq_true_eq]
        intro hej
        exact hj (List.mem_map.mpr ⟨e, he, hej⟩)
      show (coef K i j).val = 0
      unfold coef
      rw [this]; rfl
  -- the values of the right hand side under the mask are not used
  have hmask : applyMask lvd L = lift (maskR lvd fun i => (L i).val) := by
    funext i
    by_cases hi : i ∈ lvd
    · rw [applyMask_of_mem hi]
      show (0 : Fl) = .fin _
      rw [maskR_zero _ _ i hi]; rfl
    · rw [applyMask_of_not_mem hi]
      show L i = .fin _
      rw [maskR_free _ _ hi]
      have := (hf i hi).1
      revert this
      cases L i with
      | nan => exact fun h => h.elim
      | inf s => exact fun h => h.elim
      | fin x => exact fun _ => rfl
  have hb : bicgMask it.reset K guess L lvd = bicgMask it.reset K (lift g) (lift fun i => (L i).val) lvd := by
    unfold bicgMask
    dsimp only
    rw [hmask, hge, applyMask_lift]
  have h' : llgSolve it K (lift g) (lift fun i => (L i).val) lvd = some X := by
    unfold llgSolve at h ⊢
    rw [← hb]; exact h
  obtain ⟨x, h1, h2, h3, h4, -⟩ := C15_success_converged it tol ht K _ hM hd g _ lvd X h'
  refine ⟨_, fun i => (L i).val, x, hM, ?_, h1, ?_, h2, h3⟩
  · intro i hi
    have := (hf i hi).1
    show L i = .fin (L i).val
    revert this
    cases L i with
    | nan => exact fun h => h.elim
    | inf s => exact fun h => h.elim
    | fin x => exact fun _ => rfl
  · intro i hi
    rw [h4 i hi]
    have := congrFun hge i
    rw [hg i hi] at this
    exact (Fl.fin.inj this).symm

example : ∃ X, llgSolve Ex.it Ex2.A (lift 0) (lift ![4, 0]) [1] = some X := Ex2.llg_succeeds

/-- the right hand side seen by the solvers with prescribed values -/
noncomputable def reduced (A : Mat n) (rhs xd : Vec n) (i : Fin n) : Fl := rhs i - mult A xd i

theorem rhsn_inf {a : Fl} {tol : ℝ} {b : Fl} (hb : b.abs.le (a * .fin tol)) (hbn : ¬ b.IsFin) : ¬ a.IsFin := by
  intro ha
  cases a with
  | nan => exact ha
  | inf s => exact ha
  | fin x =>
    rw [Fl.fin_mul] at hb
    cases b with
    | nan => exact hb
    | fin y => exact hbn trivial
    | inf s => exact absurd (show (false = true) from hb) (by simp)

theorem not_fin_of_norm {X : Vec n} (h : ¬ (norm X).IsFin) : ∃ i, ¬ (X i).IsFin := by
  by_contra hc
  push Not at hc
  obtain ⟨x, rfl⟩ := exists_lift hc
  rw [norm_lift] at h
  exact h trivial

/-- **C97** (partial) for the potential and the spin accumulation: when one of these solvers reports convergence, either all
numbers of the equations to be solved are finite, or the right hand side is infinite and what is returned is the first guess,
completed by the prescribed values. The claim would need the first case alone. -/
theorem C97_converged_partial (it : Iter) (tol : ℝ) (ht : it.resmax = .fin tol) (A : Mat n) (x rhs xd : Vec n)
    (ld : List (Fin n)) :
    (∀ st, cgDir it.reset A x rhs xd ld = some st → st.iter.status = .CONVERGED →
      (FreeFinite A x rhs ld ∧ FreeFinite A xd rhs ld) ∨
        (st.x = add xd x ∧ ∃ i, i ∉ ld ∧ ¬ (reduced A rhs xd i).IsFin)) ∧
    (∀ st, bicgDir it.reset A x rhs xd ld = some st → st.iter.status = .CONVERGED →
      (FreeFinite A x rhs ld ∧ FreeFinite A xd rhs ld) ∨
        (st.x = add xd x ∧ ∃ i, i ∉ ld ∧ ¬ (reduced A rhs xd i).IsFin)) := by
  set b := applyMask ld (sub (mult A xd) rhs) with hb
  have hfree : (∀ i, i ∉ ld → (applyMask ld (sub (mult A x) b) i).IsFin) → FreeFinite A x rhs ld ∧ FreeFinite A xd rhs ld := by
    intro hall
    have h1 : ∀ i, i ∉ ld → (b i).IsFin ∧ ∀ e ∈ A i, e.2.IsFin ∧ (x e.1).IsFin :=
      fun i hi => (init_isFin A ld x b i hi).mp (hall i hi)
    have h2 : ∀ i, i ∉ ld → (rhs i).IsFin ∧ ∀ e ∈ A i, e.2.IsFin ∧ (xd e.1).IsFin :=
      fun i hi => (init_isFin A ld xd rhs i hi).mp (h1 i hi).1
    exact ⟨fun i hi => ⟨(h2 i hi).1, (h1 i hi).2⟩, h2⟩
  have hbad : ∀ r : Vec n, r = applyMask ld (sub (mult A x) b) → (∃ i, ¬ (r i).IsFin) →
      (norm r).abs.le (norm b * it.resmax) → ∃ i, i ∉ ld ∧ ¬ (reduced A rhs xd i).IsFin := by
    rintro r - ⟨i, hi⟩ hle
    rw [ht] at hle
    obtain ⟨j, hj⟩ := not_fin_of_norm (rhsn_inf hle (norm_not hi))
    by_cases hjl : j ∈ ld
    · rw [hb, applyMask_of_mem hjl] at hj; exact absurd trivial hj
    · rw [hb, applyMask_of_not_mem hjl] at hj; exact ⟨j, hjl, hj⟩
  have hsplit : (∀ i, i ∉ ld → (applyMask ld (sub (mult A x) b) i).IsFin) ∨
      ∃ i, ¬ (applyMask ld (sub (mult A x) b) i).IsFin := by
    by_cases h : ∃ i, ¬ (applyMask ld (sub (mult A x) b) i).IsFin
    · exact Or.inr h
    · push Not at h; exact Or.inl fun i _ => h i
  obtain ⟨m, hm⟩ : ∃ m, fuel it.reset = m + 2 := by
    refine ⟨(max 1 it.reset.maxiter).toNat - 1, ?_⟩
    unfold fuel
    have : 1 ≤ (max 1 it.reset.maxiter).toNat := by
      have h1 : (1 : ℤ) ≤ max 1 it.reset.maxiter := le_max_left _ _
      omega
    omega
  constructor
  · intro st h hc
    rcases hsplit with hall | ⟨i, hi⟩
    · exact Or.inl (hfree hall)
    · right
      obtain ⟨out, h1, h2⟩ := cg_nonfinite A (applyMask ld (diagPrecond A)) ld
        (cgInit it.reset A (applyMask ld (diagPrecond A)) ld x b) rfl rfl rfl hi m
      have h' : (loop (cgBody A (applyMask ld (diagPrecond A)) ld) (fuel it.reset)
        (cgInit it.reset A (applyMask ld (diagPrecond A)) ld x b)).map (fun st => { st with x := add xd st.x }) = some st := h
      rw [hm, h1] at h'
      cases h'
      rcases h2 with h2 | h2 | ⟨-, h3, -, h4⟩
      · rw [show out.iter.status = _ from hc] at h2; cases h2
      · rw [show out.iter.status = _ from hc] at h2; cases h2
      · refine ⟨?_, hbad _ rfl ⟨i, hi⟩ h4⟩
        show add xd out.x = _
        rw [h3]; rfl
  · intro st h hc
    rcases hsplit with hall | ⟨i, hi⟩
    · exact Or.inl (hfree hall)
    · right
      obtain ⟨out, h1, h2⟩ := bicg_nonfinite A (applyMask ld (diagPrecond A)) ld
        (bicgInit it.reset A ld x b) rfl rfl hi (m + 1)
      have h' : (loop (bicgBody A (applyMask ld (diagPrecond A)) ld) (fuel it.reset)
        (bicgInit it.reset A ld x b)).map (fun st => { st with x := add xd st.x }) = some st := h
      rw [hm, h1] at h'
      cases h'
      rcases h2 with h2 | ⟨-, h3, -, -, h4⟩
      · rw [show out.iter.status = _ from hc] at h2; cases h2
      · refine ⟨?_, hbad _ rfl ⟨i, hi⟩ h4⟩
        show add xd out.x = _
        rw [h3]; rfl

theorem foldl_inf {β : Type} (f : β → Fl) (l : List β) (a : Fl) (ha : a.NonNeg) (hn : ∀ e ∈ l, (f e).NonNeg)
    (h : a = .inf false ∨ ∃ e ∈ l, f e = .inf false) : l.foldl (fun s b => s + f b) a = .inf false := by
  induction l generalizing a with
  | nil => rcases h with h | ⟨e, he, -⟩; exact h; cases he
  | cons c l ih =>
    rw [List.foldl_cons]
    have hc := hn c List.mem_cons_self
    refine ih _ (Fl.nonNeg_add ha hc) (fun e he => hn e (List.mem_cons_of_mem _ he)) ?_
    rcases h with h | ⟨e, he, h⟩
    · left
      rw [h]
      cases hfc : f c with
      | nan => rw [hfc] at hc; exact hc.elim
      | fin y => rfl
      | inf s => rw [hfc] at hc; cases s <;> first | rfl | exact absurd hc (by simp [Fl.NonNeg])
    · rcases List.mem_cons.mp he with rfl | he
      · left
        rw [h]
        cases a with
        | nan => exact ha.elim
        | fin y => rfl
        | inf s => cases s <;> first | rfl | exact absurd ha (by simp [Fl.NonNeg])
      · exact Or.inr ⟨e, he, h⟩

theorem norm_inf {X : Vec n} (hn : ∀ i, X i ≠ .nan) {i : Fin n} (hi : ¬ (X i).IsFin) : norm X = .inf false := by
  have hd : dot X X = .inf false := by
    unfold dot
    refine foldl_inf (fun i => X i * X i) _ _ (le_refl (0 : ℝ)) (fun e _ => Fl.nonNeg_sq (hn e))
      (Or.inr ⟨i, List.mem_finRange i, ?_⟩)
    cases hx : X i with
    | nan => exact absurd hx (hn i)
    | fin y => rw [hx] at hi; exact absurd trivial hi
    | inf s => cases s <;> rfl
  unfold Krylov.norm
  rw [hd]; simp [Fl.abs, Fl.sqrt]

/-- **C97** The second case of `C97_converged_partial` always happens when the right hand side has an infinite entry and no NaN
(for a positive tolerance and a finite first guess): convergence is reported at the first test. -/
theorem C97_infinite (it : Iter) (tol : ℝ) (ht : it.resmax = .fin tol) (h0 : 0 < tol) (A : Mat n) (x rhs xd : Vec n)
    (ld : List (Fin n)) (hx : ∀ i, i ∉ ld → (mult A x i).IsFin) (hn : ∀ i, i ∉ ld → reduced A rhs xd i ≠ .nan)
    {i : Fin n} (hi : i ∉ ld) (hinf : ¬ (reduced A rhs xd i).IsFin) :
    (∃ st, cgDir it.reset A x rhs xd ld = some st ∧ st.iter.status = .CONVERGED ∧ st.x = add xd x) ∧
    (∃ st, bicgDir it.reset A x rhs xd ld = some st ∧ st.iter.status = .CONVERGED ∧ st.x = add xd x) := by
  set b := applyMask ld (sub (mult A xd) rhs) with hb
  have hbi : ∀ j, j ∉ ld → b j = reduced A rhs xd j := fun j hj => applyMask_of_not_mem hj
  have nb : norm b = .inf false := by
    refine norm_inf (i := i) (fun j => ?_) (by rw [hbi i hi]; exact hinf)
    by_cases hj : j ∈ ld
    · rw [hb, applyMask_of_mem hj]; exact fun e => by cases e
    · rw [hbi j hj]; exact hn j hj
  have nr : norm (applyMask ld (sub (mult A x) b)) = .inf false := by
    refine norm_inf (i := i) (fun j => ?_) ?_
    · by_cases hj : j ∈ ld
      · rw [applyMask_of_mem hj]; exact fun e => by cases e
      · rw [applyMask_of_not_mem hj]
        show b j - mult A x j ≠ .nan
        have h1 := hn j hj
        rw [← hbi j hj] at h1
        have h2 := hx j hj
        obtain ⟨y, hy⟩ := Fl.isFin_iff.mp h2
        rw [hy]
        intro e
        cases hbj : b j with
        | nan => exact h1 hbj
        | fin z => rw [hbj] at e; cases e
        | inf s => rw [hbj] at e; cases e
    · rw [applyMask_of_not_mem hi]
      show ¬ (b i - mult A x i).IsFin
      rw [Fl.isFin_sub, hbi i hi]
      exact fun h => hinf h.1
  have hfin : ∀ it' : Iter, it'.rhsn = norm b → it'.resmax = .fin tol →
      (it'.finished (norm (applyMask ld (sub (mult A x) b)))).1 = true ∧
      (it'.finished (norm (applyMask ld (sub (mult A x) b)))).2.status = .CONVERGED := by
    intro it' h1 h2
    rcases (finished_spec it' (norm (applyMask ld (sub (mult A x) b)))).cases with g | g | g
    · rw [nr] at g; cases g.1
    · exact g.2
    · exfalso
      apply g.2.1
      rw [h1, h2, nr, nb]
      have : (Fl.inf false * Fl.fin tol : Fl) = .inf false := by
        show Fl.mul _ _ = _
        simp [Fl.mul, h0.ne', h0.le]
      rw [this]
      exact Or.inr rfl
  constructor
  · have hf := hfin (cgInit it.reset A (applyMask ld (diagPrecond A)) ld x b).iter rfl ht
    have hbody : cgBody A (applyMask ld (diagPrecond A)) ld (cgInit it.reset A (applyMask ld (diagPrecond A)) ld x b) =
        (true, { cgInit it.reset A (applyMask ld (diagPrecond A)) ld x b with
          iter := cIt (cgInit it.reset A (applyMask ld (diagPrecond A)) ld x b) }) := if_pos (Or.inl hf.1)
    have hl : loop (cgBody A (applyMask ld (diagPrecond A)) ld) (fuel it.reset) (cgInit it.reset A (applyMask ld (diagPrecond A)) ld x b) =
        some { cgInit it.reset A (applyMask ld (diagPrecond A)) ld x b with iter := cIt (cgInit it.reset A (applyMask ld (diagPrecond A)) ld x b) } := by
      unfold fuel loop
      dsimp only
      rw [hbody]
      rfl
    exact ⟨{ cgInit it.reset A (applyMask ld (diagPrecond A)) ld x b with
        iter := cIt (cgInit it.reset A (applyMask ld (diagPrecond A)) ld x b), x := add xd x },
      by
        show (loop (cgBody A (applyMask ld (diagPrecond A)) ld) (fuel it.reset) (cgInit it.reset A (applyMask ld (diagPrecond A)) ld x b)).map
          (fun st => { st with x := add xd st.x }) = _
        rw [hl]; rfl, hf.2, rfl⟩
  · have hf := hfin (bicgInit it.reset A ld x b).iter rfl ht
    have hbody : bicgBody A (applyMask ld (diagPrecond A)) ld (bicgInit it.reset A ld x b) =
        (true, { bicgInit it.reset A ld x b with iter := bIt1 (bicgInit it.reset A ld x b) }) := if_pos hf.1
    have hl : loop (bicgBody A (applyMask ld (diagPrecond A)) ld) (fuel it.reset) (bicgInit it.reset A ld x b) =
        some { bicgInit it.reset A ld x b with iter := bIt1 (bicgInit it.reset A ld x b) } := by
      unfold fuel loop
      dsimp only
      rw [hbody]
      rfl
    exact ⟨{ bicgInit it.reset A ld x b with
        iter := bIt1 (bicgInit it.reset A ld x b), x := add xd x },
      by
        show (loop (bicgBody A (applyMask ld (diagPrecond A)) ld) (fuel it.reset) (bicgInit it.reset A ld x b)).map
          (fun st => { st with x := add xd st.x }) = _
        rw [hl]; rfl, hf.2, rfl⟩

/-! ## A surface anisotropy where the magnetization does not jump -/

theorem kbis_not (Ks : Fl) (hK : ¬ Ks.isZero) : ¬ (kbis Ks 0).IsFin := by
  unfold kbis
  cases Ks with
  | nan => exact id
  | inf s =>
    show ¬ ((Fl.mul (.fin 2) (.inf s)).div (.fin 0)).IsFin
    simp [Fl.mul, Fl.div, Fl.IsFin]
  | fin x =>
    have hx : x ≠ 0 := hK
    show ¬ ((Fl.fin (2 * x)).div (.fin 0)).IsFin
    simp [Fl.div, hx, Fl.IsFin]

theorem BE_not (H : TriElem.Rule) (hH : 0 < H.n) (Ks : Fl) (hK : ¬ Ks.isZero) (uk : V3) (p u : Fin 3 → V3) (k i : Fin 3) :
    ¬ (BE H Ks 0 uk p u k i).IsFin := by
  unfold BE
  apply fold_not (f := fun j => pref H Ks 0 uk p u j * .fin (H.a i j) * .fin (uk.comp k)) (List.mem_finRange ⟨0, hH⟩)
  intro h
  have h1 := (Fl.isFin_mul.mp (Fl.isFin_mul.mp h).1).1
  exact kbis_not Ks hK (Fl.isFin_mul.mp (Fl.isFin_mul.mp h1).1).2

/-- **C97** On a triangle where the magnetization does not jump, a surface anisotropy constant, whatever its value, its axis
and the magnetization, gives a vector without any finite entry. -/
theorem C97_surface (H : TriElem.Rule) (hH : 0 < H.n) (Ks : Fl) (hK : ¬ Ks.isZero) (uk : V3) (p u ep eq : Fin 3 → V3)
    (r : Fin 2 × Fin 3) : ¬ (Lp H Ks 0 uk p u ep eq r).IsFin := by
  unfold Lp
  apply fold_not (f := fun c : Fin 3 × Fin 3 => .fin (Llg.matP3 ep eq (1 - r.1, r.2) c) * BE H Ks 0 uk p u c.1 c.2)
    (e := (0, 0)) (by decide)
  intro h
  exact BE_not H hH Ks hK uk p u 0 0 (Fl.isFin_mul.mp h).2

/-- additions never make a number finite again -/
theorem runVect_fin (l : List (ℕ × Fl)) (v w : List Fl) (h : runVect v l = some w) (k : ℕ) (hk : (w.getD k 0).IsFin) :
    (v.getD k 0).IsFin ∧ ∀ x, (k, x) ∈ l → x.IsFin := by
  induction l generalizing v with
  | nil => cases h; exact ⟨hk, fun x hx => by cases hx⟩
  | cons q l ih =>
    obtain ⟨a, y⟩ := q
    rw [runVect] at h
    unfold vecAdd at h
    split at h
    · rename_i ha
      obtain ⟨h1, h2⟩ := ih _ h
      have e : (v.modify a (· + y)).getD k 0 = if a = k then v.getD k 0 + y else v.getD k 0 := by
        rw [List.getD_eq_getElem?_getD, List.getD_eq_getElem?_getD, List.getElem?_modify]
        split
        · rename_i hak
          subst hak
          rw [List.getElem?_eq_getElem ha]; rfl
        · simp
      rw [e] at h1
      split at h1
      · rename_i hak
        have := Fl.isFin_add.mp h1
        refine ⟨this.1, fun x hx => ?_⟩
        rcases List.mem_cons.mp hx with hx | hx
        · cases hx; exact this.2
        · exact h2 x hx
      · rename_i hak
        refine ⟨h1, fun x hx => ?_⟩
        rcases List.mem_cons.mp hx with hx | hx
        · cases hx; exact absurd rfl hak
        · exact h2 x hx
    · cases h

theorem set_zero_getD (l : List ℕ) (v : List Fl) (k : ℕ) (hk : k ∉ l) :
    (l.foldl (fun v i => v.set i 0) v).getD k 0 = v.getD k 0 := by
  induction l generalizing v with
  | nil => rfl
  | cons a l ih =>
    rw [List.foldl_cons, ih _ (fun h => hk (List.mem_cons_of_mem _ h))]
    have : a ≠ k := fun e => hk (e ▸ List.mem_cons_self)
    rw [List.getD_eq_getElem?_getD, List.getD_eq_getElem?_getD, List.getElem?_set_ne this]

/-- **C97** With a surface anisotropy constant on a triangle where the magnetization does not jump (a surface inside a material
or between two materials of the same magnetization) no step can be computed: the solve fails for any matrix, guess, tolerance,
and any contribution of the other elements. -/
theorem C97_surface_fails {nod : ℕ} (magN : List Bool) (tets : List (Elem 4 Fl)) (tris : List (Elem 3 Fl)) (H : TriElem.Rule)
    (hH : 0 < H.n) (Ks : Fl) (hK : ¬ Ks.isZero) (uk : V3) (nodes : ℕ → Node) (f : Tri)
    (hf : triElem H Ks uk 0 nodes f ∈ tris) (hmag : ∃ k, magN.getD (f.ind k) false = true ∧ f.ind k < nod) (L : List Fl)
    (hL : llgRhs magN nod tets tris = some L) (it : Iter) (tol : ℝ) (ht : it.resmax = .fin tol) (K : Mat (2 * nod))
    (guess : Vec (2 * nod)) : llgSolve it K guess (Electro.vecOf (2 * nod) L) (LlgSolve.lvd nod magN) = none := by
  by_contra hne
  obtain ⟨X, hX⟩ := Option.ne_none_iff_exists'.mp hne
  obtain ⟨k, hk, hkn⟩ := hmag
  have hfin := C97_success_finite it tol ht K guess _ _ X hX
  have hr : 2 * f.ind k < 2 * nod := by omega
  have hnl : (⟨2 * f.ind k, hr⟩ : Fin (2 * nod)) ∉ LlgSolve.lvd nod magN := by
    rw [LlgSolve.mem_lvd]
    show magN.getD (2 * f.ind k / 2) false ≠ false
    rw [Nat.mul_div_cancel_left _ (by norm_num), hk]
    simp
  have h1 := (hfin _ hnl).1
  unfold Electro.vecOf at h1
  unfold llgRhs at hL
  rw [Option.map_eq_some_iff] at hL
  obtain ⟨w, hw, hwL⟩ := hL
  rw [← hwL] at h1
  rw [set_zero_getD _ _ _ (by
    rw [Assembly.mem_lvd]
    show ¬ (2 * f.ind k / 2 < nod ∧ magN.getD (2 * f.ind k / 2) false = false)
    rw [Nat.mul_div_cancel_left _ (by norm_num), hk]
    simp)] at h1
  have h2 := (runVect_fin _ _ _ hw (2 * f.ind k) h1).2 ((triElem H Ks uk 0 nodes f).Le (0 * 3 + k)) (by
    rw [List.mem_append]
    right
    rw [List.mem_flatMap]
    refine ⟨_, hf, ?_⟩
    unfold buildVectCalls
    rw [List.mem_flatMap]
    refine ⟨k, List.mem_finRange k, ?_⟩
    rw [List.mem_map]
    exact ⟨0, by simp, rfl⟩)
  unfold triElem at h2
  dsimp only at h2
  rw [if_pos hK] at h2
  exact C97_surface H hH Ks hK uk _ _ _ _ _ h2

/-! ## What then happens to the run -/

section
open TimeLoop
variable {ET : Type}

/-- while every solve fails nothing is integrated -/
structure Stuck (cfg : Cfg n ET) (t0 : ℝ) (nodes : Fin n → Node) (pot : Fin n → ℝ × ℝ) (s : St n ET) : Prop where
  t : s.t = t0
  nt : s.nt = 0
  u : ∀ i, (s.nodes i).next.u = (computeAllNodes cfg.magNode pot nodes i).next.u
  ctl : (s.ctl = .running ∧ s.stepNb = 0 ∧ s.rows = []) ∨
    (s.ctl = .running ∧ s.stepNb = 1 ∧ s.rows.length = 1) ∨ (s.ctl = .done 1 ∧ s.rows.length = 1)

theorem stuck_step (cfg : Cfg n ET) (hv : Valid cfg) (t0 : ℝ) (nodes : Fin n → Node) (pot : Fin n → ℝ × ℝ)
    (hc : 1 ≤ stepCount cfg t0) (inp : Input n) (hsig : inp.sig = false) (hsol : inp.sol = none) (s : St n ET)
    (h : Stuck cfg t0 nodes pot s) : Stuck cfg t0 nodes pot (step cfg t0 inp s) := by
  obtain ⟨h1, h2, h3, h4⟩ := h
  rcases h4 with ⟨hr, hs, hrow⟩ | ⟨hr, hs, hrow⟩ | ⟨hr, hrow⟩
  · have e : step cfg t0 inp s = forBody cfg t0 s := by
      unfold step
      rw [hr]
      dsimp only
      rw [if_neg]
      unfold tTarget
      rw [hs, h1]
      simp
    rw [e]
    unfold forBody saver
    dsimp only
    rw [hs, if_pos (by push_cast; omega)]
    exact ⟨h1, h2, h3, Or.inr (Or.inl ⟨hr, rfl, by simp [hrow]⟩)⟩
  · have e : step cfg t0 inp s = whileBody cfg t0 inp s := by
      unfold step
      rw [hr]
      dsimp only
      rw [if_pos]
      unfold tTarget
      rw [hs, h1]
      have := hv.tstep
      push_cast
      linarith
    rw [e]
    unfold whileBody
    rw [hsig]
    simp only [Bool.false_eq_true, if_false, hsol]
    split
    · exact ⟨h1, h2, h3, Or.inr (Or.inr ⟨rfl, hrow⟩)⟩
    · exact ⟨h1, h2, h3, Or.inr (Or.inl ⟨hr, hs, hrow⟩)⟩
  · have e : step cfg t0 inp s = s := by
      unfold step
      rw [hr]
    rw [e]
    exact ⟨h1, h2, h3, Or.inr (Or.inr ⟨hr, hrow⟩)⟩

/-- **C97** When no step can be computed the program says so: it stops by itself with exit status 1, the table has the row of
the initial state only, and the magnetization is the initial one. -/
theorem C97_run_stops (cfg : Cfg n ET) (hv : Valid cfg) (t0 : ℝ) (nodes : Fin n → Node) (pot : Fin n → ℝ × ℝ)
    (hc : 1 ≤ stepCount cfg t0) :
    ∃ M, ∀ inp : ℕ → Input n, (∀ k, (inp k).sig = false ∧ (inp k).sol = none) → ∀ k, M ≤ k →
      (run cfg t0 nodes pot inp k).ctl = .done 1 ∧ (run cfg t0 nodes pot inp k).t = t0 ∧
      (run cfg t0 nodes pot inp k).rows.length = 1 ∧
      ∀ i, ((run cfg t0 nodes pot inp k).nodes i).next.u = (computeAllNodes cfg.magNode pot nodes i).next.u := by
  obtain ⟨M, hM⟩ := C03_termination cfg hv t0 nodes pot
  refine ⟨M, fun inp hi k hk => ?_⟩
  have inv : ∀ k, Stuck cfg t0 nodes pot (run cfg t0 nodes pot inp k) := by
    intro k
    induction k with
    | zero =>
      refine ⟨rfl, rfl, fun i => rfl, Or.inl ⟨?_, rfl, rfl⟩⟩
      show (if 0 ≤ stepCount cfg t0 then Ctl.running else .done 0) = _
      rw [if_pos (by omega)]
    | succ k ih => exact stuck_step cfg hv t0 nodes pot hc (inp k) (hi k).1 (hi k).2 _ ih
  obtain ⟨h1, -, h3, h4⟩ := inv k
  have hnr := hM inp k hk
  rcases h4 with ⟨hr, -⟩ | ⟨hr, -⟩ | ⟨hr, hrow⟩
  · exact absurd hr hnr
  · exact absurd hr hnr
  · exact ⟨hr, h1, hrow, h3⟩

end

/-- **C97** Such triangles are the interfaces between two regions of the same magnetization (triangles inside one region are
refused, C23): the jump is zero. -/
theorem C97_no_jump (p : ℕ → V3) (Ms : ℕ → ℝ) (tets : List Tet) (tris : List Tri) (sorted : List MeshCheck.BasicTri)
    (h : MeshCheck.IsSortOf sorted (MeshCheck.allTri tets tris)) (hpos : ∀ t ∈ tets, 0 < Geom.mixedProd p t) (f : Tri)
    (a b : ℕ) (hab : a ≠ b) (ha : MeshCheck.incident tets (MeshCheck.verts f) = {a, b})
    (hn : ∀ t ∈ tets, ∀ k, MeshCheck.face t k = MeshCheck.verts f →
      (V3.dot (Geom.normalVect p f) (p (t.ind k) - p (f.ind 0)) < 0 ↔ t.reg = a)) (hM : Ms a = Ms b) :
    MeshCheck.dMs Ms sorted f = 0 := by
  rw [MeshCheck.C26_interface p Ms tets tris sorted h hpos f a b hab ha hn, hM, sub_self]

/-! ## The claim fails for the potential -/

section
open Electro SparseMat

theorem foldl_neg {β : Type} (f : β → Fl) (l : List β) (a : Fl) (ha : a.IsFin ∨ a = .inf true)
    (hn : ∀ e ∈ l, (f e).IsFin ∨ f e = .inf true) (h : a = .inf true ∨ ∃ e ∈ l, f e = .inf true) :
    l.foldl (fun s b => s + f b) a = .inf true := by
  induction l generalizing a with
  | nil => rcases h with h | ⟨e, he, -⟩; exact h; cases he
  | cons c l ih =>
    rw [List.foldl_cons]
    have hc := hn c List.mem_cons_self
    have key : (a + f c).IsFin ∧ a.IsFin ∧ (f c).IsFin ∨ a + f c = .inf true := by
      rcases ha with ha | ha <;> rcases hc with hc | hc
      · exact Or.inl ⟨Fl.isFin_add.mpr ⟨ha, hc⟩, ha, hc⟩
      · right
        obtain ⟨x, hx⟩ := Fl.isFin_iff.mp ha
        rw [hx, hc]; rfl
      · right
        obtain ⟨x, hx⟩ := Fl.isFin_iff.mp hc
        rw [hx, ha]; rfl
      · right; rw [ha, hc]; rfl
    refine ih _ ?_ (fun e he => hn e (List.mem_cons_of_mem _ he)) ?_
    · rcases key with k | k
      · exact Or.inl k.1
      · exact Or.inr k
    · rcases key with ⟨-, k1, k2⟩ | k
      · rcases h with h | ⟨e, he, h⟩
        · rw [h] at k1; exact k1.elim
        · rcases List.mem_cons.mp he with rfl | he
          · rw [h] at k2; exact k2.elim
          · exact Or.inr ⟨e, he, h⟩
      · exact Or.inl k

/-- surfaces accepted by the program: potential 0 (no element in this small mesh), a current, an infinite potential -/
noncomputable def exPrms : List Electro.SurfPrm :=
  [⟨"b", .nan, .fin 0, fun _ => .nan, fun _ => .nan⟩, ⟨"a", .fin 1, .nan, fun _ => .nan, fun _ => .nan⟩,
    ⟨"c", .nan, .inf false, fun _ => .nan, fun _ => .nan⟩]

noncomputable def exPrm (r : ℕ) : Electro.SurfPrm := exPrms.getD r ⟨"d", .nan, .nan, fun _ => .nan, fun _ => .nan⟩

theorem ex_problem : Problem Tetra.rule5 TriElem.rule4 4 Tetra.exP (fun _ => 1) [Tetra.exT] exTris where
  rule := Or.inr rfl
  ruleT := Or.inr rfl
  valid := by
    intro t ht k
    rw [List.mem_singleton] at ht
    subst ht
    fin_cases k <;> decide
  validT := by
    intro f hf k
    simp only [exTris, List.mem_cons, List.not_mem_nil, or_false] at hf
    rcases hf with rfl | rfl <;> fin_cases k <;> decide
  oriented := by
    intro t ht
    rw [List.mem_singleton] at ht
    subst ht
    rw [Tetra.ex_detJ]; norm_num
  cond := by
    intro t ht
    norm_num

theorem ex_coef (j : ℕ) (h1 : 1 ≤ j) (h2 : j < 4) :
    fullCoef 1 [Tetra.exT] (potTet Tetra.rule5 Tetra.exP fun _ => 1) 0 j < 0 := by
  have e := pot_form Tetra.rule5 (Or.inr rfl) Tetra.exP (fun _ => 1) 4 [Tetra.exT] ex_problem.valid (hat 0) (hat j)
  rw [Finset.sum_eq_single 0 (by
    intro r _ hr
    refine Finset.sum_eq_zero fun c _ => ?_
    simp [hat, hr]) (by simp), Finset.sum_eq_single j (by
    intro c _ hc
    simp [hat, hc]) (by intro h; exact absurd (Finset.mem_range.mpr h2) h)] at e
  have e1 : (hat 0 0 : ℝ) = 1 := if_pos rfl
  have e2 : (hat j j : ℝ) = 1 := if_pos rfl
  rw [e1, e2, one_mul, mul_one] at e
  rw [e]
  simp only [List.map_cons, List.map_nil, List.sum_cons, List.sum_nil, add_zero, Tetra.ex_detJ]
  have g0 : Tetra.gradV (MeshElem.nod4 Tetra.exP Tetra.exT) (MeshElem.nod4 (hat 0) Tetra.exT) = ⟨-1, -1, -1⟩ := by
    have h := (Tetra.C35_affine Tetra.rule1 (MeshElem.nod4 Tetra.exP Tetra.exT) (by rw [Tetra.ex_detJ]; norm_num) 1
      ⟨-1, -1, -1⟩).2.1
    rw [← h]
    congr 1
    funext i
    fin_cases i <;> simp [MeshElem.nod4, Tetra.exT, Tetra.exP, V3.dot, hat]
  have gj : ∀ g : V3, (∀ i : Fin 4, MeshElem.nod4 (hat j) Tetra.exT i = 0 + g.dot (MeshElem.nod4 Tetra.exP Tetra.exT i)) →
      Tetra.gradV (MeshElem.nod4 Tetra.exP Tetra.exT) (MeshElem.nod4 (hat j) Tetra.exT) = g := by
    intro g hg
    have h := (Tetra.C35_affine Tetra.rule1 (MeshElem.nod4 Tetra.exP Tetra.exT) (by rw [Tetra.ex_detJ]; norm_num) 0 g).2.1
    rw [← h]
    congr 1
    funext i
    exact hg i
  rw [g0]
  interval_cases j
  · rw [gj ⟨1, 0, 0⟩ (by intro i; fin_cases i <;> simp [MeshElem.nod4, Tetra.exT, Tetra.exP, V3.dot, hat])]
    norm_num [V3.dot]
  · rw [gj ⟨0, 1, 0⟩ (by intro i; fin_cases i <;> simp [MeshElem.nod4, Tetra.exT, Tetra.exP, V3.dot, hat])]
    norm_num [V3.dot]
  · rw [gj ⟨0, 0, 1⟩ (by intro i; fin_cases i <;> simp [MeshElem.nod4, Tetra.exT, Tetra.exP, V3.dot, hat])]
    norm_num [V3.dot]

theorem ex_dirichlet : potDirichlet 4 exPrm exTris = ([0, .inf false, .inf false, .inf false], [1, 2, 3]) := by
  classical
  rw [potDirichlet_writes]
  have e1 : ¬ (Fl.inf false).IsNan := id
  have e2 : Fl.nan.IsNan := trivial
  simp [potWrites, writes, exTris, exPrm, exPrms, List.finRange, List.ofFn, e1, e2]
  rfl

/-- **C97** The claim fails for the electric potential: the conditions pass the check, one surface has an infinite potential,
and the solver reports convergence; the potential returned is infinite on this surface and still the initial zero on the other
node. -/
theorem C97_negation (it : Iter) (tol : ℝ) (ht : it.resmax = .fin tol) (h0 : 0 < tol) :
    checkV exPrms = true ∧ ∃ st, potSolve it Tetra.rule5 TriElem.rule4 4 Tetra.exP (fun _ => 1) exPrm [Tetra.exT] exTris = some st ∧
      st.iter.status = .CONVERGED ∧ st.x 0 = 0 ∧ ∀ i : Fin 4, i ≠ 0 → st.x i = .inf false := by
  classical
  refine ⟨?_, ?_⟩
  · rw [C57_start_potential]
    refine ⟨⟨[_], _, [_], rfl, trivial, ?_⟩, ⟨[], _, [_, _], rfl, trivial, ?_⟩⟩
    · intro b hb
      simp at hb
      rcases hb with rfl | rfl <;> exact id
    · intro b hb
      simp at hb
      rcases hb with rfl | rfl <;> exact id
  have h := ex_problem
  obtain ⟨K, hK, hw, hget⟩ := full_matrix 1 4 [Tetra.exT] h.valid [potTet Tetra.rule5 Tetra.exP fun _ => 1]
    (fun el hel t => by rw [List.mem_singleton] at hel; rw [hel]; rfl)
  obtain ⟨L, hL, hLl, -⟩ := vect_run 1 4 (exTris.map (potTri TriElem.rule4 Tetra.exP exPrm)) (by
    intro e he k
    obtain ⟨f, hf, rfl⟩ := List.mem_map.mp he
    exact h.validT f hf k) (List.replicate (1 * 4) (0 : ℝ)) (by simp)
  have hshape : (fullShape 1 4 [Tetra.exT]).length = 4 :=
    (buildShape_in 1 4 _ (fun _ => true) (edges_lt h.valid) 0 0).1
  obtain ⟨hR, hD⟩ := represents 4 (fullShape 1 4 [Tetra.exT]) hshape K hw
    (fullCoef 1 [Tetra.exT] (potTet Tetra.rule5 Tetra.exP fun _ => 1)) (by
    intro i j hi
    rw [hget i j (by rw [one_mul]; exact hi)]
    simp) (by
    intro i hi
    exact C21_diagonal 1 4 [Tetra.exT] h.valid _ i (by rw [one_mul]; exact hi))
  have hK' : (ofShape (fullShape 1 4 [Tetra.exT]) : Sp ℝ).run
      (fullOps 1 ([Tetra.exT].map (potTet Tetra.rule5 Tetra.exP fun _ => 1))) = some K := by
    rw [← hK]; simp [elems]
  have hrun : potSolve it Tetra.rule5 TriElem.rule4 4 Tetra.exP (fun _ => 1) exPrm [Tetra.exT] exTris =
      cgDir it.reset (rowsOf 4 (liftSp K)) (fun _ => 0) (vecOf 4 (L.map .fin))
        (vecOf 4 [0, .inf false, .inf false, .inf false]) (idxOf 4 (suppressCopies [1, 2, 3])) := by
    have hsys : potSystem Tetra.rule5 TriElem.rule4 4 Tetra.exP (fun _ => 1) exPrm [Tetra.exT] exTris = some (K, L) := by
      unfold potSystem
      rw [hK', hL]
      rfl
    unfold potSolve
    rw [hsys, ex_dirichlet]
    rfl
  have hmem : ∀ i : Fin 4, i ∈ idxOf 4 (suppressCopies [1, 2, 3]) ↔ i ≠ 0 := by
    intro i
    rw [mem_idxOf, (C56_suppress_copies _).2]
    fin_cases i <;> simp
  have hmult : mult (rowsOf 4 (liftSp K)) (vecOf 4 [0, .inf false, .inf false, .inf false]) 0 = .inf true := by
    unfold mult
    have hterm : ∀ e ∈ rowsOf 4 (liftSp K) 0, (e.1 = 0 ∧ (e.2 * vecOf 4 [0, .inf false, .inf false, .inf false] e.1).IsFin) ∨
        e.2 * vecOf 4 [0, .inf false, .inf false, .inf false] e.1 = .inf true := by
      rintro ⟨j, v⟩ he
      have hv := hR.stored 0 j v he
      by_cases hj : j = 0
      · left
        refine ⟨hj, ?_⟩
        subst hj
        rw [Fl.isFin_mul]
        exact ⟨by rw [hv]; trivial, trivial⟩
      · right
        have hneg := ex_coef j (by
          have : (j : ℕ) ≠ 0 := fun e => hj (Fin.ext e)
          omega) j.2
        have hx : vecOf 4 [0, .inf false, .inf false, .inf false] j = .inf false := by
          fin_cases j
          · exact absurd rfl hj
          all_goals rfl
        show v * vecOf 4 _ j = _
        rw [hx, hv]
        show Fl.mul _ _ = _
        have hneg' : fullCoef 1 [Tetra.exT] (potTet Tetra.rule5 Tetra.exP fun _ => 1) ((0 : Fin 4) : ℕ) j < 0 := hneg
        simp only [Fl.mul]
        rw [if_neg hneg'.ne, decide_eq_true hneg']
        rfl
    refine foldl_neg (fun e : Fin 4 × Fl => e.2 * vecOf 4 [0, .inf false, .inf false, .inf false] e.1) _ _
      (Or.inl trivial) (fun e he => (hterm e he).imp And.right id) (Or.inr ?_)
    have h1 : (1 : Fin 4) ∈ (rowsOf 4 (liftSp K) 0).map Prod.fst := by
      by_contra hc
      have := hR.absent 0 1 hc
      exact (ex_coef 1 le_rfl (by norm_num)).ne this
    obtain ⟨e, he, h1⟩ := List.mem_map.mp h1
    refine ⟨e, he, ?_⟩
    rcases hterm e he with ⟨h2, -⟩ | h2
    · rw [h1] at h2; cases h2
    · exact h2
  have hred : reduced (rowsOf 4 (liftSp K)) (vecOf 4 (L.map .fin)) (vecOf 4 [0, .inf false, .inf false, .inf false]) 0 =
      .inf false := by
    unfold reduced
    rw [hmult]
    have : ∃ y, vecOf 4 (L.map .fin) 0 = .fin y := by
      have hl : 0 < L.length := by rw [hLl]; norm_num
      refine ⟨L[0], ?_⟩
      unfold vecOf
      rw [List.getD_eq_getElem?_getD]
      simp [List.getElem?_eq_getElem hl]
    obtain ⟨y, hy⟩ := this
    rw [hy]; rfl
  obtain ⟨⟨st, hst, hc, hx⟩, -⟩ := C97_infinite it tol ht h0 (rowsOf 4 (liftSp K)) (fun _ => 0) (vecOf 4 (L.map .fin))
    (vecOf 4 [0, .inf false, .inf false, .inf false]) (idxOf 4 (suppressCopies [1, 2, 3]))
    (fun i _ => by
      have := mult_lift hR 0
      have e : (fun _ => 0 : Vec 4) = lift 0 := rfl
      rw [e, this]; trivial)
    (fun i hi => by
      rw [hmem] at hi
      push Not at hi
      rw [hi, hred]; exact fun e => by cases e)
    (i := 0) (by rw [hmem]; simp) (by rw [hred]; exact id)
  refine ⟨st, hrun.trans hst, hc, ?_, ?_⟩
  · rw [hx]
    show (0 : Fl) + 0 = 0
    rw [Fl.zero_eq, Fl.fin_add, add_zero]
  · intro i hi
    rw [hx]
    fin_cases i
    · exact absurd rfl hi
    all_goals rfl

end

/-! ### cases that meet the hypotheses -/

example : (∀ i ∈ ([1] : List (Fin 2)), Ex2.A i = [(i, .fin 1)]) ∧ (∀ i, ((Ex2.A i).map Prod.fst).Nodup) := by
  refine ⟨?_, Ex2.represents.nodup⟩
  intro i hi
  rw [List.mem_singleton] at hi
  subst hi
  simp [Ex2.A]

/-- an infinite right hand side -/
example : ∃ st, cgDir Ex.it.reset Ex2.A (lift 0) (fun _ => .inf false) (lift 0) [1] = some st ∧
    st.iter.status = .CONVERGED := by
  obtain ⟨⟨st, h1, h2, -⟩, -⟩ := C97_infinite Ex.it (1 / 10) rfl (by norm_num) Ex2.A (lift 0) (fun _ => .inf false) (lift 0) [1]
    (fun i _ => by rw [mult_lift Ex2.represents]; trivial)
    (fun i _ => by
      unfold reduced
      rw [mult_lift Ex2.represents]
      exact fun e => by cases e)
    (i := 0) (by simp) (by
      unfold reduced
      rw [mult_lift Ex2.represents]
      exact id)
  exact ⟨st, h1, h2⟩

/-- the hypotheses of `C97_surface_fails`: three magnetic nodes and one triangle -/
example (nodes : ℕ → Node) : ∃ L, llgRhs [true, true, true] 3 [] [triElem TriElem.rule4 (.fin 1) ⟨0, 0, 1⟩ 0 nodes ⟨![0, 1, 2], 0⟩] =
    some L := by
  refine ⟨_, rfl⟩

example : TimeLoop.Valid TimeLoop.exCfg ∧ 1 ≤ TimeLoop.stepCount TimeLoop.exCfg 0 := ⟨TimeLoop.exValid, by rw [TimeLoop.ex_stepCount]; norm_num⟩

end Verif.NonFinite
