import Verif.Model.SpinStart
import Verif.Proofs.NonFinite
import Verif.Props.NoPolarization

/-!
# Lemmas for C110: coefficients that are not finite, rows that are zero
-/

namespace Verif.SpinStart

open Verif.Mesh Verif.Assembly Verif.SparseMat Verif.Electro Verif.Krylov

theorem notfin_zero {a : Fl} (h : ¬ a.IsFin) : a * (0 : Fl) = .nan := by
  cases a with
  | nan => rfl
  | inf s => exact if_pos rfl
  | fin x => exact absurd trivial h

theorem zero_notfin {a : Fl} (h : ¬ a.IsFin) : (0 : Fl) * a = .nan := by
  cases a with
  | nan => rfl
  | inf s => exact if_pos rfl
  | fin x => exact absurd trivial h

theorem div_zero_notfin (a : Fl) : ¬ (a / .fin 0).IsFin := by
  cases a with
  | nan => exact id
  | inf s => exact id
  | fin x =>
    show ¬ Fl.IsFin (if (0 : ℝ) = 0 then (if x = 0 then .nan else .inf (decide (x < 0))) else .fin (x / 0))
    rw [if_pos rfl]
    split_ifs <;> exact id

/-- additions do not make a coefficient finite again -/
theorem run_notfin (ops : List (SparseMat.Op Fl)) (ha : AllAdd ops) (i j : ℕ) : ∀ t : Table Fl,
    (¬ (t i j).IsFin ∨ ∃ v : Fl, SparseMat.Op.add i j v ∈ ops ∧ ¬ v.IsFin) → ¬ ((t.run ops) i j).IsFin := by
  induction ops with
  | nil =>
    rintro t (h | ⟨v, h, -⟩)
    · exact h
    · cases h
  | cons o ops ih =>
    intro t h
    obtain ⟨a, b, w, rfl⟩ := ha o List.mem_cons_self
    refine ih (fun o ho => ha o (List.mem_cons_of_mem _ ho)) (t.exec (.add a b w)) ?_
    have e : (t.exec (.add a b w)) i j = if i = a ∧ j = b then t i j + w else t i j := rfl
    rw [e]
    rcases h with h | ⟨v, h, hv⟩
    · left
      split_ifs
      · rw [Fl.isFin_add]; exact fun hc => h hc.1
      · exact h
    · rcases List.mem_cons.mp h with h | h
      · injection h with h1 h2 h3
        left
        rw [if_pos ⟨h1, h2⟩, Fl.isFin_add, ← h3]
        exact fun hc => hv hc.2
      · exact Or.inr ⟨v, h, hv⟩

/-- the entries of a row handed to a solver are the coefficients -/
theorem mem_rowsOf {n : ℕ} {shape : Shape} {m : Sp Fl} (w : m.WF shape) {r q : Fin n} (h : InShape shape r q) {v : Fl}
    (hv : m.get r q = some v) : (q, v) ∈ rowsOf n m r := by
  obtain ⟨s, hs, hin⟩ := h
  obtain ⟨row, hrow, hw⟩ := w.2 r s hs
  unfold rowsOf
  rw [hrow]
  refine List.mem_filterMap.mpr ⟨((q : ℕ), v), ?_, by rw [dif_pos q.2]⟩
  rw [zip_map_get hw]
  refine List.mem_map.mpr ⟨q, by rw [hw.indices]; exact (Finset.mem_sort _).mpr hin, ?_⟩
  have : row.get q = some v := by
    rw [← hv]; unfold Sp.get; rw [hrow]
  rw [this]
  rfl

/-- a coefficient that is not finite times zero is NaN -/
theorem mult_notfin {n : ℕ} {shape : Shape} {m : Sp Fl} (w : m.WF shape) {r q : Fin n} (h : InShape shape r q) {v : Fl}
    (hv : m.get r q = some v) (hn : ¬ v.IsFin) {X : Vec n} (hX : X q = 0) : mult (rowsOf n m) X r = .nan := by
  unfold mult
  refine foldl_nan (fun e : Fin n × Fl => e.2 * X e.1) _ _ (Or.inr ⟨(q, v), mem_rowsOf w h hv, ?_⟩)
  show v * X q = _
  rw [hX, notfin_zero hn]

/-! ## The coefficients of an element -/

theorem rate_zero (c : Consts) (m : VolPrm) {l : ℝ} (h : l = 0) : ¬ (rate c m l).IsFin := by
  unfold rate
  rw [h, mul_zero]
  exact div_zero_notfin _

/-- without a spin diffusion length the diagonal is not finite -/
theorem spinMat_lsf {G : Tetra.Rule} {c : Consts} {m : VolPrm} {isMag : Bool} {p u : Fin 4 → V3} (h : m.lsf = 0) (d : Fin 3)
    (i : Fin 4) : ¬ (spinMat G c m isMag p u (d, i) (d, i)).IsFin := by
  unfold spinMat diagBlock
  dsimp only
  rw [if_pos rfl, if_pos rfl, Fl.isFin_add, Fl.isFin_add]
  exact fun hc => rate_zero c m h (Fl.isFin_mul.mp hc.2.2).1

/-- without a length of the s-d coupling a coefficient of a magnetic element is not finite -/
theorem spinMat_lsd {G : Tetra.Rule} {c : Consts} {m : VolPrm} {p u : Fin 4 → V3} (h : m.lsd = 0) (i : Fin 4) :
    ¬ (spinMat G c m true p u (1, i) (2, i)).IsFin := by
  unfold spinMat
  dsimp only
  rw [if_neg (by decide), if_pos ⟨rfl, rfl⟩, if_pos ⟨rfl, rfl⟩, Fl.isFin_add, Fl.isFin_mul]
  exact fun hc => rate_zero c m h hc.2.1

/-- with all divisors different from zero the coefficients are those of `Model/Electro.lean` -/
theorem spinMat_real {G : Tetra.Rule} {c : Consts} {m : VolPrm} {isMag : Bool} {p u : Fin 4 → V3} (he : c.e ≠ 0)
    (hN : m.N0.IsFin) (hN0 : m.N0.val ≠ 0) (hf : m.lsf ≠ 0) (hd : isMag = true → m.lsd ≠ 0) (r q : Fin 3 × Fin 4) :
    spinMat G c m isMag p u r q = .fin (Electro.spinMat G c m isMag p u r q) := by
  obtain ⟨x, hx⟩ := Fl.isFin_iff.mp hN
  have hxv : m.N0.val = x := by rw [hx]; rfl
  rw [hxv] at hN0
  have hD : diffusionCst c m = .fin (Electro.diffusionCst c m) := by
    unfold diffusionCst Electro.diffusionCst
    rw [hx, Fl.fin_mul, Fl.fin_mul, Fl.fin_div (mul_ne_zero (mul_ne_zero he he) hN0)]
    rfl
  have hr : ∀ l : ℝ, l ≠ 0 → rate c m l = .fin (Electro.diffusionCst c m / (l * l)) := by
    intro l hl
    unfold rate
    rw [hD, Fl.fin_div (mul_ne_zero hl hl)]
  obtain ⟨a, i⟩ := r
  obtain ⟨b, k⟩ := q
  unfold spinMat Electro.spinMat diagBlock Tetra.calcDiagBlock
  dsimp only
  rw [hD, hr _ hf]
  by_cases hab : a = b
  · subst hab
    have h3 : ¬ (a = 1 ∧ a = 2) ∧ ¬ (a = 2 ∧ a = 1) ∧ ¬ (a = 0 ∧ a = 2) ∧ ¬ (a = 2 ∧ a = 0) ∧ ¬ (a = 0 ∧ a = 1) ∧ ¬ (a = 1 ∧ a = 0) := by
      refine ⟨?_, ?_, ?_, ?_, ?_, ?_⟩ <;> rintro ⟨h1, h2⟩ <;> rw [h1] at h2 <;> exact absurd h2 (by decide)
    simp only [if_true, if_neg h3.1, if_neg h3.2.1, if_neg h3.2.2.1, if_neg h3.2.2.2.1, if_neg h3.2.2.2.2.1,
      if_neg h3.2.2.2.2.2, Fl.zero_eq, Fl.fin_mul, Fl.fin_add]
    split_ifs <;> simp
  · rw [if_neg hab, if_neg hab]
    cases isMag with
    | false => simp [Fl.zero_eq]
    | true =>
      rw [hr _ (hd rfl)]
      by_cases hik : i = k
      · subst hik
        fin_cases a <;> fin_cases b <;> simp [Fl.zero_eq] at hab ⊢
      · simp [hik, Fl.zero_eq]

/-! ## The conjugate gradient with a row of zeros -/

/-- if the row of an unknown is zero, nothing converges, unless there is nothing to do -/
theorem cg_zero_row {n : ℕ} (A : Mat n) (D : Vec n) (ld : List (Fin n)) (st : CState n) (hp : st.p = pDirect D st.r)
    (hn : st.iter.nit = 0) {i : Fin n} (hi : i ∉ ld) (hrow : ∀ e ∈ A i, e.2 = 0) (hdiag : ∃ e ∈ A i, e.1 = i)
    (hD : ¬ (D i).IsFin) (k : ℕ) :
    ∃ out, loop (cgBody A D ld) (k + 2) st = some out ∧
      (out.iter.status = .CONVERGED → (norm st.r).abs.le (st.iter.rhsn * st.iter.resmax)) := by
  have hnit : (cIt st).nit = 0 := (finished_spec _ _).nit.trans hn
  have hP : cP D st = pDirect D st.r := by
    unfold cP; rw [if_neg (by rw [hnit]; exact lt_irrefl 0), hp]
  have hpi : ¬ (pDirect D st.r i).IsFin := by
    show ¬ (D i * st.r i).IsFin
    rw [Fl.isFin_mul]; exact fun hc => hD hc.1
  have hQ : cQ A D ld st i = .nan := by
    unfold cQ
    rw [applyMask_of_not_mem hi, hP]
    unfold mult
    obtain ⟨e, he, hei⟩ := hdiag
    refine foldl_nan (fun e : Fin n × Fl => e.2 * pDirect D st.r e.1) _ _ (Or.inr ⟨e, he, ?_⟩)
    show e.2 * _ = _
    rw [hrow e he, hei, zero_notfin hpi]
  have hr : norm (cNext A D ld st).r = .nan := by
    apply norm_of_nan (i := i)
    show st.r i + -(cA A D ld st) * cQ A D ld st i = _
    rw [hQ]; simp
  have hk := cgBody_kind A D ld st
  generalize he : cgBody A D ld st = r at hk
  have hstop : ∀ s : CState n, cgBody A D ld st = (true, s) → loop (cgBody A D ld) (k + 2) st = some s := by
    intro s h
    unfold loop; dsimp only; rw [h]; rfl
  cases hk with
  | leave h =>
    refine ⟨_, hstop _ he, fun hc => ?_⟩
    have hc : (cIt st).status = .CONVERGED := hc
    rcases (finished_spec st.iter (norm st.r)).cases with g | g | g
    · have : (cIt st).status = .CANNOT_CONVERGE := g.2.2
      rw [hc] at this; cases this
    · exact g.1
    · rcases h with h | h | h
      · rw [g.2.2.1] at h; cases h
      · rw [hc] at h; cases h
      · rw [hc] at h; cases h
  | zero h => exact ⟨_, hstop _ he, fun hc => by cases hc⟩
  | next h h1 h2 =>
    obtain ⟨out, h3, h4, -, -⟩ := cg_nan A D ld k (cNext A D ld st) hr
    refine ⟨out, ?_, fun hc => by rw [h4] at hc; cases hc⟩
    unfold loop; dsimp only; rw [he]; exact h3

/-! ## Additions of numbers -/

/-- an operation on numbers, as one on `double`s -/
def liftOp : SparseMat.Op ℝ → SparseMat.Op Fl
  | .clear => .clear
  | .set i j v => .set i j (.fin v)
  | .add i j v => .add i j (.fin v)

theorem modify_map {f : ℝ → ℝ} {g : Fl → Fl} (h : ∀ x, g (.fin x) = .fin (f x)) (l : List ℝ) (k : ℕ) :
    (l.map Fl.fin).modify k g = (l.modify k f).map Fl.fin := by
  apply List.ext_getElem?
  intro i
  rw [List.getElem?_modify, List.getElem?_map, List.getElem?_map, List.getElem?_modify]
  cases l[i]? with
  | none => rfl
  | some x => by_cases hk : k = i <;> simp [hk, h]

theorem lift_modify {f : ℝ → ℝ} {g : Fl → Fl} (h : ∀ x, g (.fin x) = .fin (f x)) (m : Sp ℝ) (i j : ℕ) :
    (liftSp m).modify i j g = (m.modify i j f).map liftSp := by
  unfold Sp.modify
  have e : (liftSp m).rows[i]? = m.rows[i]?.map fun r => ⟨r.indices, r.values.map Fl.fin⟩ := by
    unfold liftSp
    rw [List.getElem?_map]
  rw [e]
  cases m.rows[i]? with
  | none => rfl
  | some r =>
    dsimp only [Option.map_some]
    have e2 : (⟨r.indices, r.values.map Fl.fin⟩ : SparseMat.Row Fl).ref j = r.ref j := by
      unfold SparseMat.Row.ref
      rw [List.length_map]
    rw [e2]
    cases r.ref j with
    | none => rfl
    | some k =>
      show some _ = some _
      congr 1
      unfold liftSp
      rw [List.map_set, modify_map h]

theorem lift_add (m : Sp ℝ) (i j : ℕ) (v : ℝ) : (liftSp m).add i j (.fin v) = (m.add i j v).map liftSp :=
  lift_modify (fun x => Fl.fin_add x v) m i j

/-- additions of numbers are the same in both arithmetics -/
theorem lift_run (ops : List (SparseMat.Op ℝ)) (ha : AllAdd ops) : ∀ m : Sp ℝ,
    (liftSp m).run (ops.map liftOp) = (m.run ops).map liftSp := by
  induction ops with
  | nil => exact fun m => rfl
  | cons o os ih =>
    intro m
    obtain ⟨i, j, v, rfl⟩ := ha o List.mem_cons_self
    show ((liftSp m).add i j (.fin v)).bind _ = Option.map _ ((m.add i j v).bind _)
    rw [lift_add]
    cases m.add i j v with
    | none => rfl
    | some m' => exact ih (fun o ho => ha o (List.mem_cons_of_mem _ ho)) m'

theorem lift_ofShape (s : Shape) : liftSp (ofShape s : Sp ℝ) = ofShape s := by
  unfold liftSp ofShape
  rw [List.map_map]
  congr 1
  refine List.map_congr_left fun a _ => ?_
  show SparseMat.Row.mk _ _ = SparseMat.Row.mk _ _
  rw [List.map_replicate]
  rfl

theorem lift_buildMat (D : ℕ) (e : Elem 4 Fl) (e' : Elem 4 ℝ) (hi : e.ind = e'.ind) (hK : ∀ r q, e.Ke r q = .fin (e'.Ke r q)) :
    buildMat D e = (buildMat D e').map liftOp := by
  unfold buildMat
  simp only [List.map_flatMap, List.map_map]
  simp only [hi, hK]
  rfl

end Verif.SpinStart
