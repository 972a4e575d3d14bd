import Verif.Proofs.SpinStart
import Verif.Props.NoPolarization

/-!
# C110: the spin accumulation is not computed from constants that were not given
-/

namespace Verif.SpinStart

open Verif.Mesh Verif.Assembly Verif.SparseMat Verif.Electro Verif.Krylov

section
variable {G : Tetra.Rule} {H : TriElem.Rule} {nod : ℕ} {p : ℕ → V3} {sigma : ℕ → ℝ} {tets : List Tet} {tris : List Tri}

/-! ## The potential -/

/-- the call of the solver in the computation of the potential -/
theorem potSolve_eq (h : Problem G H nod p sigma tets tris) (it : Iter) (prm : ℕ → SurfPrm)
    (hinf : ∀ f ∈ tris, (prm f.reg).V.IsNan ∨ (prm f.reg).V.IsFin) :
    ∃ (A : Mat nod) (xd : Fin nod → ℝ) (ld : List (Fin nod)),
      Represents A (fun i j : Fin nod => fullCoef 1 tets (potTet G p sigma) i j) ∧ DiagStored A ∧
      (∀ i : Fin nod, i ∈ ld ↔ OnPotential prm tris i) ∧
      (∀ i : Fin nod, (xd i = 0 ∧ ¬ OnPotential prm tris i) ∨ ∃ f ∈ tris, (∃ k, f.ind k = i) ∧ (prm f.reg).V = .fin (xd i)) ∧
      potSolve it G H nod p sigma prm tets tris = cgDir it.reset A (lift 0) (lift fun i => potRhs H p prm tris i) (lift xd) ld := by
  obtain ⟨K, hK, hw, hget⟩ := full_matrix 1 nod tets h.valid [potTet G p sigma] (fun el hel t => by
    rw [List.mem_singleton] at hel; rw [hel]; rfl)
  obtain ⟨L, hL, hLl, hLget⟩ := vect_run 1 nod (tris.map (potTri H p prm)) (by
    intro e he k
    obtain ⟨f, hf, rfl⟩ := List.mem_map.mp he
    exact h.validT f hf k) (List.replicate (1 * nod) (0 : ℝ)) (by simp)
  obtain ⟨xd, hxd, hidx, hval⟩ := potDirichlet_spec (nod := nod) prm hinf
  have hshape : (fullShape 1 nod tets).length = nod := by
    have := (buildShape_in 1 nod _ (fun _ => true) (edges_lt h.valid) 0 0).1
    rw [one_mul] at this
    exact this
  obtain ⟨hR, hD⟩ := represents nod (fullShape 1 nod tets) hshape K hw (fullCoef 1 tets (potTet G p sigma)) (by
    intro i j hi
    rw [hget i j (by rw [one_mul]; exact hi)]
    simp) (by
    intro i hi
    exact C21_diagonal 1 nod tets h.valid _ i (by rw [one_mul]; exact hi))
  have hLv : vecOf nod (L.map .fin) = lift fun i => potRhs H p prm tris i := by
    funext i
    have hi : (i : ℕ) < L.length := by rw [hLl, one_mul]; exact i.2
    have := hLget i (by rw [one_mul]; exact i.2)
    unfold vecOf lift
    rw [List.getD_eq_getElem?_getD, List.getElem?_map, List.getElem?_eq_getElem hi, Option.map_some, Option.getD_some]
    congr 1
    rw [List.getD_eq_getElem?_getD, List.getElem?_eq_getElem hi, Option.getD_some] at this
    rw [this, List.map_map]
    have hz : (List.replicate (1 * nod) (0 : ℝ)).getD i 0 = 0 := by
      simp [List.getD_eq_getElem?_getD]
    rw [hz, zero_add]
    rfl
  refine ⟨_, xd, _, hR, hD, hidx, hval, ?_⟩
  have hK' : (ofShape (fullShape 1 nod tets) : Sp ℝ).run (fullOps 1 (tets.map (potTet G p sigma))) = some K := by
    rw [← hK]
    simp [elems]
  have hsys : potSystem G H nod p sigma prm tets tris = some (K, L) := by
    unfold potSystem
    rw [hK']
    show (runVect _ _).bind _ = _
    rw [hL]
    rfl
  unfold potSolve
  rw [hsys]
  show cgDir it.reset _ _ (vecOf nod (L.map .fin)) (vecOf nod (potDirichlet nod prm tris).1)
    (idxOf nod (suppressCopies (potDirichlet nod prm tris).2)) = _
  rw [hLv, hxd]
  rfl

/-- the equation of a node without conducting elements has no coefficients -/
theorem coef_zero {i : ℕ} (hs : ∀ t ∈ tets, (∃ k, t.ind k = i) → sigma t.reg = 0) (j : ℕ) :
    fullCoef 1 tets (potTet G p sigma) i j = 0 := by
  unfold fullCoef
  refine List.sum_eq_zero fun x hx => ?_
  obtain ⟨t, ht, rfl⟩ := List.mem_map.mp hx
  unfold Elem.contribution
  refine Finset.sum_eq_zero fun ie _ => Finset.sum_eq_zero fun je _ => Finset.sum_eq_zero fun di hdi => Finset.sum_eq_zero fun dj _ => ?_
  split_ifs with hc
  · have hdi : di = 0 := by have := Finset.mem_range.mp hdi; omega
    have hi : t.ind ie = i := by
      have h1 : 1 * t.ind ie + di = i := hc.1
      omega
    show potMat G (sigma t.reg) _ _ _ = 0
    rw [hs t ht ⟨ie, hi⟩]
    unfold potMat
    exact Finset.sum_eq_zero fun _ _ => by ring
  · rfl

/-- a potential is prescribed at the electrode and zero at all other nodes -/
def AtContactsOnly (prm : ℕ → SurfPrm) (tris : List Tri) (nod : ℕ) (V : ℕ → ℝ) : Prop :=
  ∀ i, i < nod → (V i = 0 ∧ ¬ OnPotential prm tris i) ∨ ∃ f ∈ tris, (∃ k, f.ind k = i) ∧ (prm f.reg).V = .fin (V i)

/-- If all elements of a node without prescribed potential have no conductivity, the computation of the potential fails, unless the
problem is solved by the prescribed values and zeros, so that there is nothing to compute. -/
theorem pot_fails (h : Problem G H nod p sigma tets tris) (it : Iter) (tol : ℝ) (ht : it.resmax = .fin tol) (htol : tol < 1)
    (prm : ℕ → SurfPrm) (hinf : ∀ f ∈ tris, (prm f.reg).V.IsNan ∨ (prm f.reg).V.IsFin) (i : ℕ) (hi : i < nod)
    (hfree : ¬ OnPotential prm tris i) (hs : ∀ t ∈ tets, (∃ k, t.ind k = i) → sigma t.reg = 0) :
    ∃ st, potSolve it G H nod p sigma prm tets tris = some st ∧ (st.iter.status = .CONVERGED →
      ∃ V, AtContactsOnly prm tris nod V ∧
        WeakPotential p sigma (fun r => currentDensity (prm r)) tets tris (OnPotential prm tris) V) := by
  obtain ⟨A, xd, ld, hA, hd, hld, hval, hrun⟩ := potSolve_eq h it prm hinf
  set M : Matrix (Fin nod) (Fin nod) ℝ := fun i j : Fin nod => fullCoef 1 tets (potTet G p sigma) i j with hM
  set D := applyMask ld (diagPrecond A) with hDdef
  let y : Fin nod → ℝ := maskR ld ((fun i : Fin nod => potRhs H p prm tris i) - M.mulVec xd)
  have hb : applyMask ld (sub (mult A (lift xd)) (lift fun i : Fin nod => potRhs H p prm tris i)) = lift y := by
    rw [mult_lift hA, ← applyMask_lift]
    congr 1
  have hr : (cgInit it.reset A D ld (lift 0) (lift y)).r = lift y := by
    show applyMask ld (sub (mult A (lift 0)) (lift y)) = _
    rw [mult_lift hA, Matrix.mulVec_zero]
    have : sub (lift (0 : Fin nod → ℝ)) (lift y) = lift y := by
      funext k
      exact (Fl.fin_sub _ _).trans (by simp [lift])
    rw [this, applyMask_lift]
    congr 1
    funext k
    show (if k ∈ ld then 0 else y k) = y k
    split_ifs with hk
    · show (0 : ℝ) = if k ∈ ld then 0 else _
      rw [if_pos hk]
    · rfl
  let i' : Fin nod := ⟨i, hi⟩
  have hi' : i' ∉ ld := fun hc => hfree ((hld i').mp hc)
  have hrow : ∀ e ∈ A i', e.2 = 0 := by
    rintro ⟨j, v⟩ he
    have := hA.stored i' j v he
    rw [this, hM]
    show Fl.fin (fullCoef 1 tets (potTet G p sigma) i j) = 0
    rw [coef_zero hs]
    rfl
  obtain ⟨e0, he0, hei0⟩ := List.mem_map.mp (hd i')
  have hDi : ¬ (D i').IsFin := by
    rw [hDdef, applyMask_of_not_mem hi']
    unfold diagPrecond
    have hc : coef A i' i' = 0 := by
      unfold coef
      cases hf : (A i').find? (fun e => e.1 = i') with
      | none => rfl
      | some e => exact hrow e (List.mem_of_find?_eq_some hf)
    rw [hc]
    exact div_zero_notfin _
  obtain ⟨k, hk⟩ : ∃ k, fuel it.reset = k + 2 := by
    refine ⟨(max 1 it.reset.maxiter).toNat - 1, ?_⟩
    unfold fuel
    omega
  obtain ⟨out, h1, h2⟩ := cg_zero_row A D ld (cgInit it.reset A D ld (lift 0) (lift y)) rfl rfl hi' hrow ⟨e0, he0, hei0⟩ hDi k
  refine ⟨{ out with x := add (lift xd) out.x }, ?_, fun hc => ?_⟩
  · rw [hrun]
    unfold cgDir
    dsimp only
    rw [hb, ← hDdef, hk, h1]
    rfl
  · have hle := h2 hc
    rw [hr] at hle
    have e : (cgInit it.reset A D ld (lift 0) (lift y)).iter.rhsn * (cgInit it.reset A D ld (lift 0) (lift y)).iter.resmax =
        .fin (Real.sqrt (∑ i, y i ^ 2) * tol) := by
      show norm (lift y) * it.resmax = _
      rw [ht, norm_lift, Fl.fin_mul]
    rw [e, norm_lift] at hle
    have hle : |Real.sqrt (∑ i, y i ^ 2)| ≤ Real.sqrt (∑ i, y i ^ 2) * tol := hle
    have hsq : Real.sqrt (∑ i, y i ^ 2) = 0 := by
      have h0 := Real.sqrt_nonneg (∑ i, y i ^ 2)
      rw [abs_of_nonneg h0] at hle
      nlinarith
    have hsum : ∑ i, y i ^ 2 = 0 := by
      rwa [Real.sqrt_eq_zero (Finset.sum_nonneg fun i _ => sq_nonneg _)] at hsq
    have hy : ∀ i, y i = 0 := fun i => by
      have := (Finset.sum_eq_zero_iff_of_nonneg fun i _ => sq_nonneg (y i)).mp hsum i (Finset.mem_univ i)
      exact pow_eq_zero_iff (two_ne_zero) |>.mp this
    refine ⟨Llg.ext xd, fun i hi => ?_, ?_⟩
    · have := hval ⟨i, hi⟩
      rw [← Electro.ext_val xd ⟨i, hi⟩] at this
      exact this
    · rw [weak_iff (G := G) (H := H) h prm]
      intro i hi hS
      have h3 := hy ⟨i, hi⟩
      have h4 : (if (⟨i, hi⟩ : Fin nod) ∈ ld then (0 : ℝ) else
          potRhs H p prm tris i - ∑ j : Fin nod, fullCoef 1 tets (potTet G p sigma) i j * xd j) = 0 := h3
      rw [if_neg (fun hc => hS ((hld _).mp hc))] at h4
      rw [Finset.sum_range]
      simp only [Electro.ext_val]
      linarith

/-! ## The spin accumulation -/

variable {c : Consts} {mag : ℕ → Bool} {vol : ℕ → VolPrm} {surf : ℕ → SurfPrm}

/-- a node on no surface with a current or a spin vector -/
def SpinFree (surf : ℕ → SurfPrm) (tris : List Tri) (i : ℕ) : Prop := ∀ g ∈ tris, (∃ l, g.ind l = i) → Silent (surf g.reg)

theorem free_row (c : Consts) {i : ℕ} (hfree : SpinFree surf tris i) (r : Fin (3 * nod)) (a : Fin 3) (hr : (r : ℕ) = 3 * i + a) :
    r ∉ idxOf (3 * nod) (suppressCopies (spinDirichlet c nod surf tris).2) ∧
      vecOf (3 * nod) (spinDirichlet c nod surf tris).1 r = 0 := by
  obtain ⟨h1, h2, h3⟩ := writes_spec (0 : Fl)
    (tris.flatMap fun f => ((spinValue c (surf f.reg)).elim [] (triWrites f))) (List.replicate (3 * nod) 0, [])
  rw [← spinDirichlet_writes] at h1 h2 h3
  have hno : ∀ v, ((r : ℕ), v) ∉ tris.flatMap fun f => ((spinValue c (surf f.reg)).elim [] (triWrites f)) := by
    intro v hm
    obtain ⟨g, hg, hm⟩ := List.mem_flatMap.mp hm
    cases hv : spinValue c (surf g.reg) with
    | none => rw [hv] at hm; cases hm
    | some w =>
      rw [hv] at hm
      obtain ⟨l, b, e2, -⟩ := mem_triWrites.mp hm
      have hn : g.ind l = i := by have := a.2; have := b.2; omega
      rw [silent_value (hfree g hg ⟨l, hn⟩)] at hv
      cases hv
  constructor
  · rw [mem_idxOf, (C56_suppress_copies _).2, h1, List.nil_append]
    intro hc
    obtain ⟨⟨r', v⟩, hm, e⟩ := List.mem_map.mp hc
    have e : r' = r := e
    rw [e] at hm
    exact hno v hm
  · rcases h3 r (by show (r : ℕ) < (List.replicate (3 * nod) (0 : Fl)).length; rw [List.length_replicate]; exact r.2) with
      ⟨-, h5⟩ | ⟨v, h4, -⟩
    · refine Eq.trans h5 ?_
      show (List.replicate (3 * nod) (0 : Fl)).getD r 0 = 0
      rw [List.getD_eq_getElem?_getD, List.getElem?_replicate]
      split_ifs <;> rfl
    · exact absurd h4 (hno v)

/-- the first computation: the arrays are never left, it always ends, and it fails if a coefficient that is not finite stands in the
equation of a node without conditions, in a column of such a node -/
theorem first_fails (hv : IndicesValid nod tets) (hvT : ∀ f ∈ tris, ∀ k, f.ind k < nod) (it : Iter) (V : ℕ → ℝ) (s : MagState) :
    ∃ st, spinFirst it G H c nod p mag vol surf V tets tris s = some st ∧
      ∀ t ∈ tets, ∀ (k : Fin 4) (a b : Fin 3), SpinFree surf tris (t.ind k) →
        ¬ (spinMat G c (vol t.reg) (t.isMagnetic mag) (MeshElem.nod4 p t) (MeshElem.nod4 s.cur t) (a, k) (b, k)).IsFin →
        st.iter.status = .CANNOT_CONVERGE := by
  have hin := (C21_full 3 nod tets hv (spinTet G c p mag vol s) (fun _ => rfl) tets fun t h => h).1
  obtain ⟨K, hK, hw, hget⟩ := run_spec (fullOps 3 (elems (spinTet G c p mag vol s) tets)) (ofShape_wf (fullShape 3 nod tets))
    (ofShape_holds (fullShape 3 nod tets)) hin
  obtain ⟨L1, hL1, hl1, -⟩ := vect_run 3 nod (tets.map (Electro.spinTet G c p mag vol V s)) (by
    intro e he k
    obtain ⟨t, ht, rfl⟩ := List.mem_map.mp he
    exact hv t ht k) (List.replicate (3 * nod) (0 : ℝ)) (by simp)
  obtain ⟨L, hL, hl, -⟩ := vect_run 3 nod (tris.map (spinTri H c p surf)) (by
    intro e he k
    obtain ⟨f, hf, rfl⟩ := List.mem_map.mp he
    exact hvT f hf k) L1 hl1
  set A := rowsOf (3 * nod) K with hA
  set ld := idxOf (3 * nod) (suppressCopies (spinDirichlet c nod surf tris).2) with hld
  set xd := vecOf (3 * nod) (spinDirichlet c nod surf tris).1 with hxd
  set Lf := vecOf (3 * nod) (L.map .fin) with hLf
  have hrun : spinFirst it G H c nod p mag vol surf V tets tris s = bicgDir it.reset A (fun _ => 0) Lf xd ld := by
    unfold spinFirst
    have e1 : (ofShape (fullShape 3 nod tets) : Sp Fl).run (fullOps 3 (tets.map (spinTet G c p mag vol s))) = some K := hK
    rw [e1]
    show (runVect _ _).bind _ = _
    rw [hL1]
    show (runVect _ _).bind _ = _
    rw [hL]
    rfl
  obtain ⟨st, hst, -, -⟩ := C14_bicg_dir it.reset rfl A (fun _ => 0) Lf xd ld
  refine ⟨st, hrun.trans hst, ?_⟩
  intro t ht k a b hfree hbad
  have hvk := hv t ht k
  let r : Fin (3 * nod) := ⟨3 * t.ind k + a, by have := a.2; omega⟩
  let q : Fin (3 * nod) := ⟨3 * t.ind k + b, by have := b.2; omega⟩
  obtain ⟨hr1, -⟩ := free_row (nod := nod) c hfree r a rfl
  obtain ⟨-, hq2⟩ := free_row (nod := nod) c hfree q b rfl
  have hmem : SparseMat.Op.add (3 * t.ind k + (a : ℕ)) (3 * t.ind k + (b : ℕ)) ((spinTet G c p mag vol s t).Ke ((a : ℕ) * 4 + k) ((b : ℕ) * 4 + k)) ∈
      fullOps 3 (elems (spinTet G c p mag vol s) tets) :=
    List.mem_flatMap.mpr ⟨spinTet G c p mag vol s t, List.mem_map.mpr ⟨t, ht, rfl⟩,
      (mem_buildMat _ _).mpr ⟨k, k, a, a.2, b, b.2, rfl⟩⟩
  have hinrq : InShape (fullShape 3 nod tets) r q := hin _ hmem
  have hidx : ∀ a : Fin 3, (Fin.ofNat 3 (((a : ℕ) * 4 + k) / 4), Fin.ofNat 4 (((a : ℕ) * 4 + k) % 4)) = (a, k) := by
    intro a
    have h1 : ((a : ℕ) * 4 + k) / 4 = a := by have := k.2; omega
    have h2 : ((a : ℕ) * 4 + k) % 4 = k := by have := k.2; omega
    rw [h1, h2]
    refine Prod.ext ?_ ?_
    · exact Fin.ext (Nat.mod_eq_of_lt a.2)
    · exact Fin.ext (Nat.mod_eq_of_lt k.2)
  have hval : ¬ ((spinTet G c p mag vol s t).Ke ((a : ℕ) * 4 + k) ((b : ℕ) * 4 + k)).IsFin := by
    show ¬ (spinMat G c (vol t.reg) (t.isMagnetic mag) (MeshElem.nod4 p t) (MeshElem.nod4 s.cur t)
      (Fin.ofNat 3 (((a : ℕ) * 4 + k) / 4), Fin.ofNat 4 (((a : ℕ) * 4 + k) % 4))
      (Fin.ofNat 3 (((b : ℕ) * 4 + k) / 4), Fin.ofNat 4 (((b : ℕ) * 4 + k) % 4))).IsFin
    rw [hidx a, hidx b]
    exact hbad
  have hcoef := run_notfin (fullOps 3 (elems (spinTet G c p mag vol s) tets)) (allAdd_flatMap _) r q (fun _ _ => 0)
    (Or.inr ⟨_, hmem, hval⟩)
  have hlen : (r : ℕ) < (fullShape 3 nod tets).length := by
    exact lt_of_lt_of_eq r.2 (buildShape_in 3 nod _ (fun _ => true) (edges_lt hv) 0 0).1.symm
  have hb : applyMask ld (sub (mult A xd) Lf) r = .nan := by
    rw [applyMask_of_not_mem hr1]
    show Lf r - mult A xd r = _
    rw [hA, mult_notfin hw hinrq (hget r q hlen) hcoef hq2, Fl.sub_nan]
  have hn : norm (applyMask ld (sub (mult A fun _ => 0) (applyMask ld (sub (mult A xd) Lf)))) = .nan := by
    apply norm_of_nan (i := r)
    rw [applyMask_of_not_mem hr1]
    show applyMask ld (sub (mult A xd) Lf) r - _ = _
    rw [hb, Fl.nan_sub]
  obtain ⟨o, e1, e2, -, -⟩ := bicg_nan A (applyMask ld (diagPrecond A)) ld _
    (bicgInit it.reset A ld (fun _ => 0) (applyMask ld (sub (mult A xd) Lf))) hn
  have : bicgDir it.reset A (fun _ => 0) Lf xd ld = some { o with x := add xd o.x } := congrArg (Option.map _) e1
  rw [hst] at this
  rw [Option.some.inj this]
  exact e2

/-! ## The properties -/

/-- a material whose constants are all there: what is divided by is not zero -/
def Complete (c : Consts) (m : VolPrm) (isMag : Bool) : Prop :=
  c.e ≠ 0 ∧ m.N0.IsFin ∧ m.N0.val ≠ 0 ∧ m.lsf ≠ 0 ∧ (isMag = true → m.lsd ≠ 0)

/-- **C110** (numbers) If all the constants are there, the first computation solves the system of the real numbers about which C45,
C46, C60 and C109 are. -/
theorem C110_numbers (it : Iter) (V : ℕ → ℝ) (s : MagState) (hc : ∀ t ∈ tets, Complete c (vol t.reg) (t.isMagnetic mag)) :
    spinFirst it G H c nod p mag vol surf V tets tris s =
      ((SpinSys.new nod tets).assemble G H c p mag vol surf V tets tris s).bind fun sys => sys.solve it c nod surf tris := by
  have e : fullOps 3 (tets.map (spinTet G c p mag vol s)) =
      (fullOps 3 (tets.map (Electro.spinTet G c p mag vol V s))).map liftOp := by
    unfold fullOps
    rw [List.map_flatMap, List.flatMap_map, List.flatMap_map]
    refine List.flatMap_congr fun t ht => ?_
    obtain ⟨h1, h2, h3, h4, h5⟩ := hc t ht
    exact lift_buildMat 3 _ _ rfl fun r q => spinMat_real h1 h2 h3 h4 h5 _ _
  unfold spinFirst SpinSys.assemble SpinSys.new
  rw [e, ← lift_ofShape, lift_run (fullOps 3 _) (allAdd_flatMap _)]
  dsimp only
  cases (ofShape (fullShape 3 nod tets) : Sp ℝ).run (fullOps 3 (tets.map (Electro.spinTet G c p mag vol V s))) with
  | none => rfl
  | some K =>
    show (runVect _ _).bind _ = Option.bind ((runVect _ _).bind _) _
    cases runVect (List.replicate (3 * nod) (0 : ℝ)) ((tets.map (Electro.spinTet G c p mag vol V s)).flatMap (buildVectCalls 3)) with
    | none => rfl
    | some L =>
      show (runVect _ _).bind _ = Option.bind ((runVect _ _).bind _) _
      cases runVect L ((tris.map (spinTri H c p surf)).flatMap (buildVectCalls 3)) with
      | none => rfl
      | some L' => rfl

end

/-- what the mesh and the lists of regions are supposed to be: the elements refer to nodes and regions that exist, the tetrahedrons are
not flat, no conductivity is negative, no potential is infinite, one entry of the list of volume regions is the default one; the solver
of the potential has a tolerance below one (1e-8, spinAccumulationSolver.cpp:22) -/
structure Input (itV : Iter) (G : Tetra.Rule) (H : TriElem.Rule) (nod : ℕ) (p : ℕ → V3) (vols : List VolPrm) (surfs : List SurfPrm)
    (tets : List Tet) (tris : List Tri) : Prop where
  problem : Problem G H nod p (fun r => (vols.getD r noVol).sigma) tets tris
  reg : ∀ t ∈ tets, t.reg < vols.length
  regT : ∀ f ∈ tris, f.reg < surfs.length
  noInf : ∀ q ∈ surfs, q.V.IsNan ∨ q.V.IsFin
  default : ExactlyOne vols fun m => m.regName = "__default__"
  tol : ∃ x : ℝ, itV.resmax = .fin x ∧ x < 1

section
variable {itV itS : Iter} {G : Tetra.Rule} {H : TriElem.Rule} {c : Consts} {nod : ℕ} {p : ℕ → V3} {mag : ℕ → Bool}
  {vols : List VolPrm} {surfs : List SurfPrm} {tets : List Tet} {tris : List Tri}

theorem Input.inf (h : Input itV G H nod p vols surfs tets tris) :
    ∀ f ∈ tris, (surfs.getD f.reg noSurf).V.IsNan ∨ (surfs.getD f.reg noSurf).V.IsFin := by
  intro f hf
  have := h.regT f hf
  rw [List.getD_eq_getElem?_getD, List.getElem?_eq_getElem this, Option.getD_some]
  exact h.noInf _ (List.getElem_mem this)

/-- **C110** (outcomes) When the spin accumulation is switched on, the preparation always ends: with status 1, or with a first spin
accumulation. The memory is never accessed out of range. -/
theorem C110_outcomes (h : Input itV G H nod p vols surfs tets tris) (s : MagState) :
    start itV itS G H c nod p mag vols surfs tets tris s = some (.exit 1) ∨
      ∃ x, start itV itS G H c nod p mag vols surfs tets tris s = some (.ready x) := by
  unfold start
  dsimp only
  split_ifs
  · exact Or.inl rfl
  · exact Or.inl rfl
  · obtain ⟨A, xd, ld, -, -, -, -, hrun⟩ := potSolve_eq h.problem itV (fun r => surfs.getD r noSurf) h.inf
    obtain ⟨st, hst, -⟩ := C14_cg_dir itV.reset rfl A (lift 0) (lift fun i : Fin nod => potRhs H p (fun r => surfs.getD r noSurf) tris i) (lift xd) ld
    rw [hrun, hst, Option.bind_some]
    split_ifs
    · exact Or.inl rfl
    · obtain ⟨st', hst', -⟩ := first_fails (G := G) (H := H) (c := c) (p := p) (mag := mag) (vol := fun r => vols.getD r noVol)
        (surf := fun r => surfs.getD r noSurf) h.problem.valid h.problem.validT itS
        (fun i => if h : i < nod then (st.x ⟨i, h⟩).val else 0) s
      rw [hst', Option.bind_some]
      split_ifs
      · exact Or.inl rfl
      · exact Or.inr ⟨_, rfl⟩

/-- **C110** If a first spin accumulation is computed, so that the time integration can start, then every named volume region has a
density of states other than zero and a polarization from zero to one; every element that has a node on no contact has a spin diffusion
length, and a length of the s-d coupling if it is magnetic; and every node without a prescribed potential belongs to a conducting
element, except if the prescribed potentials continued by zeros solve the equations, so that nothing had to be computed. -/
theorem C110_complete (h : Input itV G H nod p vols surfs tets tris) (s : MagState) {x : Vec (3 * nod)}
    (hx : start itV itS G H c nod p mag vols surfs tets tris s = some (.ready x)) :
    (∀ m ∈ vols, m.regName ≠ "__default__" → (m.N0.IsFin ∧ m.N0.val ≠ 0) ∧ m.P.IsFin ∧ 0 ≤ m.P.val ∧ m.P.val < 1) ∧
    (∀ t ∈ tets, (∃ k, SpinFree (fun r => surfs.getD r noSurf) tris (t.ind k)) →
      (vols.getD t.reg noVol).lsf ≠ 0 ∧ (t.isMagnetic mag = true → (vols.getD t.reg noVol).lsd ≠ 0)) ∧
    (∀ i, i < nod → ¬ OnPotential (fun r => surfs.getD r noSurf) tris i →
      (∃ t ∈ tets, (∃ k, t.ind k = i) ∧ (vols.getD t.reg noVol).sigma ≠ 0) ∨
      ∃ V, AtContactsOnly (fun r => surfs.getD r noSurf) tris nod V ∧ WeakPotential p (fun r => (vols.getD r noVol).sigma)
        (fun r => currentDensity (surfs.getD r noSurf)) tets tris (OnPotential (fun r => surfs.getD r noSurf) tris) V) := by
  unfold start at hx
  dsimp only at hx
  by_cases hS : checkS vols surfs = false
  · rw [if_pos hS] at hx; cases hx
  rw [if_neg hS] at hx
  by_cases hV : checkV surfs = false
  · rw [if_pos hV] at hx; cases hx
  rw [if_neg hV] at hx
  obtain ⟨-, -, hN, hP⟩ := (C57_start_spin vols surfs h.default).mp (Bool.of_not_eq_false hS)
  refine ⟨fun m hm hd => ⟨hN m hm hd, hP m hm hd⟩, ?_⟩
  obtain ⟨st, hst, hx⟩ := Option.bind_eq_some_iff.mp hx
  by_cases hc : st.iter.status ≠ .CONVERGED
  · rw [if_pos hc] at hx; cases hx
  rw [if_neg hc] at hx
  obtain ⟨st', hst', hx⟩ := Option.bind_eq_some_iff.mp hx
  by_cases hc' : st'.iter.status ≠ .CONVERGED
  · rw [if_pos hc'] at hx; cases hx
  rw [not_not] at hc hc'
  constructor
  · rintro t ht ⟨k, hk⟩
    obtain ⟨o, ho, hfail⟩ := first_fails (G := G) (H := H) (c := c) (p := p) (mag := mag) (vol := fun r => vols.getD r noVol)
      (surf := fun r => surfs.getD r noSurf) h.problem.valid h.problem.validT itS
      (fun i => if h : i < nod then (st.x ⟨i, h⟩).val else 0) s
    rw [hst'] at ho
    injection ho with ho
    subst ho
    refine ⟨fun h0 => ?_, fun hm h0 => ?_⟩
    · have := hfail t ht k 0 0 hk (spinMat_lsf h0 0 k)
      rw [hc'] at this; cases this
    · have := hfail t ht k 1 2 hk (by rw [hm]; exact spinMat_lsd h0 k)
      rw [hc'] at this; cases this
  · intro i hi hfree
    by_cases hcond : ∃ t ∈ tets, (∃ k, t.ind k = i) ∧ (vols.getD t.reg noVol).sigma ≠ 0
    · exact Or.inl hcond
    · obtain ⟨tol, ht, htol⟩ := h.tol
      obtain ⟨o, ho, hfail⟩ := pot_fails h.problem itV tol ht htol (fun r => surfs.getD r noSurf) h.inf i hi hfree (fun t ht hk => by
        by_contra hne
        exact hcond ⟨t, ht, hk, hne⟩)
      rw [hst] at ho
      injection ho with ho
      subst ho
      exact Or.inr (hfail hc)

/-- **C110** (result) The first spin accumulation is the solution, by the solver, of the assembled diffusion equations for the potential
computed before, if all the constants are there; both solvers have reported convergence. -/
theorem C110_result (s : MagState) {x : Vec (3 * nod)}
    (hx : start itV itS G H c nod p mag vols surfs tets tris s = some (.ready x))
    (hc : ∀ t ∈ tets, Complete c (vols.getD t.reg noVol) (t.isMagnetic mag)) :
    ∃ (V : Fin nod → ℝ) (st : CState nod) (sys : SpinSys) (st' : BState (3 * nod)),
      potSolve itV G H nod p (fun r => (vols.getD r noVol).sigma) (fun r => surfs.getD r noSurf) tets tris = some st ∧
      st.iter.status = .CONVERGED ∧ (∀ i, V i = (st.x i).val) ∧
      (SpinSys.new nod tets).assemble G H c p mag (fun r => vols.getD r noVol) (fun r => surfs.getD r noSurf) (Llg.ext V) tets tris s =
        some sys ∧
      sys.solve itS c nod (fun r => surfs.getD r noSurf) tris = some st' ∧ st'.iter.status = .CONVERGED ∧ st'.x = x := by
  unfold start at hx
  dsimp only at hx
  by_cases hS : checkS vols surfs = false
  · rw [if_pos hS] at hx; cases hx
  rw [if_neg hS] at hx
  by_cases hV : checkV surfs = false
  · rw [if_pos hV] at hx; cases hx
  rw [if_neg hV] at hx
  obtain ⟨st, hst, hx⟩ := Option.bind_eq_some_iff.mp hx
  by_cases h1 : st.iter.status ≠ .CONVERGED
  · rw [if_pos h1] at hx; cases hx
  rw [if_neg h1] at hx
  obtain ⟨st', hst', hx⟩ := Option.bind_eq_some_iff.mp hx
  by_cases h2 : st'.iter.status ≠ .CONVERGED
  · rw [if_pos h2] at hx; cases hx
  rw [if_neg h2] at hx
  rw [C110_numbers itS _ s hc] at hst'
  obtain ⟨sys, hsys, hsol⟩ := Option.bind_eq_some_iff.mp hst'
  injection hx with hx
  injection hx with hx
  exact ⟨fun i => (st.x i).val, st, sys, st', hst, not_not.mp h1, fun _ => rfl, hsys, hsol, not_not.mp h2, hx⟩

/-- a parameter of the volume regions as the solver sees it (`paramTet` is `mySettings.paramTetra`, spinAccumulationSolver.cpp:12) -/
noncomputable def volPrm (q : Settings.TetraPrm Fl) : VolPrm where
  regName := String.ofList q.regName
  Ms := q.Ms.val
  sigma := q.sigma.val
  N0 := q.N0
  P := q.P
  lsd := q.lsd.val
  lsf := q.lsf.val

/-- **C110** (constants not given) Of a volume region, let the first settings file that names it not give one of the constants. The
program ends with status 1 before the first time step: without density of states; without spin diffusion length if an element of the
region has a node on no contact; without length of the s-d coupling if such an element is magnetic; without conductivity if the
elements of some node without prescribed potential are all of that region, unless there was nothing to compute. -/
theorem C110_default (C : Settings.Conv Fl) (hzero : C.toD "0".toList = some (.fin 0)) (b sets : Settings.All Fl)
    (hb : Settings.read C (Settings.start C) Settings.defaults = some b) (files : List (Option Settings.Yaml))
    (hfiles : Settings.readFiles C b files = some sets) (name : Text.Str) (hname : name ≠ "__default__".toList) (node : Settings.Yaml)
    (hf : Settings.FirstSaid "volume_regions".toList name files node) (q : Settings.TetraPrm Fl)
    (hq : Settings.findTetra name sets.mesh.tetra = some q) (r : ℕ) (hr : vols[r]? = some (volPrm q))
    (h : Input itV G H nod p vols surfs tets tris) (s : MagState) :
    (Settings.textAt node "dens_state".toList = none →
      start itV itS G H c nod p mag vols surfs tets tris s = some (.exit 1)) ∧
    (Settings.textAt node "l_sf".toList = none →
      (∃ t ∈ tets, t.reg = r ∧ ∃ k, SpinFree (fun r => surfs.getD r noSurf) tris (t.ind k)) →
      start itV itS G H c nod p mag vols surfs tets tris s = some (.exit 1)) ∧
    (Settings.textAt node "l_sd".toList = none →
      (∃ t ∈ tets, t.reg = r ∧ t.isMagnetic mag = true ∧ ∃ k, SpinFree (fun r => surfs.getD r noSurf) tris (t.ind k)) →
      start itV itS G H c nod p mag vols surfs tets tris s = some (.exit 1)) ∧
    (Settings.textAt node "sigma".toList = none →
      (∃ i, i < nod ∧ ¬ OnPotential (fun r => surfs.getD r noSurf) tris i ∧ ∀ t ∈ tets, (∃ k, t.ind k = i) → t.reg = r) →
      start itV itS G H c nod p mag vols surfs tets tris s = some (.exit 1) ∨
      ∃ V, AtContactsOnly (fun r => surfs.getD r noSurf) tris nod V ∧ WeakPotential p (fun r => (vols.getD r noVol).sigma)
        (fun r => currentDensity (surfs.getD r noSurf)) tets tris (OnPotential (fun r => surfs.getD r noSurf) tris) V) := by
  obtain ⟨d, q', doc, hq', ov⟩ := Settings.C106_volume C b sets hb files hfiles name hname node hf
  rw [hq] at hq'
  injection hq' with hq'
  subst hq'
  have hget : vols.getD r noVol = volPrm q := by
    rw [List.getD_eq_getElem?_getD, hr, Option.getD_some]
  have hfin : ∀ {y : Fl}, C.toD "0".toList = some y → y = .fin 0 := fun hy => by
    rw [hzero] at hy
    exact (Option.some.inj hy).symm
  rcases C110_outcomes (itS := itS) (c := c) (mag := mag) h s with he | ⟨x, hx⟩
  · exact ⟨fun _ => he, fun _ _ => he, fun _ _ => he, fun _ _ => Or.inl he⟩
  obtain ⟨h1, h2, h3⟩ := C110_complete h s hx
  refine ⟨fun hn => ?_, ?_, ?_, ?_⟩
  · have e := ov.N0
    rw [hn] at e
    have e : q.N0 = d.N0 := Option.some.inj e
    have hm : volPrm q ∈ vols := List.mem_of_getElem? hr
    have hne : (volPrm q).regName ≠ "__default__" := by
      intro hc
      apply hname
      rw [← ov.name]
      have := congrArg String.toList hc
      rwa [show (volPrm q).regName = String.ofList q.regName from rfl, String.toList_ofList] at this
    refine absurd ?_ (h1 _ hm hne).1.2
    show q.N0.val = 0
    rw [e, hfin doc.N0]
    rfl
  · rintro hn ⟨t, ht, rfl, hk⟩
    have e := ov.lsf
    rw [hn] at e
    have e : q.lsf = d.lsf := Option.some.inj e
    refine absurd ?_ (h2 t ht hk).1
    rw [hget]
    show q.lsf.val = 0
    rw [e, hfin doc.lsf]
    rfl
  · rintro hn ⟨t, ht, rfl, hm, hk⟩
    have e := ov.lsd
    rw [hn] at e
    have e : q.lsd = d.lsd := Option.some.inj e
    refine absurd ?_ ((h2 t ht hk).2 hm)
    rw [hget]
    show q.lsd.val = 0
    rw [e, hfin doc.lsd]
    rfl
  · rintro hn ⟨i, hi, hfree, hall⟩
    have e := ov.sigma
    rw [hn] at e
    have e : q.sigma = d.sigma := Option.some.inj e
    rcases h3 i hi hfree with ⟨t, ht, hk, hne⟩ | hV
    · refine absurd ?_ hne
      rw [hall t ht hk, hget]
      show q.sigma.val = 0
      rw [e, hfin doc.sigma]
      rfl
    · exact Or.inr hV

end

/-! ## Nothing prescribed but zeros -/

theorem finished_zero {it : Iter} {tol : ℝ} (hr : it.rhsn = .fin 0) (ht : it.resmax = .fin tol) :
    (it.finished (.fin 0)).1 = true ∧ (it.finished (.fin 0)).2.status = .CONVERGED := by
  have hle : (Fl.fin 0).abs.le (it.rhsn * it.resmax) := by
    rw [hr, ht, Fl.fin_mul, zero_mul]
    show |(0 : ℝ)| ≤ 0
    simp
  rcases (finished_spec it (.fin 0)).cases with ⟨h, -⟩ | h | ⟨-, h, -⟩
  · cases h
  · exact h.2
  · exact absurd hle h

theorem sub_zeros {n : ℕ} : sub (fun _ : Fin n => (0 : Fl)) (fun _ => 0) = fun _ => 0 := by
  funext k
  show (Fl.fin 0) - (Fl.fin 0) = Fl.fin 0
  rw [Fl.fin_sub, sub_zero]

theorem mask_zeros {n : ℕ} (ld : List (Fin n)) : applyMask ld (fun _ => (0 : Fl)) = fun _ => 0 := by
  funext k
  unfold applyMask
  split <;> rfl

theorem norm_zeros {n : ℕ} : norm (fun _ : Fin n => (0 : Fl)) = .fin 0 := by
  refine (norm_lift (n := n) 0).trans ?_
  simp

/-- the product of a matrix of numbers with zeros -/
theorem mult_zeros {n : ℕ} {A : Mat n} (hA : ∀ i, ∀ e ∈ A i, e.2.IsFin) : mult A (fun _ => 0) = fun _ => 0 := by
  funext i
  unfold mult
  have := foldl_fin (fun e : Fin n × Fl => e.2 * 0) (fun _ => 0) (A i) (fun e he => by
    obtain ⟨y, hy⟩ := Fl.isFin_iff.mp (hA i e he)
    rw [hy]
    show Fl.fin y * Fl.fin 0 = _
    rw [Fl.fin_mul, mul_zero]) 0
  refine this.trans ?_
  simp only [List.map_const', List.sum_replicate, smul_zero, add_zero]
  rfl

theorem cg_zeros {n : ℕ} {A : Mat n} (hA : ∀ i, ∀ e ∈ A i, e.2.IsFin) (it : Iter) {tol : ℝ} (ht : it.resmax = .fin tol)
    (ld : List (Fin n)) : ∃ st, cgDir it.reset A (fun _ => 0) (fun _ => 0) (fun _ => 0) ld = some st ∧
      st.iter.status = .CONVERGED ∧ st.x = fun _ => 0 := by
  unfold cgDir
  dsimp only
  rw [mult_zeros hA, sub_zeros, mask_zeros]
  set D := applyMask ld (diagPrecond A)
  have hr : (cgInit it.reset A D ld (fun _ => 0) (fun _ => 0)).r = fun _ => 0 := by
    show applyMask ld (sub (mult A _) _) = _
    rw [mult_zeros hA, sub_zeros, mask_zeros]
  obtain ⟨h1, h2⟩ := finished_zero (it := (cgInit it.reset A D ld (fun _ => 0) (fun _ => 0)).iter) (tol := tol) norm_zeros ht
  have hb : cgBody A D ld (cgInit it.reset A D ld (fun _ => 0) (fun _ => 0)) =
      (true, { cgInit it.reset A D ld (fun _ => 0) (fun _ => 0) with
        iter := ((cgInit it.reset A D ld (fun _ => 0) (fun _ => 0)).iter.finished (.fin 0)).2 }) := by
    unfold cgBody
    dsimp only
    rw [hr, norm_zeros, if_pos (Or.inl h1)]
  have hl : loop (cgBody A D ld) (fuel it.reset) (cgInit it.reset A D ld (fun _ => 0) (fun _ => 0)) = some { cgInit it.reset A D ld (fun _ => 0) (fun _ => 0) with
      iter := ((cgInit it.reset A D ld (fun _ => 0) (fun _ => 0)).iter.finished (.fin 0)).2 } := by
    show loop _ (_ + 1) _ = _
    unfold loop
    dsimp only
    rw [hb]
    exact if_pos rfl
  refine ⟨_, congrArg (Option.map _) hl, h2, ?_⟩
  · funext k
    show (Fl.fin 0) + (Fl.fin 0) = Fl.fin 0
    rw [Fl.fin_add, add_zero]

theorem bicg_zeros {n : ℕ} {A : Mat n} (hA : ∀ i, ∀ e ∈ A i, e.2.IsFin) (it : Iter) {tol : ℝ} (ht : it.resmax = .fin tol)
    (ld : List (Fin n)) : ∃ st, bicgDir it.reset A (fun _ => 0) (fun _ => 0) (fun _ => 0) ld = some st ∧
      st.iter.status = .CONVERGED ∧ st.x = fun _ => 0 := by
  unfold bicgDir
  dsimp only
  rw [mult_zeros hA, sub_zeros, mask_zeros]
  set D := applyMask ld (diagPrecond A)
  have hr : (bicgInit it.reset A ld (fun _ => 0) (fun _ => 0)).r = fun _ => 0 := by
    show applyMask ld (sub (mult A _) _) = _
    rw [mult_zeros hA, sub_zeros, mask_zeros]
  obtain ⟨h1, h2⟩ := finished_zero (it := (bicgInit it.reset A ld (fun _ => 0) (fun _ => 0)).iter) (tol := tol) norm_zeros ht
  have hb : bicgBody A D ld (bicgInit it.reset A ld (fun _ => 0) (fun _ => 0)) =
      (true, { bicgInit it.reset A ld (fun _ => 0) (fun _ => 0) with
        iter := ((bicgInit it.reset A ld (fun _ => 0) (fun _ => 0)).iter.finished (.fin 0)).2 }) := by
    unfold bicgBody
    dsimp only
    rw [hr, norm_zeros, if_pos h1]
  have hl : loop (bicgBody A D ld) (fuel it.reset) (bicgInit it.reset A ld (fun _ => 0) (fun _ => 0)) = some { bicgInit it.reset A ld (fun _ => 0) (fun _ => 0) with
      iter := ((bicgInit it.reset A ld (fun _ => 0) (fun _ => 0)).iter.finished (.fin 0)).2 } := by
    show loop _ (_ + 1) _ = _
    unfold loop
    dsimp only
    rw [hb]
    exact if_pos rfl
  refine ⟨_, congrArg (Option.map _) hl, h2, ?_⟩
  · funext k
    show (Fl.fin 0) + (Fl.fin 0) = Fl.fin 0
    rw [Fl.fin_add, add_zero]

/-- the entries of a matrix of numbers -/
theorem rowsOf_fin (n : ℕ) (m : Sp ℝ) (i : Fin n) : ∀ e ∈ rowsOf n (liftSp m) i, e.2.IsFin := by
  intro e he
  unfold rowsOf liftSp at he
  rw [List.getElem?_map] at he
  cases hm : m.rows[(i : ℕ)]? with
  | none => rw [hm] at he; cases he
  | some r =>
    rw [hm] at he
    obtain ⟨a, ha, hae⟩ := List.mem_filterMap.mp he
    have := (List.of_mem_zip ha).2
    obtain ⟨y, -, hy⟩ := List.mem_map.mp this
    split_ifs at hae
    injection hae with hae
    rw [← hae]
    show a.2.IsFin
    rw [← hy]
    trivial

theorem contribution_zero {N : ℕ} (D r : ℕ) (e : Elem N ℝ) (h : ∀ k, e.Le k = 0) : e.rhsContribution D r = 0 := by
  unfold Elem.rhsContribution
  refine Finset.sum_eq_zero fun _ _ => Finset.sum_eq_zero fun _ _ => ?_
  split_ifs
  · exact h _
  · rfl

/-- a surface where nothing is prescribed but zeros -/
structure Quiet (m : SurfPrm) : Prop where
  V : m.V = .nan ∨ m.V = .fin 0
  jn : m.jn = .nan ∨ m.jn = .fin 0 ∧ ∀ a, (m.uP a).IsFin
  s : (∀ a, m.s a = .nan) ∨ ∀ a, m.s a = .fin 0

theorem Quiet.current {m : SurfPrm} (h : Quiet m) : currentDensity m = 0 := by
  unfold currentDensity
  rcases h.jn with e | ⟨e, -⟩ <;> rw [e]
  · exact if_neg id
  · exact if_pos trivial

theorem Quiet.drive {m : SurfPrm} (h : Quiet m) (x : ℝ) (hj : m.jn.IsFin) (a : Fin 3) : (-m.jn) * .fin x * m.uP a = .fin 0 := by
  rcases h.jn with e | ⟨e, hu⟩
  · rw [e] at hj; cases hj
  · obtain ⟨y, hy⟩ := Fl.isFin_iff.mp (hu a)
    rw [e, hy]
    show (Fl.fin (-0)) * _ * _ = _
    rw [Fl.fin_mul, Fl.fin_mul]
    simp

theorem Quiet.value {m : SurfPrm} (h : Quiet m) (c : Consts) {w : Fin 3 → Fl} (hw : spinValue c m = some w) (a : Fin 3) :
    w a = .fin 0 := by
  unfold spinValue at hw
  split_ifs at hw with h1 h2
  · injection hw with hw
    rw [← hw]
    exact h.drive _ h1.2 a
  · injection hw with hw
    rw [← hw]
    rcases h.s with hs | hs
    · rw [norm3_nan hs] at h2
      exact absurd h2.1 id
    · exact hs a

theorem Quiet.source {m : SurfPrm} (h : Quiet m) (H : TriElem.Rule) (c : Consts) (p : Fin 3 → V3) (r : Fin 3 × Fin 3) :
    spinTriVec H c m p r = 0 := by
  unfold spinTriVec
  split_ifs with hf
  · refine Finset.sum_eq_zero fun j _ => ?_
    have : (surfValue c m r.1).val = 0 := by
      unfold surfValue
      unfold surfValue at hf
      split_ifs at hf ⊢ with h1
      · exact congrArg Fl.val (h.drive _ h1.1 r.1)
      · rcases h.s with hs | hs
        · rw [norm3_nan hs] at hf
          exact absurd hf id
        · rw [hs]; rfl
    rw [this]
    ring
  · rfl

theorem gradV_zeros (p : Fin 4 → V3) : Tetra.gradV p (fun _ => 0) = 0 := by
  unfold Tetra.gradV
  refine Finset.sum_eq_zero fun i _ => ?_
  ext <;> simp

section
variable {itV itS : Iter} {G : Tetra.Rule} {H : TriElem.Rule} {c : Consts} {nod : ℕ} {p : ℕ → V3} {mag : ℕ → Bool}
  {vols : List VolPrm} {surfs : List SurfPrm} {tets : List Tet} {tris : List Tri}

theorem pot_quiet (h : Input itV G H nod p vols surfs tets tris) (hq : ∀ f ∈ tris, Quiet (surfs.getD f.reg noSurf)) :
    ∃ st, potSolve itV G H nod p (fun r => (vols.getD r noVol).sigma) (fun r => surfs.getD r noSurf) tets tris = some st ∧
      st.iter.status = .CONVERGED ∧ st.x = fun _ => 0 := by
  obtain ⟨A, xd, ld, hA, -, -, hval, hrun⟩ := potSolve_eq h.problem itV (fun r => surfs.getD r noSurf) h.inf
  obtain ⟨tol, ht, -⟩ := h.tol
  have hxd : lift xd = fun _ => 0 := by
    funext i
    show Fl.fin (xd i) = Fl.fin 0
    congr 1
    rcases hval i with ⟨h0, -⟩ | ⟨f, hf, -, e⟩
    · exact h0
    · rcases (hq f hf).V with e' | e'
      · rw [e'] at e; cases e
      · rw [e'] at e
        injection e with e
        exact e.symm
  have hrhs : (lift fun i : Fin nod => potRhs H p (fun r => surfs.getD r noSurf) tris i) = fun _ => 0 := by
    funext i
    show Fl.fin _ = Fl.fin 0
    congr 1
    unfold potRhs
    refine List.sum_eq_zero fun x hx => ?_
    obtain ⟨f, hf, rfl⟩ := List.mem_map.mp hx
    refine contribution_zero _ _ _ fun k => ?_
    show potVec H (currentDensity _) _ _ = 0
    rw [(hq f hf).current]
    unfold potVec
    exact Finset.sum_eq_zero fun _ _ => by ring
  rw [hrun, hxd, hrhs]
  exact cg_zeros (fun i e he => by
    rw [hA.stored i e.1 e.2 he]
    trivial) itV ht ld

/-- **C110** (nothing driven) With all constants there, and with nothing prescribed but zeros, the time integration starts from a spin
accumulation of zero. -/
theorem C110_quiet (h : Input itV G H nod p vols surfs tets tris) (s : MagState)
    (hS : checkS vols surfs = true) (hV : checkV surfs = true) (hc : ∀ t ∈ tets, Complete c (vols.getD t.reg noVol) (t.isMagnetic mag))
    (hq : ∀ f ∈ tris, Quiet (surfs.getD f.reg noSurf)) {tol : ℝ} (ht : itS.resmax = .fin tol) :
    start itV itS G H c nod p mag vols surfs tets tris s = some (.ready fun _ => 0) := by
  obtain ⟨st, h1, h2, h3⟩ := pot_quiet h hq
  have hVz : (fun i => if h : i < nod then (st.x ⟨i, h⟩).val else 0) = fun _ => (0 : ℝ) := by
    funext i
    split_ifs with hi
    · rw [h3]; rfl
    · rfl
  obtain ⟨K, hK, -, -⟩ := full_matrix 3 nod tets h.problem.valid [Electro.spinTet G c p mag (fun r => vols.getD r noVol) (fun _ => 0) s]
    (fun el hel t => by rw [List.mem_singleton] at hel; rw [hel]; rfl)
  obtain ⟨L1, hL1, hl1, hg1⟩ := vect_run 3 nod (tets.map (Electro.spinTet G c p mag (fun r => vols.getD r noVol) (fun _ => 0) s)) (by
    intro e he k
    obtain ⟨t, ht, rfl⟩ := List.mem_map.mp he
    exact h.problem.valid t ht k) (List.replicate (3 * nod) (0 : ℝ)) (by simp)
  obtain ⟨L, hL, hl, hg⟩ := vect_run 3 nod (tris.map (spinTri H c p fun r => surfs.getD r noSurf)) (by
    intro e he k
    obtain ⟨f, hf, rfl⟩ := List.mem_map.mp he
    exact h.problem.validT f hf k) L1 hl1
  have hLz : vecOf (3 * nod) (L.map .fin) = fun _ => 0 := by
    funext i
    have hi : (i : ℕ) < L.length := by rw [hl]; exact i.2
    have e2 := hg i i.2
    rw [hg1 i i.2, List.map_map, List.map_map] at e2
    unfold vecOf
    rw [List.getD_eq_getElem?_getD, List.getElem?_map, List.getElem?_eq_getElem hi, Option.map_some, Option.getD_some]
    show Fl.fin _ = Fl.fin 0
    congr 1
    rw [List.getD_eq_getElem?_getD, List.getElem?_eq_getElem hi, Option.getD_some] at e2
    rw [e2]
    have hz : (List.replicate (3 * nod) (0 : ℝ)).getD i 0 = 0 := by
      simp [List.getD_eq_getElem?_getD]
    rw [hz, List.sum_eq_zero, List.sum_eq_zero]
    · simp
    · intro x hx
      obtain ⟨f, hf, rfl⟩ := List.mem_map.mp hx
      exact contribution_zero _ _ _ fun k => (hq f hf).source _ _ _ _
    · intro x hx
      obtain ⟨t, ht, rfl⟩ := List.mem_map.mp hx
      refine contribution_zero _ _ _ fun k => ?_
      show spinVec _ _ _ _ _ _ (fun _ => 0) _ = 0
      unfold spinVec
      split_ifs
      · refine Finset.sum_eq_zero fun j _ => ?_
        rw [gradV_zeros]
        simp [V3.dot]
      · rfl
  have hxz : vecOf (3 * nod) (spinDirichlet c nod (fun r => surfs.getD r noSurf) tris).1 = fun _ => 0 := by
    funext i
    obtain ⟨-, -, h3⟩ := writes_spec (0 : Fl)
      (tris.flatMap fun f => ((spinValue c (surfs.getD f.reg noSurf)).elim [] (triWrites f))) (List.replicate (3 * nod) 0, [])
    rw [← spinDirichlet_writes c nod (fun r => surfs.getD r noSurf) tris] at h3
    rcases h3 i (by show (i : ℕ) < (List.replicate (3 * nod) (0 : Fl)).length; rw [List.length_replicate]; exact i.2) with
      ⟨-, h5⟩ | ⟨v, h4, h5⟩
    · refine Eq.trans h5 ?_
      show (List.replicate (3 * nod) (0 : Fl)).getD i 0 = 0
      rw [List.getD_eq_getElem?_getD, List.getElem?_replicate]
      split_ifs <;> rfl
    · refine Eq.trans h5 ?_
      obtain ⟨f, hf, hm⟩ := List.mem_flatMap.mp h4
      cases hv : spinValue c (surfs.getD f.reg noSurf) with
      | none => rw [hv] at hm; cases hm
      | some w =>
        rw [hv] at hm
        obtain ⟨l, a, -, e⟩ := mem_triWrites.mp hm
        rw [e, (hq f hf).value c hv a]
        rfl
  obtain ⟨st', h4, h5, h6⟩ := bicg_zeros (rowsOf_fin (3 * nod) K) itS ht
    (idxOf (3 * nod) (suppressCopies (spinDirichlet c nod (fun r => surfs.getD r noSurf) tris).2))
  unfold start
  dsimp only
  rw [if_neg (by rw [hS]; decide), if_neg (by rw [hV]; decide), h1, Option.bind_some, if_neg (not_not.mpr h2), hVz,
    C110_numbers itS _ s hc]
  have hasm : (SpinSys.new nod tets).assemble G H c p mag (fun r => vols.getD r noVol) (fun r => surfs.getD r noSurf) (fun _ => 0) tets
      tris s = some ⟨K, L⟩ := by
    unfold SpinSys.assemble SpinSys.new
    dsimp only
    have hK' : (ofShape (fullShape 3 nod tets) : Sp ℝ).run
        (fullOps 3 (tets.map (Electro.spinTet G c p mag (fun r => vols.getD r noVol) (fun _ => 0) s))) = some K := by
      rw [← hK]
      simp [elems]
    rw [hK']
    show (runVect _ _).bind _ = _
    rw [hL1]
    show (runVect _ _).bind _ = _
    rw [hL]
    rfl
  have hsol : SpinSys.solve itS c nod (fun r => surfs.getD r noSurf) tris ⟨K, L⟩ = some st' := by
    unfold SpinSys.solve
    dsimp only
    rw [hLz, hxz]
    exact h4
  rw [hasm, Option.bind_some, hsol, Option.bind_some, if_neg (not_not.mpr h5), h6]

end

/-! ## Cases that meet the hypotheses -/

/-- five nodes -/
def exNodes : ℕ → V3
  | 0 => ⟨0, 0, 0⟩
  | 1 => ⟨1, 0, 0⟩
  | 2 => ⟨0, 1, 0⟩
  | 3 => ⟨0, 0, 1⟩
  | _ => ⟨1, 1, 1⟩

/-- two tetrahedrons -/
def exTwo : List Tet := [⟨![0, 1, 2, 3], 1⟩, ⟨![1, 2, 3, 4], 1⟩]

/-- two contacts; the node 3 is on none -/
def exContacts : List Tri := [⟨![0, 1, 2], 1⟩, ⟨![1, 2, 4], 2⟩]

/-- the default volume region, and a magnetic material with the given lengths -/
noncomputable def exVols (lsd lsf : ℝ) : List VolPrm :=
  [⟨"__default__", 1, 0, .fin 0, .fin 0, 0, 0⟩, ⟨"a", 1, 1, .fin 1, .fin (1 / 2), lsd, lsf⟩]

/-- a contact with the given current, a contact with a potential and a spin vector -/
noncomputable def exSurfs (jn : ℝ) : List SurfPrm :=
  [⟨"__default__", .nan, .nan, fun _ => .nan, fun _ => .nan⟩, ⟨"left", .fin jn, .nan, fun _ => .fin 1, fun _ => .nan⟩,
   ⟨"right", .nan, .fin 0, fun _ => .nan, fun _ => .fin 0⟩]

theorem ex_input (lsd lsf jn : ℝ) :
    Input (Iter.mk' (.fin (1 / 100000000)) false 1000) Tetra.rule5 TriElem.rule4 5 exNodes (exVols lsd lsf) (exSurfs jn) exTwo
      exContacts where
  problem := {
    rule := Or.inr rfl
    ruleT := Or.inr rfl
    valid := by
      intro t ht k
      simp only [exTwo, List.mem_cons, List.not_mem_nil, or_false] at ht
      rcases ht with rfl | rfl <;> fin_cases k <;> decide
    validT := by
      intro f hf k
      simp only [exContacts, List.mem_cons, List.not_mem_nil, or_false] at hf
      rcases hf with rfl | rfl <;> fin_cases k <;> decide
    oriented := by
      intro t ht
      simp only [exTwo, List.mem_cons, List.not_mem_nil, or_false] at ht
      rcases ht with rfl | rfl <;>
        simp [Tetra.detJ, Tetra.jac, MeshElem.nod4, exNodes, Matrix.det_fin_three]
    cond := by
      intro t ht
      simp only [exTwo, List.mem_cons, List.not_mem_nil, or_false] at ht
      rcases ht with rfl | rfl <;> exact zero_le_one }
  reg := by
    intro t ht
    simp only [exTwo, List.mem_cons, List.not_mem_nil, or_false] at ht
    rcases ht with rfl | rfl <;> show 1 < 2 <;> norm_num
  regT := by
    intro f hf
    simp only [exContacts, List.mem_cons, List.not_mem_nil, or_false] at hf
    rcases hf with rfl | rfl
    · show 1 < 3; norm_num
    · show 2 < 3; norm_num
  noInf := by
    intro q hq
    simp only [exSurfs, List.mem_cons, List.not_mem_nil, or_false] at hq
    rcases hq with rfl | rfl | rfl
    · exact Or.inl trivial
    · exact Or.inl trivial
    · exact Or.inr trivial
  default := ⟨[], _, [_], rfl, rfl, fun b hb => by
    simp at hb
    rw [hb]
    show ¬ "a" = "__default__"
    decide⟩
  tol := ⟨1 / 100000000, rfl, by norm_num⟩

theorem ex_free (jn : ℝ) : SpinFree (fun r => (exSurfs jn).getD r noSurf) exContacts 3 := by
  rintro g hg ⟨l, hl⟩
  simp only [exContacts, List.mem_cons, List.not_mem_nil, or_false] at hg
  rcases hg with rfl | rfl <;> fin_cases l <;> cases hl

/-- the time integration starts -/
example (s : MagState) :
    start (Iter.mk' (.fin (1 / 100000000)) false 1000) (Iter.mk' (.fin (1 / 1000000)) false 700) Tetra.rule5 TriElem.rule4 ⟨1, 1⟩ 5
      exNodes (fun _ => true) (exVols 1 1) (exSurfs 0) exTwo exContacts s = some (.ready fun _ => 0) := by
  refine C110_quiet (ex_input 1 1 0) s ?_ ?_ ?_ ?_ rfl
  · rw [C57_start_spin _ _ (ex_input 1 1 0).default]
    refine ⟨⟨[_], _, [_], rfl, ⟨by decide, trivial⟩, ?_⟩, ⟨[_, _], _, [], rfl, ⟨by decide, ?_⟩, ?_⟩, ?_, ?_⟩
    · intro b hb
      simp at hb
      rcases hb with rfl | rfl <;> exact fun h => h.2
    · show Fl.IsFin (norm3 fun _ => .fin 0)
      unfold norm3
      simp [Fl.fin_mul, Fl.fin_add, Fl.sqrt, Fl.IsFin]
    · intro b hb
      simp at hb
      rcases hb with rfl | rfl <;> exact fun h => Eq.mp (congrArg Fl.IsFin (norm3_nan fun _ => rfl)) h.2
    · intro m hm hd
      simp only [exVols, List.mem_cons, List.not_mem_nil, or_false] at hm
      rcases hm with rfl | rfl
      · exact absurd rfl hd
      · exact ⟨trivial, one_ne_zero⟩
    · intro m hm hd
      simp only [exVols, List.mem_cons, List.not_mem_nil, or_false] at hm
      rcases hm with rfl | rfl
      · exact absurd rfl hd
      · refine ⟨trivial, ?_, ?_⟩
        · show (0 : ℝ) ≤ 1 / 2
          norm_num
        · show (1 / 2 : ℝ) < 1
          norm_num
  · rw [C57_start_potential]
    refine ⟨⟨[_], _, [_], rfl, trivial, ?_⟩, ⟨[_, _], _, [], rfl, trivial, ?_⟩⟩
    · intro b hb
      simp at hb
      rcases hb with rfl | rfl <;> exact id
    · intro b hb
      simp at hb
      rcases hb with rfl | rfl <;> exact id
  · intro t ht
    simp only [exTwo, List.mem_cons, List.not_mem_nil, or_false] at ht
    rcases ht with rfl | rfl <;> exact ⟨one_ne_zero, trivial, one_ne_zero, one_ne_zero, fun _ => one_ne_zero⟩
  · intro f hf
    simp only [exContacts, List.mem_cons, List.not_mem_nil, or_false] at hf
    rcases hf with rfl | rfl
    · exact ⟨Or.inl rfl, Or.inr ⟨rfl, fun _ => trivial⟩, Or.inl fun _ => rfl⟩
    · exact ⟨Or.inr rfl, Or.inl rfl, Or.inr fun _ => rfl⟩

/-- without a spin diffusion length it does not, whatever the current -/
example (jn : ℝ) (s : MagState) :
    start (Iter.mk' (.fin (1 / 100000000)) false 1000) (Iter.mk' (.fin (1 / 1000000)) false 700) Tetra.rule5 TriElem.rule4 ⟨1, 1⟩ 5
      exNodes (fun _ => true) (exVols 1 0) (exSurfs jn) exTwo exContacts s = some (.exit 1) := by
  rcases C110_outcomes (ex_input 1 0 jn) s with h | ⟨x, h⟩
  · exact h
  · exact absurd rfl ((C110_complete (ex_input 1 0 jn) s h).2.1 _ List.mem_cons_self ⟨3, ex_free jn⟩).1

/-- every text is the number zero -/
noncomputable def zeroConv : Settings.Conv Fl := { oneConv with toD := fun _ => some (.fin 0) }

/-- a volume region of which only the conductivity is given -/
def onlySigma : Settings.Yaml := .map [("sigma".toList, .scalar "1".toList)]

/-- a file with that region -/
def volFile : Settings.Yaml :=
  .map [("mesh".toList, .map [("volume_regions".toList, .map [("a".toList, onlySigma)])])]

/-- the hypotheses of `C110_default` about the settings -/
example : ∃ (b s : Settings.All Fl) (q : Settings.TetraPrm Fl),
    Settings.read zeroConv (Settings.start zeroConv) Settings.defaults = some b ∧
    Settings.readFiles zeroConv b [some volFile] = some s ∧ Settings.findTetra "a".toList s.mesh.tetra = some q ∧
    Settings.FirstSaid "volume_regions".toList "a".toList [some volFile] onlySigma ∧
    Settings.textAt onlySigma "l_sf".toList = none ∧ Settings.textAt onlySigma "dens_state".toList = none := by
  refine ⟨_, _, _, rfl, rfl, rfl, ?_, Settings.textAt_eq (n := none) rfl, Settings.textAt_eq (n := none) rfl⟩
  have : Settings.regionIn "volume_regions".toList "a".toList (some volFile) = some onlySigma := by
    show volFile.at _ = _
    rw [Settings.at_cons, Settings.get_at (show volFile.get "mesh".toList = some (some _) from rfl)]
    show Settings.Yaml.at _ _ = _
    rw [Settings.at_cons, Settings.get_at (show Settings.Yaml.get "volume_regions".toList _ = some (some _) from rfl)]
    show Settings.Yaml.at _ _ = _
    exact Settings.get_at rfl
  unfold Settings.FirstSaid
  rw [List.filterMap_cons, this]
  rfl

end Verif.SpinStart
