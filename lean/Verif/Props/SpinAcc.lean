import Verif.Proofs.SpinAcc
import Verif.Props.ElectroSolve

/-!
# C45, C57, C60: the spin diffusion system
-/

namespace Verif.Electro

open Verif.Mesh Verif.Assembly Verif.SparseMat Verif.Llg Verif.Krylov

/-- what is assumed of the mesh: as in `Problem` -/
structure SpinProblem (G : Tetra.Rule) (H : TriElem.Rule) (nod : ℕ) (d : SpinData) : Prop where
  rule : Tetra.Compiled G
  ruleT : H = TriElem.rule1 ∨ H = TriElem.rule4
  valid : IndicesValid nod d.tets
  validT : ∀ f ∈ d.tris, ∀ k, f.ind k < nod
  oriented : ∀ t ∈ d.tets, 0 < Tetra.detJ (MeshElem.nod4 d.p t)

section
variable {G : Tetra.Rule} {H : TriElem.Rule} {nod : ℕ} {d : SpinData}

theorem SpinProblem.okT (h : SpinProblem G H nod d) : H.Ok := by
  rcases h.ruleT with rfl | rfl
  · exact TriElem.rule1_ok
  · exact TriElem.rule4_ok

/-- coefficients of the system of one computation -/
noncomputable def spinCoef (G : Tetra.Rule) (d : SpinData) (s : MagState) (r q : ℕ) : ℝ :=
  fullCoef 3 d.tets (spinTet G d.c d.p d.mag d.vol d.V s) r q

/-- right hand side of one computation -/
noncomputable def spinRhs (G : Tetra.Rule) (H : TriElem.Rule) (d : SpinData) (s : MagState) (r : ℕ) : ℝ :=
  (d.tets.map fun t => (spinTet G d.c d.p d.mag d.vol d.V s t).rhsContribution 3 r).sum +
  (d.tris.map fun f => (spinTri H d.c d.p d.surf f).rhsContribution 3 r).sum

theorem spinCoef_form (h : SpinProblem G H nod d) (s : MagState) (w x : ℕ → V3) :
    ∑ r ∈ Finset.range (3 * nod), ∑ q ∈ Finset.range (3 * nod), flat w r * spinCoef G d s r q * flat x q =
      (d.tets.map fun t =>
        diffusionCst d.c (d.vol t.reg) * (Tetra.detJ (MeshElem.nod4 d.p t) / 6) * (∑ a : Fin 3,
          (Tetra.gradV (MeshElem.nod4 d.p t) (comp4 w a t)).dot (Tetra.gradV (MeshElem.nod4 d.p t) (comp4 x a t)))
        + diffusionCst d.c (d.vol t.reg) / ((d.vol t.reg).lsf * (d.vol t.reg).lsf) *
          (Tetra.detJ (MeshElem.nod4 d.p t) / 6) * ((∑ i : Fin 4, (w (t.ind i)).dot (x (t.ind i))) / 4)
        + (if t.isMagnetic d.mag then diffusionCst d.c (d.vol t.reg) / ((d.vol t.reg).lsd * (d.vol t.reg).lsd) *
            (Tetra.detJ (MeshElem.nod4 d.p t) / 6) *
            ((∑ i : Fin 4, (w (t.ind i)).dot ((x (t.ind i)).cross (s.cur (t.ind i)))) / 4) else 0)).sum := by
  unfold spinCoef
  rw [full_form 3 nod d.tets h.valid (spinTet G d.c d.p d.mag d.vol d.V s) (fun _ => rfl)]
  congr 1
  refine List.map_congr_left fun t _ => ?_
  refine Eq.trans ?_ (spinMat_form G h.rule d.c (d.vol t.reg) (t.isMagnetic d.mag) (MeshElem.nod4 d.p t)
    (MeshElem.nod4 s.cur t) (fun i => w (t.ind i)) (fun i => x (t.ind i)))
  refine Finset.sum_congr rfl fun i _ => Finset.sum_congr rfl fun k _ =>
    Finset.sum_congr rfl fun a _ => Finset.sum_congr rfl fun b _ => ?_
  rw [flat_idx, flat_idx]
  show _ * spinMat G d.c _ _ _ _ (Fin.ofNat 3 (((a : ℕ) * 4 + i) / 4), Fin.ofNat 4 (((a : ℕ) * 4 + i) % 4))
    (Fin.ofNat 3 (((b : ℕ) * 4 + k) / 4), Fin.ofNat 4 (((b : ℕ) * 4 + k) % 4)) * _ = _
  rw [block_idx, block_idx]

theorem spinRhs_form (h : SpinProblem G H nod d) (s : MagState) (w : ℕ → V3) : open Classical in
    ∑ r ∈ Finset.range (3 * nod), flat w r * spinRhs G H d s r =
      (d.tets.map fun t => if t.isMagnetic d.mag then
        (d.c.mub * (d.vol t.reg).P.val * (d.vol t.reg).sigma / d.c.e) * (Tetra.detJ (MeshElem.nod4 d.p t) / 6) *
          ∑ i : Fin 4, (Tetra.gradV (MeshElem.nod4 d.p t) (MeshElem.nod4 d.V t)).dot (Tetra.daRow (MeshElem.nod4 d.p t) i)
            * (w (t.ind i)).dot (s.next (t.ind i)) else 0).sum
      - (d.tris.map fun f => if (norm3 (surfValue d.c (d.surf f.reg))).IsFin then
        TriElem.surf (MeshElem.nod3 d.p f) * ∑ a : Fin 3, (surfValue d.c (d.surf f.reg) a).val *
          (((w (f.ind 0)).comp a + (w (f.ind 1)).comp a + (w (f.ind 2)).comp a) / 3)
      else 0).sum := by
  classical
  unfold spinRhs
  simp only [mul_add, Finset.sum_add_distrib, ← List.sum_map_mul_left]
  rw [sum_list_comm, sum_list_comm, sub_eq_add_neg, ← sum_map_neg']
  congr 1
  · congr 1
    refine List.map_congr_left fun t ht => ?_
    rw [rhs_form 3 (spinTet G d.c d.p d.mag d.vol d.V s t) nod (h.valid t ht)]
    refine Eq.trans ?_ (spinVec_form G h.rule d.c (d.vol t.reg) (t.isMagnetic d.mag) (MeshElem.nod4 d.p t)
      (MeshElem.nod4 s.next t) (fun i => w (t.ind i)) (MeshElem.nod4 d.V t))
    refine Finset.sum_congr rfl fun i _ => Finset.sum_congr rfl fun a _ => ?_
    rw [flat_idx]
    show _ * spinVec G d.c _ _ _ _ _ (Fin.ofNat 3 (((a : ℕ) * 4 + i) / 4), Fin.ofNat 4 (((a : ℕ) * 4 + i) % 4)) = _
    rw [block_idx]
    rfl
  · congr 1
    refine List.map_congr_left fun f hf => ?_
    rw [rhs_form 3 (spinTri H d.c d.p d.surf f) nod (h.validT f hf)]
    refine Eq.trans ?_ (spinTri_form H h.okT d.c (d.surf f.reg) (MeshElem.nod3 d.p f) (fun i => w (f.ind i)))
    refine Finset.sum_congr rfl fun i _ => Finset.sum_congr rfl fun a _ => ?_
    rw [flat_idx]
    show _ * spinTriVec H d.c _ _ (Fin.ofNat 3 (((a : ℕ) * 3 + i) / 3), Fin.ofNat 3 (((a : ℕ) * 3 + i) % 3)) = _
    rw [block_idx3]
    rfl

theorem sum_map_sub' {α : Type} (l : List α) (f g : α → ℝ) :
    (l.map fun a => f a - g a).sum = (l.map f).sum - (l.map g).sum := by
  induction l with
  | nil => simp
  | cons a l ih => simp only [List.map_cons, List.sum_cons, ih]; ring

/-- the weak form is the product of the test field with the equations -/
theorem spinWeak_eq (h : SpinProblem G H nod d) (s : MagState) (w x : ℕ → V3) :
    spinWeak d s.cur s.next w x = ∑ r ∈ Finset.range (3 * nod), flat w r *
      (∑ q ∈ Finset.range (3 * nod), spinCoef G d s r q * flat x q - spinRhs G H d s r) := by
  classical
  have e1 := spinCoef_form h s w x
  have e2 := spinRhs_form h s w
  simp only [mul_sub, Finset.sum_sub_distrib, Finset.mul_sum, ← mul_assoc]
  rw [e1, e2]
  rw [spinWeak_model]
  rw [← sub_add, ← sum_map_sub']
  congr 2
  refine List.map_congr_left fun t _ => ?_
  dsimp only
  split_ifs
  · ring
  · ring

/-- the systems of successive computations: all that was ever assembled is in the system -/
theorem history_spec (h : SpinProblem G H nod d) : ∀ (hs : List MagState) (ops : List (Op ℝ)) (sys : SpinSys),
    (ofShape (fullShape 3 nod d.tets) : Sp ℝ).run ops = some sys.K → sys.L.length = 3 * nod →
    (∃ K, (ofShape (fullShape 3 nod d.tets) : Sp ℝ).run (ops ++ (hs.map fun s =>
      spinTet G d.c d.p d.mag d.vol d.V s).flatMap fun el => fullOps 3 (elems el d.tets)) = some K) →
    ∃ sys', sys.history G H d.c d.p d.mag d.vol d.surf d.V d.tets d.tris hs = some sys' ∧
      (ofShape (fullShape 3 nod d.tets) : Sp ℝ).run (ops ++ (hs.map fun s =>
        spinTet G d.c d.p d.mag d.vol d.V s).flatMap fun el => fullOps 3 (elems el d.tets)) = some sys'.K ∧
      sys'.L.length = 3 * nod ∧
      ∀ r, r < 3 * nod → sys'.L.getD r 0 = sys.L.getD r 0 + (hs.map fun s => spinRhs G H d s r).sum := by
  have run_append : ∀ (l1 l2 : List (Op ℝ)) (m : Sp ℝ), m.run (l1 ++ l2) = (m.run l1).bind fun m' => m'.run l2 := by
    intro l1 l2
    induction l1 with
    | nil => intro m; rfl
    | cons o l1 ih =>
      intro m
      show (m.exec o).bind (fun m' => m'.run (l1 ++ l2)) = ((m.exec o).bind fun m' => m'.run l1).bind fun m' => m'.run l2
      cases m.exec o with
      | none => rfl
      | some m' => exact ih m'
  intro hs
  induction hs with
  | nil =>
    intro ops sys hK hL _
    exact ⟨sys, rfl, by simpa using hK, hL, fun r _ => by simp⟩
  | cons s hs ih =>
    intro ops sys hK hL hall
    have e : ops ++ ((s :: hs).map fun s => spinTet G d.c d.p d.mag d.vol d.V s).flatMap
        (fun el => fullOps 3 (elems el d.tets)) =
        (ops ++ fullOps 3 (d.tets.map (spinTet G d.c d.p d.mag d.vol d.V s))) ++
        (hs.map fun s => spinTet G d.c d.p d.mag d.vol d.V s).flatMap (fun el => fullOps 3 (elems el d.tets)) := by
      simp [elems]
    rw [e] at hall ⊢
    have hK1 : ∃ K1, sys.K.run (fullOps 3 (d.tets.map (spinTet G d.c d.p d.mag d.vol d.V s))) = some K1 := by
      obtain ⟨K, hKr⟩ := hall
      rw [run_append, run_append, hK] at hKr
      cases hr : sys.K.run (fullOps 3 (d.tets.map (spinTet G d.c d.p d.mag d.vol d.V s))) with
      | none =>
        have hKr : ((sys.K.run (fullOps 3 (d.tets.map (spinTet G d.c d.p d.mag d.vol d.V s)))).bind
          fun m' => m'.run _) = some K := hKr
        rw [hr] at hKr
        simp at hKr
      | some K1 => exact ⟨K1, rfl⟩
    obtain ⟨K1, hK1⟩ := hK1
    obtain ⟨L1, hL1, hl1, hg1⟩ := vect_run 3 nod (d.tets.map (spinTet G d.c d.p d.mag d.vol d.V s)) (by
      intro e he k
      obtain ⟨t, ht, rfl⟩ := List.mem_map.mp he
      exact h.valid t ht k) sys.L hL
    obtain ⟨L2, hL2, hl2, hg2⟩ := vect_run 3 nod (d.tris.map (spinTri H d.c d.p d.surf)) (by
      intro e he k
      obtain ⟨t, ht, rfl⟩ := List.mem_map.mp he
      exact h.validT t ht k) L1 hl1
    have hstep : sys.assemble G H d.c d.p d.mag d.vol d.surf d.V d.tets d.tris s = some ⟨K1, L2⟩ := by
      unfold SpinSys.assemble
      rw [hK1]
      show (runVect _ _).bind _ = _
      rw [hL1]
      show (runVect _ _).bind _ = _
      rw [hL2]
      rfl
    obtain ⟨sys', h1, h2, h3, h4⟩ := ih (ops ++ fullOps 3 (d.tets.map (spinTet G d.c d.p d.mag d.vol d.V s))) ⟨K1, L2⟩
      (by rw [run_append, hK]; exact hK1) hl2 hall
    refine ⟨sys', ?_, h2, h3, ?_⟩
    · show (sys.assemble G H d.c d.p d.mag d.vol d.surf d.V d.tets d.tris s).bind _ = _
      rw [hstep]
      exact h1
    · intro r hr
      rw [h4 r hr]
      show L2.getD r 0 + _ = _
      rw [hg2 r hr, hg1 r hr, List.map_cons, List.sum_cons, List.map_map, List.map_map]
      unfold spinRhs
      simp only [Function.comp_def]
      ring

theorem history_new (h : SpinProblem G H nod d) (hs : List MagState) :
    ∃ sys, (SpinSys.new nod d.tets).history G H d.c d.p d.mag d.vol d.surf d.V d.tets d.tris hs = some sys ∧
      sys.K.WF (fullShape 3 nod d.tets) ∧ sys.L.length = 3 * nod ∧
      (∀ a b, a < 3 * nod → sys.K.get a b = some ((hs.map fun s => spinCoef G d s a b).sum)) ∧
      ∀ r, r < 3 * nod → sys.L.getD r 0 = (hs.map fun s => spinRhs G H d s r).sum := by
  obtain ⟨K, hK, hw, hget⟩ := full_matrix 3 nod d.tets h.valid (hs.map fun s => spinTet G d.c d.p d.mag d.vol d.V s) (by
    intro el hel t
    obtain ⟨s, _, rfl⟩ := List.mem_map.mp hel
    rfl)
  obtain ⟨sys, h1, h2, h3, h4⟩ := history_spec h hs [] (SpinSys.new nod d.tets) rfl (by simp [SpinSys.new]) ⟨K, hK⟩
  have : sys.K = K := by
    rw [List.nil_append, hK] at h2
    injection h2 with h2
    exact h2.symm
  refine ⟨sys, h1, by rw [this]; exact hw, h3, fun a b ha => ?_, fun r hr => ?_⟩
  · rw [this, hget a b ha, List.map_map]
    rfl
  · rw [h4 r hr]
    have : (SpinSys.new nod d.tets).L.getD r 0 = 0 := by
      show (List.replicate (3 * nod) (0 : ℝ)).getD r 0 = 0
      rw [List.getD_eq_getElem?_getD, List.getElem?_replicate, if_pos hr]
      rfl
    rw [this, zero_add]

/-- the equations of a system held after some history -/
theorem solved_rows (h : SpinProblem G H nod d) (hs : List MagState) (sys : SpinSys)
    (hsys : (SpinSys.new nod d.tets).history G H d.c d.p d.mag d.vol d.surf d.V d.tets d.tris hs = some sys)
    (S : ℕ → Prop) (x : ℕ → V3) :
    sys.Solved nod S x ↔ ∀ r, r < 3 * nod → ¬ S (r / 3) →
      (hs.map fun s => ∑ q ∈ Finset.range (3 * nod), spinCoef G d s r q * flat x q - spinRhs G H d s r).sum = 0 := by
  obtain ⟨sys', h1, hw, hl, hK, hL⟩ := history_new h hs
  rw [hsys] at h1
  injection h1 with h1
  subst h1
  have hlen : (fullShape 3 nod d.tets).length = 3 * nod := (buildShape_in 3 nod _ _ (edges_lt h.valid) 0 0).1
  have hsq : ∀ st ∈ fullShape 3 nod d.tets, ∀ j ∈ st, j < (fullShape 3 nod d.tets).length := by
    intro st hst j hj
    obtain ⟨i, hi, e⟩ := List.getElem_of_mem hst
    rw [hlen]
    exact (C21_columns 3 nod d.tets h.valid _ i j ⟨st, List.getElem?_eq_some_iff.mpr ⟨hi, e⟩, hj⟩).2
  obtain ⟨-, hmul⟩ := C19_mult _ hsq sys.K hw (flat x)
  unfold SpinSys.Solved
  refine forall_congr' fun r => forall_congr' fun hr => forall_congr' fun _ => ?_
  have hr' : r < sys.L.length := by rw [hl]; exact hr
  have e2 : sys.L[r]? = some ((hs.map fun s => spinRhs G H d s r).sum) := by
    have := hL r hr
    rw [List.getD_eq_getElem?_getD, List.getElem?_eq_getElem hr', Option.getD_some] at this
    rw [List.getElem?_eq_getElem hr', this]
  have e1 : (∑ j ∈ Finset.range (fullShape 3 nod d.tets).length, (sys.K.get r j).getD 0 * flat x j) =
      (hs.map fun s => ∑ q ∈ Finset.range (3 * nod), spinCoef G d s r q * flat x q).sum := by
    rw [hlen, ← sum_list_comm]
    refine Finset.sum_congr rfl fun q _ => ?_
    rw [hK r q hr]
    show (hs.map fun s => spinCoef G d s r q).sum * _ = _
    rw [List.sum_map_mul_right]
  rw [hmul r (by rw [hlen]; exact hr), e1, e2, sum_map_sub', sub_eq_zero, Option.some.injEq]

/-- test field of one unknown -/
def unit3 (r : ℕ) : ℕ → V3 := fun i => ⟨if 3 * i = r then 1 else 0, if 3 * i + 1 = r then 1 else 0, if 3 * i + 2 = r then 1 else 0⟩

theorem flat_unit3 (r q : ℕ) : flat (unit3 r) q = if q = r then 1 else 0 := by
  have h3 : q % 3 = 0 ∨ q % 3 = 1 ∨ q % 3 = 2 := by omega
  unfold flat unit3
  rcases h3 with e | e | e <;> rw [e]
  · show (if 3 * (q / 3) = r then (1 : ℝ) else 0) = _
    rw [show 3 * (q / 3) = q by omega]
  · show (if 3 * (q / 3) + 1 = r then (1 : ℝ) else 0) = _
    rw [show 3 * (q / 3) + 1 = q by omega]
  · show (if 3 * (q / 3) + 2 = r then (1 : ℝ) else 0) = _
    rw [show 3 * (q / 3) + 2 = q by omega]

theorem unit3_zero {r : ℕ} {S : ℕ → Prop} (hS : ¬ S (r / 3)) : ∀ i, S i → unit3 r i = 0 := by
  intro i hi
  have : i ≠ r / 3 := by rintro rfl; exact hS hi
  unfold unit3
  rw [if_neg (by omega), if_neg (by omega), if_neg (by omega)]
  rfl

theorem flat_zero {w : ℕ → V3} {r : ℕ} (h : w (r / 3) = 0) : flat w r = 0 := by
  unfold flat
  rw [h]
  generalize Fin.ofNat 3 (r % 3) = a
  fin_cases a <;> rfl

/-- the equations of the free nodes are the weak form -/
theorem rows_weak (h : SpinProblem G H nod d) (hs : List MagState) (S : ℕ → Prop) (x : ℕ → V3) :
    (∀ r, r < 3 * nod → ¬ S (r / 3) →
      (hs.map fun s => ∑ q ∈ Finset.range (3 * nod), spinCoef G d s r q * flat x q - spinRhs G H d s r).sum = 0) ↔
    ∀ w : ℕ → V3, (∀ i, S i → w i = 0) → (hs.map fun s => spinWeak d s.cur s.next w x).sum = 0 := by
  simp only [fun (s : MagState) (w : ℕ → V3) => spinWeak_eq h s w x]
  have e : ∀ w : ℕ → V3, (hs.map fun s => ∑ r ∈ Finset.range (3 * nod), flat w r *
      (∑ q ∈ Finset.range (3 * nod), spinCoef G d s r q * flat x q - spinRhs G H d s r)).sum =
      ∑ r ∈ Finset.range (3 * nod), flat w r * (hs.map fun s =>
        ∑ q ∈ Finset.range (3 * nod), spinCoef G d s r q * flat x q - spinRhs G H d s r).sum := by
    intro w
    rw [← sum_list_comm]
    refine Finset.sum_congr rfl fun r _ => ?_
    rw [List.sum_map_mul_left]
  simp only [e]
  constructor
  · intro hr w hw
    apply Finset.sum_eq_zero
    intro r hr'
    by_cases hS : S (r / 3)
    · rw [flat_zero (hw _ hS), zero_mul]
    · rw [hr r (Finset.mem_range.mp hr') hS, mul_zero]
  · intro hw r hr hS
    have := hw (unit3 r) (unit3_zero hS)
    rw [Finset.sum_eq_single r] at this
    · rw [flat_unit3, if_pos rfl, one_mul] at this
      exact this
    · intro b _ hb
      rw [flat_unit3, if_neg hb, zero_mul]
    · intro hn; exact absurd (Finset.mem_range.mpr hr) hn

/-- What the object holds after any number of computations: the assembly never leaves its arrays, and the system is
the sum of the problems of all computations so far. -/
theorem C45_history (h : SpinProblem G H nod d) (hs : List MagState) :
    ∃ sys, (SpinSys.new nod d.tets).history G H d.c d.p d.mag d.vol d.surf d.V d.tets d.tris hs = some sys ∧
      ∀ (S : ℕ → Prop) (x : ℕ → V3), sys.Solved nod S x ↔
        ∀ w : ℕ → V3, (∀ i, S i → w i = 0) → (hs.map fun s => spinWeak d s.cur s.next w x).sum = 0 := by
  obtain ⟨sys, h1, -⟩ := history_new h hs
  exact ⟨sys, h1, fun S x => (solved_rows h hs sys h1 S x).trans (rows_weak h hs S x)⟩

/-- **C45** (partial: the first computation of an object; see the negations for the others). The system is the problem of the
state of the nodes, with the magnetization of the start of the step in the precession term. -/
theorem C45_first_partial (h : SpinProblem G H nod d) (s : MagState) :
    ∃ sys, (SpinSys.new nod d.tets).history G H d.c d.p d.mag d.vol d.surf d.V d.tets d.tris [s] = some sys ∧
      ∀ (S : ℕ → Prop) (x : ℕ → V3), sys.Solved nod S x ↔ SpinSolution d s.cur s.next S x := by
  obtain ⟨sys, h1, h2⟩ := C45_history h [s]
  refine ⟨sys, h1, fun S x => ?_⟩
  rw [h2]
  simp only [List.map_cons, List.map_nil, List.sum_cons, List.sum_nil, add_zero]
  rfl

/-- **C45** (partial: only when the magnetization never changes). Repeating the computation does not change its solutions. -/
theorem C45_repeat_partial (h : SpinProblem G H nod d) (s : MagState) (n : ℕ) :
    ∃ sys, (SpinSys.new nod d.tets).history G H d.c d.p d.mag d.vol d.surf d.V d.tets d.tris
        (List.replicate (n + 1) s) = some sys ∧
      ∀ (S : ℕ → Prop) (x : ℕ → V3), sys.Solved nod S x ↔ SpinSolution d s.cur s.next S x := by
  obtain ⟨sys, h1, h2⟩ := C45_history h (List.replicate (n + 1) s)
  refine ⟨sys, h1, fun S x => ?_⟩
  rw [h2]
  refine forall_congr' fun w => forall_congr' fun _ => ?_
  rw [List.map_replicate, List.sum_replicate, nsmul_eq_mul, mul_eq_zero]
  refine ⟨fun hh => hh.resolve_left (by positivity), Or.inr⟩

end

end Verif.Electro
