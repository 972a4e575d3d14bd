import Verif.Proofs.SolveError
import Verif.Props.Run
import Verif.Props.Krylov

/-!
# C75: what a successful solve guarantees about the step
-/

namespace Verif.LlgSolve

open Verif.Mesh Verif.Assembly Verif.Tetra Verif.SparseMat Verif.Llg Verif.WeakForm Verif.TimeLoop Verif.Krylov Verif.Run

/-- the result of the time step's linear solve, for some system assembled for the attempt: `none` for a failure, else the
components of the velocity -/
def Solved {n : ℕ} {ET : Type} (P : Problem) (cfg : Cfg n ET) (it : Iter) (F : Fields P) (nd : Fin n → Node) (dt : ℝ) (b : List ℝ)
    (sol : Option (Fin n → ℝ × ℝ)) : Prop :=
  ∃ M, IsSystem P cfg F nd dt M b ∧
    solve it cfg.gamma0 (magNode P.mag n P.tets) nd M b = sol.map fun X (r : Fin (2 * n)) => Fl.fin (unknowns X r)

section
variable {n : ℕ} {ET : Type} {P : Problem} {cfg : Cfg n ET} {nodes : Fin n → Node}

/-- the matrix of the solver, its right hand side and what they are -/
theorem system_data {nd : Fin n → Node} {dt : ℝ} (F : Fields P)
    (hT : TimeStep P.G P.prm (P.step cfg dt) P.mag n P.tets (ext nd)) (htv : ∀ f ∈ P.tris, ∀ k, f.1.ind k < n) {M : Sp ℝ} {b : List ℝ}
    (h : IsSystem P cfg F nd dt M b) :
    Represents (Electro.rowsOf (2 * n) (Electro.liftSp M))
      (fun i j : Fin (2 * n) => coef P.G P.prm (P.step cfg dt) P.mag n P.tets (ext nd) F.Hext F.Hst P.dir F.V i j) ∧
    DiagStored (Electro.rowsOf (2 * n) (Electro.liftSp M)) ∧ b.length = 2 * n ∧
    (∀ r, r < 2 * n → (magNode P.mag n P.tets).getD (r / 2) false = false → b.getD r 0 = 0) ∧
    ∀ x : ℕ → ℝ, M.mult x = (List.range (2 * n)).map fun i =>
        ∑ j ∈ Finset.range (2 * n), coef P.G P.prm (P.step cfg dt) P.mag n P.tets (ext nd) F.Hext F.Hst P.dir F.V i j * x j := by
  obtain ⟨order, orderT, before, ho, hoT, hb, h1, h2⟩ := h
  obtain ⟨M', e1, hget⟩ := C22_matrix P.mag n P.tets hT.valid
    (tetElem P.G P.prm (P.step cfg dt) (ext nd) F.Hext F.Hst P.dir F.V) (fun _ => rfl) order ho before hb
  rw [h1] at e1
  cases e1
  obtain ⟨M', e1, hmul⟩ := assembled (prm := P.prm) (s := P.step cfg dt) (nodes := ext nd) hT.valid F.Hext F.Hst P.dir F.V order
    ho before hb
  rw [h1] at e1
  cases e1
  obtain ⟨b', e2, hl, hb3⟩ := C22_rhs P.mag n P.tets hT.valid
    (tetElem P.G P.prm (P.step cfg dt) (ext nd) F.Hext F.Hst P.dir F.V) (fun _ => rfl) order ho P.tris
    (triElem P.H P.sprm (ext nd)) htv orderT hoT
  rw [h2] at e2
  cases e2
  have hw : M.WF (llgShape P.mag n P.tets) := reachable_wf _ _ (by
    intro o hmem
    rcases List.mem_append.mp hmem with hmem | hmem
    · exact hb o hmem
    · exact llg_ops_inShape P.mag n P.tets hT.valid _ (fun _ => rfl) order (fun t ht => ho.mem_iff.mp ht) o hmem) M h1
  have hlen : (llgShape P.mag n P.tets).length = 2 * n := (buildShape_in 2 n _ _ (edges_lt hT.valid) 0 0).1
  have hrep : ∀ k, (llgShape P.mag n P.tets).length = k → k = 2 * n →
      Represents (Electro.rowsOf k (Electro.liftSp M)) (fun i j : Fin k =>
        coef P.G P.prm (P.step cfg dt) P.mag n P.tets (ext nd) F.Hext F.Hst P.dir F.V i j) ∧
      DiagStored (Electro.rowsOf k (Electro.liftSp M)) := by
    rintro k rfl hk
    obtain ⟨a1, a2⟩ := toMat_represents (llgShape P.mag n P.tets) (Electro.liftSp M) (Electro.liftSp_wf hw)
      (fun i j => coef P.G P.prm (P.step cfg dt) P.mag n P.tets (ext nd) F.Hext F.Hst P.dir F.V i j)
      (fun i j => Electro.liftSp_get (hget i j (by omega) (by omega)))
    exact ⟨a1, a2 fun i => C21_diagonal 2 n P.tets hT.valid _ i (by omega)⟩
  obtain ⟨r1, r2⟩ := hrep (2 * n) hlen rfl
  exact ⟨r1, r2, hl, fun r hr hm => by rw [hb3 r hr, if_pos hm], hmul⟩

/-- **C75** The solve of an attempt ends with a failure or with finite components, zero at the nodes that are not magnetic: no
infinity and no NaN reaches the nodes. -/
theorem C75_finite (hs : Start P cfg nodes) (hv : Valid cfg) (hU : RecenterKeepsUnit cfg) (hN : RecenterKeepsNext cfg)
    (t0 : ℝ) (pot : Fin n → ℝ × ℝ) (inp : ℕ → Input n) (k : ℕ) (F : Fields P) (r dt : ℝ) (hdt : 0 < dt) (it : Iter) (tol : ℝ)
    (htol : it.resmax = .fin tol) :
    let nd := baseProjection r (run cfg t0 nodes pot inp k).nodes
    ∀ M b, IsSystem P cfg F nd dt M b → ∃ sol : Option (Fin n → ℝ × ℝ),
      solve it cfg.gamma0 (magNode P.mag n P.tets) nd M b = (sol.map fun X (r : Fin (2 * n)) => Fl.fin (unknowns X r)) ∧
      ∀ X, sol = some X → ∀ i, cfg.magNode i = false → X i = (0, 0) := by
  intro nd M b hsys
  have hT := timeStep hs hv hU hN t0 pot inp k r dt hdt
  obtain ⟨hrep, hd, -, -, -⟩ := system_data F hT hs.triValid hsys
  cases hsol : solve it cfg.gamma0 (magNode P.mag n P.tets) nd M b with
  | none => exact ⟨none, rfl, fun X h => by cases h⟩
  | some Y =>
    obtain ⟨x, hx, -, -, hmask, -⟩ := C15_success_converged it tol htol _ _ hrep hd _ _ _ Y hsol
    refine ⟨some fun i => (x ⟨2 * i, by omega⟩, x ⟨2 * i + 1, by omega⟩), ?_, ?_⟩
    · rw [Option.map_some, hx]
      congr 1
      funext c
      have hc : (c : ℕ) / 2 < n := by omega
      unfold unknowns lift
      rw [dif_pos hc]
      congr 1
      dsimp only
      split_ifs with h0
      · exact congrArg x (Fin.ext (by simp only; omega))
      · exact congrArg x (Fin.ext (by simp only; omega))
    · intro X hX i hi
      rw [← Option.some.inj hX]
      have hm : (magNode P.mag n P.tets).getD i false = false := by
        have := magNode_getD hs i
        rw [hi] at this
        simpa using this
      have z : ∀ c : Fin (2 * n), (c : ℕ) / 2 = i → x c = 0 := by
        intro c hc
        rw [hmask c ((mem_lvd _ c).mpr (by rw [hc]; exact hm))]
        unfold initGuess
        dsimp only
        rw [if_neg (by rw [hc, hm]; simp)]
      exact Prod.ext (z _ (by simp)) (z _ (by simp only; omega))

/-- normalization does not increase the distance of vectors longer than 1 -/
theorem normalize_dist {a b : V3} (ha : 1 ≤ a.nsq) (hb : 1 ≤ b.nsq) : (a.normalize - b.normalize).nsq ≤ (a - b).nsq := by
  have pa : 0 < a.nsq := by linarith
  have pb : 0 < b.nsq := by linarith
  set s := Real.sqrt a.nsq with hs
  set t := Real.sqrt b.nsq with ht
  have s1 : 1 ≤ s := Real.one_le_sqrt.mpr ha
  have t1 : 1 ≤ t := Real.one_le_sqrt.mpr hb
  have es : a.nsq = s ^ 2 := (Real.sq_sqrt pa.le).symm
  have et : b.nsq = t ^ 2 := (Real.sq_sqrt pb.le).symm
  have cs : a.dot b ≤ s * t := by
    have h1 : (a.dot b) ^ 2 ≤ a.nsq * b.nsq := by
      have : a.nsq * b.nsq - (a.dot b) ^ 2 = (a.cross b).nsq := by
        simp only [V3.nsq, V3.dot, V3.cross]; ring
      have := (a.cross b).nsq_nonneg
      linarith
    rw [es, et, ← mul_pow] at h1
    exact abs_le_of_sq_le_sq' h1 (by positivity) |>.2
  rw [V3.normalize_of_pos pa, V3.normalize_of_pos pb, ← hs, ← ht]
  have e1 : ((1 / s) * a - (1 / t) * b).nsq = 2 - 2 * (a.dot b / (s * t)) := by
    have : ((1 / s) * a - (1 / t) * b).nsq = (1 / s) ^ 2 * a.nsq + (1 / t) ^ 2 * b.nsq - 2 * (1 / s) * (1 / t) * a.dot b := by
      simp only [V3.nsq, V3.dot, V3.sub_x, V3.sub_y, V3.sub_z, V3.smul_x, V3.smul_y, V3.smul_z]; ring
    rw [this, es, et]
    field_simp
    ring
  have e2 : (a - b).nsq = s ^ 2 + t ^ 2 - 2 * a.dot b := by
    rw [← es, ← et]
    simp only [V3.nsq, V3.dot, V3.sub_x, V3.sub_y, V3.sub_z]; ring
  rw [e1, e2]
  have hst : 1 ≤ s * t := by nlinarith
  obtain ⟨c, hc⟩ : ∃ c, c = a.dot b / (s * t) := ⟨_, rfl⟩
  have hc1 : c ≤ 1 := by rw [hc]; exact (div_le_one (by positivity)).mpr cs
  have hcd : a.dot b = c * (s * t) := by rw [hc]; field_simp
  rw [← hc, hcd]
  nlinarith [sq_nonneg (s - t), mul_nonneg (sub_nonneg.mpr hst) (sub_nonneg.mpr hc1)]

/-- **C75** A successful solve gives the velocity of the equation of motion up to the tolerance: the distance to the exact
velocity `w` is at most `4/3 tol min(1, norm of the right hand side) / m`, where `m` is the smallest damping lumped at a
magnetic node; and the new magnetization of each magnetic node is as near to that of the exact step, times the time step and
`gamma0`. -/
theorem C75_error (hs : Start P cfg nodes) (hv : Valid cfg) (hU : RecenterKeepsUnit cfg) (hN : RecenterKeepsNext cfg)
    (t0 : ℝ) (pot : Fin n → ℝ × ℝ) (inp : ℕ → Input n) (k : ℕ) (F : Fields P) (dt : ℝ) (hdt : 0 < dt) (it : Iter) (tol : ℝ)
    (htol : it.resmax = .fin tol) (b : List ℝ) (X : Fin n → ℝ × ℝ) :
    let s := run cfg t0 nodes pot inp k
    let v := ofComp (ext (baseProjection (inp k).r s.nodes)) (unknowns X)
    Solved P cfg it F (baseProjection (inp k).r s.nodes) dt b (some X) →
    ∀ w, Moves P cfg F s.nodes dt w → ∀ m, 0 < m →
      (∀ i, cfg.magNode i = true → m ≤ lumpedDamping P.G P.prm P.mag P.tets (fun i => (ext nodes i).p) i) →
      nodesDist cfg.magNode v w ≤ 4 / 3 * (tol * min 1 (listNorm b)) / m ∧
      ∀ i, cfg.magNode i = true →
        ((solvedNodes cfg (inp k) X dt s i).next.u - ((s.nodes i).cur.u + (dt * cfg.gamma0) * w i).normalize).norm ≤
          dt * cfg.gamma0 * (4 / 3 * (tol * min 1 (listNorm b)) / m) := by
  intro s v hsolved w hw m hm hmass
  obtain ⟨M, hsys, hsol⟩ := hsolved
  have hT := timeStep hs hv hU hN t0 pot inp k (inp k).r dt hdt
  obtain ⟨hrep, hd, hlen, hbz, hmul⟩ := system_data F hT hs.triValid hsys
  obtain ⟨x, hx, hr1, hr2, hmask, -⟩ := C15_success_converged it tol htol _ _ hrep hd _ _ _ _ hsol
  set nd := baseProjection (inp k).r s.nodes with hnd
  set magN := magNode P.mag n P.tets with hmagN
  set C := coef P.G P.prm (P.step cfg dt) P.mag n P.tets (ext nd) F.Hext F.Hst P.dir F.V with hC
  have hxe : ∀ c : Fin (2 * n), x c = unknowns X c := fun c => (Fl.fin.inj (congrFun hx c)).symm
  -- the exact solution
  obtain ⟨-, hex⟩ := C72_solvable hs hv hU hN t0 pot inp k F (inp k).r dt hdt
  obtain ⟨E, hE, -⟩ := hex M b hsys
  obtain ⟨hEm, hEu⟩ := exact_velocity hs hv hU hN t0 pot inp k F (inp k).r dt hdt E M b hsys hE
  have hwv : ∀ i : Fin n, cfg.magNode i = true → w i = ofComp (ext nd) (unknowns E) i := hEu w hw
  have hrowE : ∀ r, r < 2 * n → ∑ c ∈ Finset.range (2 * n), C r c * unknowns E c = b.getD r 0 := by
    intro r hr
    rw [← hE, hmul, List.getD_eq_getElem?_getD, List.getElem?_map, List.getElem?_range hr]
    rfl
  -- components at the nodes that are not magnetic
  have hEz : ∀ r, r < 2 * n → magN.getD (r / 2) false = false → unknowns E r = 0 := by
    intro r hr hmr
    have := hrowE r hr
    rw [hbz r hr hmr] at this
    simpa only [hC, coef_nonmag F.Hext F.Hst P.dir F.V r _ hr hmr, ite_mul, one_mul, zero_mul, Finset.sum_ite_eq,
      Finset.mem_range, hr, if_true] using this
  have hXz : ∀ r, r < 2 * n → magN.getD (r / 2) false = false → unknowns X r = 0 := by
    intro r hr hmr
    have := hmask ⟨r, hr⟩ ((mem_lvd _ _).mpr hmr)
    rw [hxe] at this
    rw [this]
    unfold initGuess
    dsimp only
    rw [if_neg (by rw [hmr]; simp)]
  -- the residual
  have hfree : ∀ f : ℕ → ℝ, freeNorm (lvd n magN) (fun i : Fin (2 * n) => f i) = Real.sqrt (magSq magN n f) := by
    intro f
    unfold freeNorm magSq
    rw [Finset.sum_range]
    congr 1
    refine Finset.sum_congr rfl fun i _ => ?_
    by_cases hi : magN.getD ((i : ℕ) / 2) false = false
    · rw [if_pos ((mem_lvd _ i).mpr hi), if_pos hi]
    · rw [if_neg (fun h => hi ((mem_lvd _ i).mp h)), if_neg hi]
  have hb : freeNorm (lvd n magN) (fun r : Fin (2 * n) => b.getD r 0) = listNorm b := by
    rw [hfree fun r => b.getD r 0]
    unfold magSq listNorm
    congr 1
    rw [Finset.sum_congr rfl (g := fun r => (b.getD r 0) ^ 2)]
    · rw [← hlen]
      clear * -
      induction b with
      | nil => simp
      | cons a b ih =>
        rw [List.length_cons, Finset.sum_range_succ']
        simp only [List.getD_cons_succ, List.getD_cons_zero, List.map_cons, List.sum_cons]
        rw [ih]
        ring
    · intro r hr
      split_ifs with h0
      · rw [hbz r (Finset.mem_range.mp hr) h0]; simp
      · rfl
  have hres : freeNorm (lvd n magN) (Krylov.residual (fun i j : Fin (2 * n) => C i j) (fun r => b.getD r 0) x) =
      Real.sqrt (magSq magN n fun r => ∑ c ∈ Finset.range (2 * n), C r c * (unknowns X c - unknowns E c)) := by
    rw [← hfree]
    unfold freeNorm
    congr 1
    refine Finset.sum_congr rfl fun i _ => ?_
    have : Krylov.residual (fun i j : Fin (2 * n) => C i j) (fun r => b.getD r 0) x i =
        -(∑ c ∈ Finset.range (2 * n), C i c * (unknowns X c - unknowns E c)) := by
      unfold Krylov.residual
      have e1 : Matrix.mulVec (fun i j : Fin (2 * n) => C i j) x i = ∑ c ∈ Finset.range (2 * n), C i c * unknowns X c := by
        rw [Finset.sum_range]
        change ∑ j : Fin (2 * n), C i j * x j = _
        exact Finset.sum_congr rfl fun j _ => by rw [hxe]
      rw [Pi.sub_apply, e1, ← hrowE i i.2, ← Finset.sum_sub_distrib, ← Finset.sum_neg_distrib]
      exact Finset.sum_congr rfl fun j _ => by ring
    rw [this]
    split_ifs <;> ring
  have htol0 : 0 ≤ tol := le_trans (Real.sqrt_nonneg _) hr1
  have he : Real.sqrt (magSq magN n fun r => ∑ c ∈ Finset.range (2 * n), C r c * (unknowns X c - unknowns E c)) ≤
      tol * min 1 (listNorm b) := by
    rw [← hres, mul_min_of_nonneg _ _ htol0, mul_one, ← hb]
    exact le_min hr1 hr2
  have hpos : ∀ i : ℕ, (ext nd i).p = (ext nodes i).p := by
    intro i
    unfold Run.ext
    split_ifs with hi
    · exact run_pos hN t0 pot inp k ⟨i, hi⟩
    · rfl
  have hlN : 0 ≤ listNorm b := Real.sqrt_nonneg _
  have hfin := error_le hT F.Hext F.Hst P.dir F.V (fun r => unknowns X r - unknowns E r) m (tol * min 1 (listNorm b)) hm
    (by positivity)
    (by
      intro i hi hmi
      have hp : (fun i => (ext nd i).p) = fun i => (ext nodes i).p := funext hpos
      rw [hp]
      exact hmass ⟨i, hi⟩ ((magNode_getD hs ⟨i, hi⟩).mp hmi))
    (by intro r hr hmr; rw [hXz r hr hmr, hEz r hr hmr, sub_zero]) he
  -- distances of the nodes
  have hdist : ∀ i : Fin n, cfg.magNode i = true → (v i - w i).nsq =
      (unknowns X (2 * i) - unknowns E (2 * i)) ^ 2 + (unknowns X (2 * i + 1) - unknowns E (2 * i + 1)) ^ 2 := by
    intro i hi
    rw [hwv i hi]
    have hmi := (magNode_getD hs i).mpr hi
    obtain ⟨t, ht1, ht2, j, hj⟩ := (magNode_iff P.mag n P.tets i i.2).mp hmi
    have ho := hT.ortho (List.mem_filter.mpr ⟨ht1, ht2⟩) j
    rw [hj] at ho
    obtain ⟨-, b1, c1, -, bc, -, -⟩ := ho
    show (ofComp (ext nd) (unknowns X) i - ofComp (ext nd) (unknowns E) i).nsq = _
    unfold ofComp
    generalize (ext nd i).ep = ep at b1 bc ⊢
    generalize (ext nd i).eq = eq at c1 bc ⊢
    generalize unknowns X (2 * i) = p1
    generalize unknowns X (2 * i + 1) = p2
    generalize unknowns E (2 * i) = q1
    generalize unknowns E (2 * i + 1) = q2
    simp only [V3.nsq, V3.dot, V3.sub_x, V3.sub_y, V3.sub_z, V3.add_x, V3.add_y, V3.add_z, V3.smul_x, V3.smul_y,
      V3.smul_z] at b1 c1 bc ⊢
    linear_combination (p1 - q1) ^ 2 * b1 + (p2 - q2) ^ 2 * c1 + 2 * (p1 - q1) * (p2 - q2) * bc
  have hsum : (∑ i : Fin n, if cfg.magNode i = true then (v i - w i).nsq else 0) =
      magSq magN n fun r => unknowns X r - unknowns E r := by
    rw [magSq_pairs, Finset.sum_range]
    refine Finset.sum_congr rfl fun i _ => ?_
    by_cases hi : cfg.magNode i = true
    · rw [if_pos hi, if_neg (by rw [(magNode_getD hs i).mpr hi]; simp), hdist i hi]
    · rw [if_neg hi, if_pos]
      have : ¬ magN.getD i false = true := fun h => hi ((magNode_getD hs i).mp h)
      simpa using this
  have hD : nodesDist cfg.magNode v w ≤ 4 / 3 * (tol * min 1 (listNorm b)) / m := by
    unfold nodesDist
    rw [hsum]
    exact hfin
  refine ⟨hD, fun i hi => ?_⟩
  have hone : (v i - w i).norm ≤ nodesDist cfg.magNode v w := by
    unfold nodesDist V3.norm
    apply Real.sqrt_le_sqrt
    refine le_trans (le_of_eq ?_) (Finset.single_le_sum (f := fun i : Fin n => if cfg.magNode i = true then (v i - w i).nsq else 0)
      (fun j _ => ?_) (Finset.mem_univ i))
    · rw [if_pos hi]
    · split_ifs
      · exact V3.nsq_nonneg _
      · exact le_rfl
  have hunit : (s.nodes i).cur.u.nsq = 1 := by
    have := (allUnit_run hU t0 nodes pot inp hs.unit k i hi).1
    rwa [isUnit3_iff] at this
  have hlong : ∀ y : V3, y.dot (s.nodes i).cur.u = 0 → 1 ≤ ((s.nodes i).cur.u + (dt * cfg.gamma0) * y).nsq := by
    intro y hy
    rw [V3.nsq_add, hunit, V3.dot_comm, V3.dot_smul_left, hy]
    have := ((dt * cfg.gamma0) * y).nsq_nonneg
    linarith
  have hvt : (v i).dot (s.nodes i).cur.u = 0 := by
    have hmi := (magNode_getD hs i).mpr hi
    obtain ⟨t, ht1, ht2, j, hj⟩ := (magNode_iff P.mag n P.tets i i.2).mp hmi
    have ho := hT.ortho (List.mem_filter.mpr ⟨ht1, ht2⟩) j
    rw [hj] at ho
    obtain ⟨-, -, -, h1, -, h3, -⟩ := ho
    have hc : (ext nd i).cur.u = (s.nodes i).cur.u := by rw [ext_fin]; rfl
    show (ofComp (ext nd) (unknowns X) i).dot _ = 0
    rw [← hc]
    unfold ofComp
    rw [V3.dot_comm] at h1
    rw [V3.dot_add_left, V3.dot_smul_left, V3.dot_smul_left, h1, h3]
    ring
  rw [(solved_eq (cfg := cfg) (nodes := nodes) t0 pot inp k i X dt hi).2]
  have hg : 0 ≤ dt * cfg.gamma0 := mul_nonneg hdt.le hs.gamma0.le
  refine le_trans ?_ (mul_le_mul_of_nonneg_left (le_trans hone hD) hg)
  have := normalize_dist (hlong (v i) hvt) (hlong (w i) (hw.1 i hi))
  have e : (((s.nodes i).cur.u + (dt * cfg.gamma0) * v i) - ((s.nodes i).cur.u + (dt * cfg.gamma0) * w i)).nsq =
      (dt * cfg.gamma0) ^ 2 * (v i - w i).nsq := by
    simp only [V3.nsq, V3.sub_x, V3.sub_y, V3.sub_z, V3.add_x, V3.add_y, V3.add_z, V3.smul_x, V3.smul_y, V3.smul_z]
    ring
  rw [e] at this
  unfold V3.norm
  rw [← Real.sqrt_sq hg, ← Real.sqrt_mul (by positivity)]
  rw [Real.sqrt_sq hg]
  exact Real.sqrt_le_sqrt this

/-- there is a positive lower bound of the lumped damping -/
theorem damping_pos (hs : Start P cfg nodes) :
    ∃ m, 0 < m ∧ ∀ i, cfg.magNode i = true → m ≤ lumpedDamping P.G P.prm P.mag P.tets (fun i => (ext nodes i).p) i := by
  have hpos : ∀ i : Fin n, cfg.magNode i = true → 0 < lumpedDamping P.G P.prm P.mag P.tets (fun i => (ext nodes i).p) i := by
    intro i hi
    obtain ⟨t, ht1, ht2, j, hj⟩ := (hs.magNode i).mp hi
    have hmem : t ∈ magTet P.mag P.tets := List.mem_filter.mpr ⟨ht1, ht2⟩
    have hterm : ∀ t' ∈ magTet P.mag P.tets, 0 < (P.prm t'.reg).alpha * MeshElem.tetVol P.G (fun i => (ext nodes i).p) t' / 4 := by
      intro t' ht'
      have h1 := hs.alpha t'.reg (List.mem_filter.mp ht').2
      have h2 : 0 < MeshElem.tetVol P.G (fun i => (ext nodes i).p) t' := by
        unfold MeshElem.tetVol
        rw [calcVol_eq hs.rule.ok]
        have := hs.oriented t' (List.mem_filter.mp ht').1
        positivity
      positivity
    unfold lumpedDamping
    have hnn : ∀ x ∈ (magTet P.mag P.tets).map (fun t' => ∑ k, if t'.ind k = (i : ℕ) then
        (P.prm t'.reg).alpha * MeshElem.tetVol P.G (fun i => (ext nodes i).p) t' / 4 else 0), 0 ≤ x := by
      intro x hx
      obtain ⟨t', ht', rfl⟩ := List.mem_map.mp hx
      refine Finset.sum_nonneg fun k _ => ?_
      split_ifs
      · exact (hterm t' ht').le
      · exact le_rfl
    refine lt_of_lt_of_le ?_ (List.single_le_sum hnn _ (List.mem_map.mpr ⟨t, hmem, rfl⟩))
    refine lt_of_lt_of_le (hterm t hmem) ?_
    refine le_trans (le_of_eq ?_) (Finset.single_le_sum (f := fun k => if t.ind k = (i : ℕ) then
      (P.prm t.reg).alpha * MeshElem.tetVol P.G (fun i => (ext nodes i).p) t / 4 else 0) (fun k _ => ?_) (Finset.mem_univ j))
    · rw [if_pos hj]
    · split_ifs
      · exact (hterm t hmem).le
      · exact le_rfl
  have hfin : ∀ l : List (Fin n), ∃ m : ℝ, 0 < m ∧ ∀ i ∈ l, cfg.magNode i = true →
      m ≤ lumpedDamping P.G P.prm P.mag P.tets (fun i => (ext nodes i).p) i := by
    intro l
    induction l with
    | nil => exact ⟨1, one_pos, by simp⟩
    | cons a l ih =>
      obtain ⟨m, hm, h⟩ := ih
      by_cases ha : cfg.magNode a = true
      · refine ⟨min m (lumpedDamping P.G P.prm P.mag P.tets (fun i => (ext nodes i).p) a), lt_min hm (hpos a ha), ?_⟩
        intro i hi hmi
        rcases List.mem_cons.mp hi with rfl | hi
        · exact min_le_right _ _
        · exact (min_le_left _ _).trans (h i hi hmi)
      · refine ⟨m, hm, ?_⟩
        intro i hi hmi
        rcases List.mem_cons.mp hi with rfl | hi
        · exact absurd hmi ha
        · exact h i hi hmi
  obtain ⟨m, hm, h⟩ := hfin (List.finRange n)
  exact ⟨m, hm, fun i => h i (List.mem_finRange i)⟩

/-- **C75** In a run whose linear systems are solved by the iterative solver of the program, each step that is kept moves the
magnetization of each magnetic node along the velocity given by the equation of motion, and normalizes, up to an error
bounded by the tolerance: `c` depends on the mesh and the materials only. -/
theorem C75_step (hs : Start P cfg nodes) (hv : Valid cfg) (hU : RecenterKeepsUnit cfg) (hN : RecenterKeepsNext cfg) :
    ∃ c : ℝ, 0 < c ∧ ∀ (t0 : ℝ) (pot : Fin n → ℝ × ℝ) (inp : ℕ → Input n) (k : ℕ) (F : Fields P) (it : Iter) (tol : ℝ),
      it.resmax = .fin tol → 
      let s := run cfg t0 nodes pot inp k
      let s' := run cfg t0 nodes pot inp (k + 1)
      TimeLoop.Accepted s s' →
      (∃ b, Solved P cfg it F (baseProjection (inp k).r s.nodes) s'.dt b (inp k).sol) →
      ∃ v, Moves P cfg F s.nodes s'.dt v ∧
        (∀ w, Moves P cfg F s.nodes s'.dt w → ∀ i : Fin n, cfg.magNode i = true → w i = v i) ∧
        ∀ i : Fin n, cfg.magNode i = true →
          ((s'.nodes i).next.u - ((s.nodes i).cur.u + (s'.dt * cfg.gamma0) * v i).normalize).norm ≤
            s'.dt * cfg.gamma0 * (c * tol) := by
  obtain ⟨m, hm, hmass⟩ := damping_pos hs
  refine ⟨4 / 3 / m, by positivity, ?_⟩
  intro t0 pot inp k F it tol htol s s' hacc hsolved
  obtain ⟨-, -, -, hdt, X, hX, -, hcase⟩ := accepted_kind hacc
  have hdt' : s'.dt = attDt cfg t0 s := by
    change (TimeLoop.step cfg t0 (inp k) s).dt = _
    rcases hcase with ⟨-, e⟩ | ⟨nd, -, e⟩ <;> rw [e] <;> rfl
  have hpos : 0 < s'.dt := by
    rw [hdt']
    exact hv.dtmin.trans_le hdt
  obtain ⟨b, hS⟩ := hsolved
  rw [hX] at hS
  obtain ⟨M, hsys, hsol⟩ := hS
  obtain ⟨-, hex⟩ := C72_solvable hs hv hU hN t0 pot inp k F (inp k).r s'.dt hpos
  obtain ⟨E, hE, -⟩ := hex M b hsys
  obtain ⟨m1, m2⟩ := exact_velocity hs hv hU hN t0 pot inp k F (inp k).r s'.dt hpos E M b hsys hE
  refine ⟨_, m1, m2, ?_⟩
  intro i hi
  have e0 : (s'.nodes i).next.u = (solvedNodes cfg (inp k) X s'.dt s i).next.u := by
    rw [hdt']
    change ((TimeLoop.step cfg t0 (inp k) s).nodes i).next.u = _
    rcases hcase with ⟨-, e⟩ | ⟨nd', hr, e⟩
    · rw [e]
      exact (computeAll_next_u cfg.magNode (inp k).pot _ i).1
    · rw [e]
      exact ((hN _ _ hr i).2.1).trans (computeAll_next_u cfg.magNode (inp k).pot _ i).1
  rw [e0]
  refine ((C75_error hs hv hU hN t0 pot inp k F s'.dt hpos it tol htol b X ⟨M, hsys, hsol⟩ _ m1 m hm hmass).2 i hi).trans ?_
  have hg : 0 ≤ s'.dt * cfg.gamma0 := mul_nonneg hpos.le hs.gamma0.le
  refine mul_le_mul_of_nonneg_left ?_ hg
  have htol0 : 0 ≤ tol := by
    have hT := timeStep hs hv hU hN t0 pot inp k (inp k).r s'.dt hpos
    obtain ⟨hrep, hd, -, -, -⟩ := system_data F hT hs.triValid hsys
    obtain ⟨x, -, hr1, -⟩ := C15_success_converged it tol htol _ _ hrep hd _ _ _ _ hsol
    exact le_trans (Real.sqrt_nonneg _) hr1
  have : tol * min 1 (listNorm b) ≤ tol := by
    have := mul_le_mul_of_nonneg_left (min_le_left 1 (listNorm b)) htol0
    rwa [mul_one] at this
  calc 4 / 3 * (tol * min 1 (listNorm b)) / m = 4 / 3 / m * (tol * min 1 (listNorm b)) := by ring
    _ ≤ 4 / 3 / m * tol := mul_le_mul_of_nonneg_left this (by positivity)

/-- **C75** The first guess of the solver is the velocity of the last attempt, without its component along the
magnetization; it is zero at the nodes that are not magnetic. -/
theorem C75_guess (magN : List Bool) (gamma0 : ℝ) (hg : gamma0 ≠ 0) (r : ℝ) (nd : Fin n → Node) (i : Fin n)
    (hu : IsUnit3 (nd i).cur.u) :
    let g := fun c : Fin (2 * n) => initGuess gamma0 magN (baseProjection r nd) c
    let v := (nd i).next.v
    gamma0 * (g ⟨2 * i, by omega⟩ * (baseProjection r nd i).ep + g ⟨2 * i + 1, by omega⟩ * (baseProjection r nd i).eq) =
      if magN.getD i false = true then v - v.dot (nd i).cur.u * (nd i).cur.u else 0 := by
  intro g v
  have ho : DirectOrthonormal (nd i).cur.u (baseProjection r nd i).ep (baseProjection r nd i).eq :=
    (Node.C37_tangent_basis _ _ hu).1
  have i1 : (2 * (i : ℕ)) / 2 = i := by omega
  have i2 : (2 * (i : ℕ) + 1) / 2 = i := by omega
  have g1 : g ⟨2 * i, by omega⟩ = if magN.getD i false = true then (baseProjection r nd i).projEp / gamma0 else 0 := by
    simp only [g, initGuess, i1, Nat.mul_mod_right, if_true, Fin.eta]
  have g2 : g ⟨2 * i + 1, by omega⟩ = if magN.getD i false = true then (baseProjection r nd i).projEq / gamma0 else 0 := by
    have : (2 * (i : ℕ) + 1) % 2 ≠ 0 := by omega
    simp only [g, initGuess, i2, if_neg this, Fin.eta]
  rw [g1, g2]
  split_ifs with h
  · have hw : (v - v.dot (nd i).cur.u * (nd i).cur.u).dot (nd i).cur.u = 0 := by
      rw [isUnit3_iff, V3.nsq_eq_dot] at hu
      rw [sub_dot, smul_dot, hu]
      ring
    have := expand ho hw
    obtain ⟨-, -, -, h1, -, h3, -⟩ := ho
    have d1 : (v - v.dot (nd i).cur.u * (nd i).cur.u).dot (baseProjection r nd i).ep = (baseProjection r nd i).projEp := by
      rw [sub_dot, smul_dot, h1]
      show _ = v.dot (baseProjection r nd i).ep
      ring
    have d2 : (v - v.dot (nd i).cur.u * (nd i).cur.u).dot (baseProjection r nd i).eq = (baseProjection r nd i).projEq := by
      rw [V3.dot_comm] at h3
      rw [sub_dot, smul_dot, h3]
      show _ = v.dot (baseProjection r nd i).eq
      ring
    rw [d1, d2] at this
    rw [← this]
    ext <;> simp only [V3.add_x, V3.add_y, V3.add_z, V3.smul_x, V3.smul_y, V3.smul_z] <;> field_simp
  · ext <;> simp

/-- the solver returns its guess when that meets the tolerance -/
theorem C75_guess_kept {N : ℕ} (it : Iter) (tol : ℝ) (ht : it.resmax = .fin tol) (K : Mat N)
    (A : Matrix (Fin N) (Fin N) ℝ) (hK : Represents K A) (guess L : Fin N → ℝ) (ld : List (Fin N))
    (h1 : freeNorm ld (Krylov.residual A L guess) ≤ tol)
    (h2 : freeNorm ld (Krylov.residual A L guess) ≤ tol * freeNorm ld L) :
    llgSolve it K (lift guess) (lift L) ld = some (lift guess) := by
  have hb : applyMask ld (lift L) = lift (maskR ld L) := applyMask_lift ld L
  have hr : applyMask ld (Krylov.sub (Krylov.mult K (lift guess)) (lift (maskR ld L))) =
      lift (maskR ld (Krylov.residual A L guess)) := by
    rw [mult_lift hK, sub_lift, applyMask_lift]
    congr 1
    funext i
    unfold maskR Krylov.residual
    split_ifs with hi
    · rfl
    · simp [hi]
  set st := bicgInit it.reset K ld (lift guess) (applyMask ld (lift L)) with hst
  have er : st.r = lift (maskR ld (Krylov.residual A L guess)) := by rw [hst, hb]; exact hr
  have hthr : st.iter.rhsn * st.iter.resmax = .fin (freeNorm ld L * tol) := by
    change Krylov.norm (applyMask ld (lift L)) * it.resmax = _
    rw [hb, norm_lift, ht, freeNorm_eq]
    rfl
  have hn : Krylov.norm st.r = .fin (freeNorm ld (Krylov.residual A L guess)) := by
    rw [er, norm_lift, freeNorm_eq]
  have hfs := finished_spec st.iter (Krylov.norm st.r)
  have habs : (Krylov.norm st.r).abs = .fin (freeNorm ld (Krylov.residual A L guess)) := by rw [norm_abs, hn]
  have hle : (Krylov.norm st.r).abs.le (st.iter.rhsn * st.iter.resmax) := by
    rw [habs, hthr]
    show _ ≤ _
    rw [mul_comm]
    exact h2
  have hc : (st.iter.finished (Krylov.norm st.r)).1 = true ∧ (st.iter.finished (Krylov.norm st.r)).2.status = .CONVERGED := by
    rcases hfs.cases with g | g | g
    · rw [habs] at g; cases g.1
    · exact g.2
    · exact absurd hle g.2.1
  have hbody : bicgBody K (applyMask ld (diagPrecond K)) ld st = (true, { st with iter := (st.iter.finished (Krylov.norm st.r)).2 }) := by
    unfold bicgBody
    dsimp only
    rw [if_pos hc.1]
  have hmask : bicgMask it.reset K (lift guess) (lift L) ld = some { st with iter := (st.iter.finished (Krylov.norm st.r)).2 } := by
    unfold bicgMask
    dsimp only
    rw [← hst]
    obtain ⟨f, hf⟩ : ∃ f, fuel it.reset = f + 1 := ⟨_, rfl⟩
    rw [hf]
    unfold loop
    rw [hbody]
    simp
  unfold llgSolve
  rw [hmask]
  dsimp only
  rw [hc.2, hfs.res, hfs.resmax, habs, if_neg]
  · rfl
  · rintro (h | h | h)
    · cases h
    · cases h
    · change Fl.gt _ it.resmax at h
      rw [ht] at h
      exact h h1

end

/-- the hypotheses of C75 are met by the run of two tetrahedrons: its system is solved, with a tolerance that the guess meets -/
example (H : TriElem.Rule) : ∃ it tol b X, it.resmax = .fin tol ∧ 
    Solved (exP H) (exCfg 1) it (exF H) (baseProjection 0 (run (exCfg 1) 0 exNd (fun _ => (0, 0))
      (fun _ => ⟨false, 0, none, fun _ => (0, 0)⟩) 1).nodes) 10 b (some X) ∧
    ∃ m, 0 < m ∧ ∀ i, (exCfg 1).magNode i = true →
      m ≤ lumpedDamping (exP H).G (exP H).prm (exP H).mag (exP H).tets (fun i => (ext exNd i).p) i := by
  have hT := timeStep (ex_start H 1) (ex_valid 1 zero_le_one) (ex_keeps 1).1 (ex_keeps 1).2 0 (fun _ => (0, 0))
    (fun _ => ⟨false, 0, none, fun _ => (0, 0)⟩) 1 0 10 (by norm_num)
  obtain ⟨⟨M, b, hsys⟩, -⟩ := C72_solvable (ex_start H 1) (ex_valid 1 zero_le_one) (ex_keeps 1).1 (ex_keeps 1).2 0
    (fun _ => (0, 0)) (fun _ => ⟨false, 0, none, fun _ => (0, 0)⟩) 1 (exF H) 0 10 (by norm_num)
  obtain ⟨hrep, -, -, -, -⟩ := system_data (exF H) hT (ex_start H 1).triValid hsys
  obtain ⟨m, hm, hmass⟩ := damping_pos (ex_start H 1)
  obtain ⟨-, -, -, -, -, hnodes⟩ := ex_run1 1 (fun _ => ⟨false, 0, none, fun _ => (0, 0)⟩)
  have hg : initGuess (exCfg 1).gamma0 (magNode (exP H).mag 5 (exP H).tets) (baseProjection 0 (run (exCfg 1) 0 exNd (fun _ => (0, 0))
      (fun _ => ⟨false, 0, none, fun _ => (0, 0)⟩) 1).nodes) = 0 := by
    funext r
    have hz : ∀ (c : V3), (0 : V3).dot c = 0 := fun c => by simp [V3.dot]
    rw [hnodes]
    unfold initGuess
    simp [baseProjection, Node.setBasis, computeAllNodes, setPot, Node.evolution, exNd, Node.projEp, Node.projEq, hz]
  set L : Fin (2 * 5) → ℝ := fun r => b.getD r 0 with hL
  set ld := lvd 5 (magNode (exP H).mag 5 (exP H).tets) with hld
  have hres : ∀ A, Krylov.residual A L 0 = L := fun A => by simp [Krylov.residual]
  have hnn : 0 ≤ freeNorm ld L := Real.sqrt_nonneg _
  refine ⟨Iter.mk' (.fin (max 1 (freeNorm ld L))) false 100, max 1 (freeNorm ld L), b, fun _ => (0, 0), rfl, ⟨M, hsys, ?_⟩, m, hm,
    hmass⟩
  unfold solve
  rw [hg]
  refine (C75_guess_kept _ _ rfl _ _ hrep 0 L ld ?_ ?_).trans ?_
  · exact (congrArg (freeNorm ld) (hres _)).le.trans (le_max_right _ _)
  · refine (congrArg (freeNorm ld) (hres _)).le.trans ?_
    have := mul_le_mul_of_nonneg_right (le_max_left 1 (freeNorm ld L)) hnn
    rwa [one_mul] at this
  · rw [Option.map_some]
    congr 1
    funext r
    simp [lift, unknowns]

end Verif.LlgSolve
