import Verif.Props.LlgSolve

/-!
# C76: a magnetization at equilibrium stays there
-/

namespace Verif.LlgSolve

open Verif.Mesh Verif.Assembly Verif.Tetra Verif.SparseMat Verif.Llg Verif.WeakForm Verif.TimeLoop Verif.Krylov Verif.Run

section
variable {n : ℕ} {ET : Type} {P : Problem} {cfg : Cfg n ET} {nodes : Fin n → Node}

/-- the equation of motion depends on the positions and the current data of the nodes -/
theorem moves_same {F : Fields P} {dt : ℝ} {nd nd' : Fin n → Node} (hp : ∀ i, (nd' i).p = (nd i).p)
    (hc : ∀ i, (nd' i).cur = (nd i).cur) {v : ℕ → V3} (h : Moves P cfg F nd' dt v) : Moves P cfg F nd dt v := by
  have hp' : ∀ i, (ext nd' i).p = (ext nd i).p := by
    intro i; unfold Run.ext; split_ifs
    · exact hp _
    · rfl
  have hc' : ∀ i, (ext nd' i).cur = (ext nd i).cur := by
    intro i; unfold Run.ext; split_ifs
    · exact hc _
    · rfl
  exact ⟨fun i hi => by rw [← hc]; exact h.1 i hi, holds_same F dt _ _ hp' hc' v _ h.2⟩

/-- the right hand side is zero when a zero velocity is required -/
theorem rhs_zero (hs : Start P cfg nodes) (hv : Valid cfg) (hU : RecenterKeepsUnit cfg) (hN : RecenterKeepsNext cfg)
    (t0 : ℝ) (pot : Fin n → ℝ × ℝ) (inp : ℕ → Input n) (k : ℕ) (F : Fields P) (r dt : ℝ) (hdt : 0 < dt) (M : Sp ℝ) (b : List ℝ)
    (heq : Moves P cfg F (run cfg t0 nodes pot inp k).nodes dt (fun _ => 0))
    (hsys : IsSystem P cfg F (baseProjection r (run cfg t0 nodes pot inp k).nodes) dt M b) : ∀ x ∈ b, x = 0 := by
  have hT := timeStep hs hv hU hN t0 pot inp k r dt hdt
  obtain ⟨-, -, -, -, hmul⟩ := system_data F hT hs.triValid hsys
  obtain ⟨order, orderT, before, ho, hoT, hb, h1, h2⟩ := hsys
  obtain ⟨M', b', e1, e2, hiff⟩ := C65_weak_form hT P.H P.sprm P.tris hs.triValid hs.triMag F.Hext F.Hst P.dir F.V order ho
    orderT hoT before hb
  rw [h1] at e1
  cases e1
  rw [h2] at e2
  cases e2
  have hof : ofComp (ext (baseProjection r (run cfg t0 nodes pot inp k).nodes)) (fun _ => 0) = fun _ => 0 := by
    funext i
    unfold ofComp
    ext <;> simp
  have hz : M.mult (fun _ => 0) = b := (hiff _).mpr ⟨fun _ _ _ => ⟨rfl, rfl⟩, by
    change Holds _ _ _ _ _ _ _ _ _ _ _ _ _ (ofComp (ext (baseProjection r (run cfg t0 nodes pot inp k).nodes)) fun _ => 0)
    rw [hof]
    exact (holds_basis F r dt _ _ _).mpr heq.2⟩
  rw [hmul] at hz
  intro x hx
  rw [← hz] at hx
  obtain ⟨i, -, rfl⟩ := List.mem_map.mp hx
  simp

/-- with no velocity and a zero velocity required, the solver returns zero -/
theorem solve_zero (hs : Start P cfg nodes) (hv : Valid cfg) (hU : RecenterKeepsUnit cfg) (hN : RecenterKeepsNext cfg)
    (t0 : ℝ) (pot : Fin n → ℝ × ℝ) (inp : ℕ → Input n) (k : ℕ) (F : Fields P) (r dt : ℝ) (hdt : 0 < dt) (it : Iter) (tol : ℝ)
    (htol : it.resmax = .fin tol) (h0 : 0 ≤ tol) (M : Sp ℝ) (b : List ℝ)
    (heq : Moves P cfg F (run cfg t0 nodes pot inp k).nodes dt (fun _ => 0))
    (hvel : ∀ i, cfg.magNode i = true → ((run cfg t0 nodes pot inp k).nodes i).next.v = 0)
    (hsys : IsSystem P cfg F (baseProjection r (run cfg t0 nodes pot inp k).nodes) dt M b) :
    solve it cfg.gamma0 (magNode P.mag n P.tets) (baseProjection r (run cfg t0 nodes pot inp k).nodes) M b = some (lift 0) := by
  have hT := timeStep hs hv hU hN t0 pot inp k r dt hdt
  obtain ⟨hrep, -, hlen, -, -⟩ := system_data F hT hs.triValid hsys
  have hbz : ∀ c : Fin (2 * n), b.getD c 0 = 0 := by
    intro c
    have hc : (c : ℕ) < b.length := by rw [hlen]; exact c.2
    have := rhs_zero hs hv hU hN t0 pot inp k F r dt hdt M b heq hsys b[(c : ℕ)] (List.getElem_mem hc)
    simpa [List.getD_eq_getElem?_getD, hc] using this
  have hg : initGuess cfg.gamma0 (magNode P.mag n P.tets) (baseProjection r (run cfg t0 nodes pot inp k).nodes) = 0 := by
    funext c
    unfold initGuess
    dsimp only
    split_ifs with hm hp
    all_goals try rfl
    all_goals
      have hvz := hvel ⟨c / 2, by omega⟩ ((magNode_getD hs _).mp hm)
      have hz : ∀ (c : V3), (0 : V3).dot c = 0 := fun c => by simp [V3.dot]
      simp [baseProjection, Node.setBasis, Node.projEp, Node.projEq, hvz, hz]
  have hL : (fun c : Fin (2 * n) => b.getD c 0) = 0 := funext hbz
  unfold solve
  rw [hg, hL]
  have hfn : freeNorm (lvd n (magNode P.mag n P.tets)) (0 : Fin (2 * n) → ℝ) = 0 := by simp [freeNorm]
  have hres : ∀ A, Krylov.residual A (0 : Fin (2 * n) → ℝ) 0 = 0 := fun A => by simp [Krylov.residual]
  exact C75_guess_kept it tol htol _ _ hrep 0 0 _ (((congrArg (freeNorm _) (hres _)).trans hfn).le.trans h0)
    (((congrArg (freeNorm _) (hres _)).trans hfn).le.trans (by rw [hfn, mul_zero]))

theorem sol_zero {sol : Option (Fin n → ℝ × ℝ)}
    (hS : some (lift 0) = sol.map fun X (r : Fin (2 * n)) => Fl.fin (unknowns X r)) : sol = some fun _ => (0, 0) := by
  cases sol with
  | none => cases hS
  | some X =>
    have hX : ∀ c : Fin (2 * n), unknowns X c = 0 := by
      intro c
      have := congrFun (Option.some.inj hS) c
      exact (Fl.fin.inj this).symm
    congr 1
    funext i
    have e1 := hX ⟨2 * i, by omega⟩
    have e2 := hX ⟨2 * i + 1, by omega⟩
    dsimp only at e1 e2
    rw [unknowns_even] at e1
    rw [unknowns_odd] at e2
    exact Prod.ext e1 e2

theorem vMax_zero (g : ℝ) (mag : Fin n → Bool) : vMax g mag (fun _ => (0, 0)) = 0 := by
  have : v2max mag (fun _ : Fin n => ((0 : ℝ), (0 : ℝ))) = 0 := by
    unfold v2max
    generalize List.finRange n = l
    induction l with
    | nil => rfl
    | cons a l ih => simpa using ih
  unfold vMax
  rw [this]
  simp

theorem setPot_next (mag : Fin n → Bool) (pot : Fin n → ℝ × ℝ) (nd : Fin n → Node) (i : Fin n) :
    (setPot mag pot nd i).next.u = (nd i).next.u ∧ (setPot mag pot nd i).next.v = (nd i).next.v := by
  unfold setPot
  split_ifs <;> exact ⟨rfl, rfl⟩

theorem keeps_none (hR : cfg.recenter = some) : RecenterKeepsUnit cfg ∧ RecenterKeepsNext cfg := by
  refine ⟨fun a b h hu => ?_, fun a b h i => ?_⟩ <;> rw [hR] at h <;> cases h
  · exact hu
  · exact ⟨rfl, rfl, rfl⟩

/-- both slots of each node hold the initial data -/
theorem equilibrium_inv (hs : Start P cfg nodes) (hv : Valid cfg) (hR : cfg.recenter = some) (t0 : ℝ) (pot : Fin n → ℝ × ℝ)
    (inp : ℕ → Input n) (hpot : ∀ k, (inp k).pot = pot) (F : ℕ → Fields P) (it : Iter) (tol : ℝ) (htol : it.resmax = .fin tol)
    (h0 : 0 ≤ tol) (hrest : ∀ i, cfg.magNode i = true → (nodes i).next.v = 0)
    (heq : ∀ k dt, 0 < dt → Moves P cfg (F k) (run cfg t0 nodes pot inp 0).nodes dt (fun _ => 0)) (k : ℕ)
    (hsol : ∀ j < k, 0 < attDt cfg t0 (run cfg t0 nodes pot inp j) → ∃ b, Solved P cfg it (F j)
      (baseProjection (inp j).r (run cfg t0 nodes pot inp j).nodes) (attDt cfg t0 (run cfg t0 nodes pot inp j)) b (inp j).sol) :
    (∀ i, ((run cfg t0 nodes pot inp k).nodes i).cur = (setPot cfg.magNode pot nodes i).next ∧
      ((run cfg t0 nodes pot inp k).nodes i).next = (setPot cfg.magNode pot nodes i).next) ∧
      (run cfg t0 nodes pot inp k).flag = 0 := by
  obtain ⟨hU, hN⟩ := keeps_none hR
  induction k with
  | zero => exact ⟨fun i => ⟨rfl, rfl⟩, rfl⟩
  | succ k ih' =>
    have ih := ih' fun j hj => hsol j (by omega)
    change (∀ i, ((step cfg t0 (inp k) (run cfg t0 nodes pot inp k)).nodes i).cur = _ ∧
      ((step cfg t0 (inp k) (run cfg t0 nodes pot inp k)).nodes i).next = _) ∧
      (step cfg t0 (inp k) (run cfg t0 nodes pot inp k)).flag = 0
    have hzero : ¬ attDt cfg t0 (run cfg t0 nodes pot inp k) < cfg.DTMIN → (inp k).sol = some fun _ => (0, 0) := by
      intro hd
      have hpos : 0 < attDt cfg t0 (run cfg t0 nodes pot inp k) := hv.dtmin.trans_le (not_lt.mp hd)
      obtain ⟨b, M, hsys, hS⟩ := hsol k (by omega) hpos
      rw [solve_zero hs hv hU hN t0 pot inp k (F k) (inp k).r _ hpos it tol htol h0 M b
        (moves_same (fun i => by rw [run_pos hN t0 pot inp k i, run_pos hN t0 pot inp 0 i])
          (fun i => by rw [(ih.1 i).1]; rfl) (heq k _ hpos))
        (fun i hi => by rw [(ih.1 i).2, (setPot_next _ _ nodes i).2]; exact hrest i hi) hsys] at hS
      exact sol_zero hS
    -- the nodes after a solve that gave zero
    have hnodes : ∀ i, (solvedNodes cfg (inp k) (fun _ => (0, 0)) (attDt cfg t0 (run cfg t0 nodes pot inp k))
        (run cfg t0 nodes pot inp k) i).next = (setPot cfg.magNode pot nodes i).next := by
      intro i
      have hi := ih.1 i
      unfold solvedNodes updateNodes
      by_cases hm : cfg.magNode i = true
      · rw [if_pos hm]
        unfold Node.makeEvol baseProjection Node.setBasis
        dsimp only
        have hu : ((run cfg t0 nodes pot inp k).nodes i).cur.u.nsq = 1 := by
          have := (allUnit_run hU t0 nodes pot inp hs.unit k i hm).1
          rwa [isUnit3_iff] at this
        have hvz : (setPot cfg.magNode pot nodes i).next.v = 0 := by
          rw [(setPot_next _ _ nodes i).2]; exact hrest i hm
        have hnorm : ∀ w : V3, w.nsq = 1 → w.normalize = w := by
          intro w hw
          rw [V3.normalize_of_pos (by rw [hw]; exact one_pos), hw]
          ext <;> simp
        have e1 : ∀ a b : V3, ((0 : ℝ) * cfg.gamma0) * a + ((0 : ℝ) * cfg.gamma0) * b = 0 := by
          intro a b; ext <;> simp
        have e2 : ((run cfg t0 nodes pot inp k).nodes i).cur.u + attDt cfg t0 (run cfg t0 nodes pot inp k) * (0 : V3) =
            ((run cfg t0 nodes pot inp k).nodes i).cur.u := by ext <;> simp
        rw [e1, e2, hnorm _ hu, hi.1, hi.2, ← hvz]
      · rw [if_neg hm]
        exact hi.2
    cases step_kind cfg t0 (inp k) (run cfg t0 nodes pot inp k) with
    | halted _ e => rw [e]; exact ih
    | output _ _ e =>
      rw [e, forBody_nodes]
      refine ⟨ih.1, ?_⟩
      unfold forBody
      dsimp only
      split_ifs <;> exact ih.2
    | signal _ _ _ e => rw [e]; exact ih
    | small _ _ _ _ e => rw [e]; exact ih
    | fail _ _ _ hd h e => rw [hzero hd] at h; cases h
    | reject _ _ _ hd X h hrej e =>
      rw [hzero hd] at h
      rw [← Option.some.inj h, vMax_zero, mul_zero] at hrej
      exact absurd hv.dumax (not_le.mpr hrej)
    | exitRec _ _ _ _ X _ _ hr e => rw [hR] at hr; cases hr
    | accept _ _ _ hd X h _ nd hr e =>
      rw [hzero hd] at h
      rw [← Option.some.inj h] at hr e
      rw [hR] at hr
      rw [e]
      refine ⟨fun i => ?_, rfl⟩
      rw [← Option.some.inj hr]
      have hi := hnodes i
      change (setPot cfg.magNode (inp k).pot (solvedNodes cfg (inp k) (fun _ => (0, 0)) _ _) i).next = _ ∧
        (setPot cfg.magNode (inp k).pot (solvedNodes cfg (inp k) (fun _ => (0, 0)) _ _) i).next = _
      rw [and_self, hpot k]
      unfold setPot at hi ⊢
      split_ifs at hi ⊢ with hm
      · dsimp only at hi ⊢
        rw [hi]
      · exact hi

/-- **C76** A run without recentering that starts at rest in a magnetization for which a zero velocity satisfies the equation
of motion keeps every magnetization as it is, and no attempt fails. The linear systems are solved by the iterative solver of
the program, whatever its tolerance and the bases chosen. -/
theorem C76_equilibrium (hs : Start P cfg nodes) (hv : Valid cfg) (hR : cfg.recenter = some) (t0 : ℝ) (pot : Fin n → ℝ × ℝ)
    (inp : ℕ → Input n) (hpot : ∀ k, (inp k).pot = pot) (F : ℕ → Fields P) (it : Iter) (tol : ℝ) (htol : it.resmax = .fin tol)
    (h0 : 0 ≤ tol) (hrest : ∀ i, cfg.magNode i = true → (nodes i).next.v = 0)
    (heq : ∀ k dt, 0 < dt → Moves P cfg (F k) (run cfg t0 nodes pot inp 0).nodes dt (fun _ => 0)) (k : ℕ)
    (hsol : ∀ j < k, 0 < attDt cfg t0 (run cfg t0 nodes pot inp j) → ∃ b, Solved P cfg it (F j)
      (baseProjection (inp j).r (run cfg t0 nodes pot inp j).nodes) (attDt cfg t0 (run cfg t0 nodes pot inp j)) b (inp j).sol) :
    (∀ i, ((run cfg t0 nodes pot inp k).nodes i).next.u = (nodes i).next.u ∧
      ((run cfg t0 nodes pot inp k).nodes i).cur.u = (nodes i).next.u) ∧
    (run cfg t0 nodes pot inp k).flag = 0 := by
  obtain ⟨h1, h2⟩ := equilibrium_inv hs hv hR t0 pot inp hpot F it tol htol h0 hrest heq k hsol
  refine ⟨fun i => ?_, h2⟩
  rw [(h1 i).1, (h1 i).2, (setPot_next _ _ nodes i).1]
  exact ⟨rfl, rfl⟩

/-- **C76** If a zero velocity satisfies the equation of motion, a solve that succeeds returns exactly zero, whatever the
velocity it starts from and the tolerance, and the magnetization stays as it is. -/
theorem C76_stops (hs : Start P cfg nodes) (hv : Valid cfg) (hU : RecenterKeepsUnit cfg) (hN : RecenterKeepsNext cfg)
    (t0 : ℝ) (pot : Fin n → ℝ × ℝ) (inp : ℕ → Input n) (k : ℕ) (F : Fields P) (dt : ℝ) (hdt : 0 < dt) (it : Iter) (tol : ℝ)
    (htol : it.resmax = .fin tol) (b : List ℝ) (X : Fin n → ℝ × ℝ) :
    let s := run cfg t0 nodes pot inp k
    Moves P cfg F s.nodes dt (fun _ => 0) → Solved P cfg it F (baseProjection (inp k).r s.nodes) dt b (some X) →
    ∀ i, cfg.magNode i = true → (solvedNodes cfg (inp k) X dt s i).next.v = 0 ∧
      (solvedNodes cfg (inp k) X dt s i).next.u = (s.nodes i).cur.u := by
  intro s heq hsol i hi
  obtain ⟨m, hm, hmass⟩ := damping_pos hs
  obtain ⟨hd, -⟩ := C75_error hs hv hU hN t0 pot inp k F dt hdt it tol htol b X hsol _ heq m hm hmass
  obtain ⟨M, hsys, -⟩ := hsol
  have hb : listNorm b = 0 := by
    unfold listNorm
    rw [List.sum_eq_zero, Real.sqrt_zero]
    intro y hy
    obtain ⟨x, hx, rfl⟩ := List.mem_map.mp hy
    rw [rhs_zero hs hv hU hN t0 pot inp k F (inp k).r dt hdt M b heq hsys x hx]
    simp
  rw [hb, min_eq_right zero_le_one, mul_zero, mul_zero, zero_div] at hd
  set v := ofComp (ext (baseProjection (inp k).r s.nodes)) (unknowns X) with hvdef
  have hz : (v i).nsq = 0 := by
    unfold nodesDist at hd
    have h1 := Real.sqrt_eq_zero'.mp (le_antisymm hd (Real.sqrt_nonneg _))
    have h2 : ∀ j : Fin n, 0 ≤ (if cfg.magNode j = true then (v j - 0).nsq else 0) := by
      intro j
      split_ifs
      · exact V3.nsq_nonneg _
      · exact le_rfl
    have h3 := (Finset.sum_eq_zero_iff_of_nonneg fun j _ => h2 j).mp (le_antisymm h1 (Finset.sum_nonneg fun j _ => h2 j)) i
      (Finset.mem_univ i)
    rw [if_pos hi] at h3
    have : v i - 0 = v i := by ext <;> simp
    rwa [this] at h3
  have hv0 : v i = 0 := by
    have h := hz
    unfold V3.nsq at h
    ext
    · exact mul_self_eq_zero.mp (by nlinarith [mul_self_nonneg (v i).x, mul_self_nonneg (v i).y, mul_self_nonneg (v i).z])
    · exact mul_self_eq_zero.mp (by nlinarith [mul_self_nonneg (v i).x, mul_self_nonneg (v i).y, mul_self_nonneg (v i).z])
    · exact mul_self_eq_zero.mp (by nlinarith [mul_self_nonneg (v i).x, mul_self_nonneg (v i).y, mul_self_nonneg (v i).z])
  obtain ⟨e1, e2⟩ := solved_eq (cfg := cfg) (nodes := nodes) t0 pot inp k i X dt hi
  rw [e1, e2]
  change cfg.gamma0 * v i = 0 ∧ ((s.nodes i).cur.u + (dt * cfg.gamma0) * v i).normalize = _
  rw [hv0]
  have hu : (s.nodes i).cur.u.nsq = 1 := by
    have := (allUnit_run hU t0 nodes pot inp hs.unit k i hi).1
    rwa [isUnit3_iff] at this
  have e3 : (s.nodes i).cur.u + (dt * cfg.gamma0) * (0 : V3) = (s.nodes i).cur.u := by ext <;> simp
  refine ⟨by ext <;> simp, ?_⟩
  rw [e3, V3.normalize_of_pos (by rw [hu]; exact one_pos), hu]
  ext <;> simp

/-- **C76** A uniform magnetization parallel to the field that acts on it (applied, demagnetizing and anisotropy field, all
uniform) is such an equilibrium. -/
theorem C76_uniform (hs : Start P cfg nodes) (nd : Fin n → Node) (hp : ∀ i, (nd i).p = (nodes i).p) (F : Fields P)
    (hst : F.Hst = fun _ _ => 0) (dt : ℝ) (m : Prm) (U W H0 Hd Hdv : V3)
    (hu : Uniform P.G P.prm P.sprm P.mag P.tets P.tris (ext nd) F.Hext m U W H0 Hd Hdv) (hU : U.nsq = 1)
    (hpar : U.cross (fieldOf m (P.step cfg dt) U W H0 Hd Hdv) = 0) : Moves P cfg F nd dt (fun _ => 0) := by
  refine ⟨fun i _ => by simp [V3.dot], ?_⟩
  rw [hst]
  have hpos : (fun i => (ext nd i).p) = fun i => (ext nodes i).p := by
    funext i
    unfold Run.ext
    split_ifs with hi
    · exact hp _
    · rfl
  refine uniform_holds hs.valid (fun t ht => by rw [hpos]; exact hs.oriented t ht) hs.gamma0.ne' P.H hu P.dir F.V 0 ?_
  intro w hw
  -- the field is along U
  set f := fieldOf m (P.step cfg dt) U W H0 Hd Hdv
  have e : (U.dot U) * f.dot w = (U.dot f) * w.dot U - ((U.cross (U.cross f)).dot w) := by
    simp only [V3.dot, V3.cross]; ring
  rw [hpar, hw] at e
  rw [V3.nsq_eq_dot] at hU
  rw [hU] at e
  simp only [V3.dot, V3.cross, V3.zero_x, V3.zero_y, V3.zero_z] at e ⊢
  linarith

end

/-! ## a run that meets the hypotheses -/

noncomputable def eqPrm : Prm := ⟨1 / 2, 1, 4, 3, ⟨0, 0, 1⟩, 0, 0, 0, 0⟩

/-- two tetrahedrons with an easy axis along z -/
noncomputable def eqP (H : TriElem.Rule) : Problem := { exP H with prm := fun _ => eqPrm }

/-- a field along -z, at which the magnetization along z is a metastable state -/
noncomputable def eqF (H : TriElem.Rule) : Fields (eqP H) := { Hext := fun _ _ => ⟨0, 0, -1⟩, Hst := fun _ _ => 0, V := 0 }

noncomputable def eqNd : Fin 5 → Node := fun i => ⟨MeshElem.exP2 i, 0, 0, ⟨0, 0, 0, 0⟩, ⟨⟨0, 0, 1⟩, 0, 0, 0⟩⟩

theorem eq_start (H : TriElem.Rule) : Start (eqP H) (exCfg 1) eqNd :=
  { ex_start H 1 with
    oriented := by
      intro t ht
      have e : (fun i => (ext eqNd i).p) = fun i => (ext exNd i).p := by
        funext i
        unfold Run.ext
        split_ifs <;> rfl
      rw [e]
      exact (ex_start H 1).oriented t ht
    unit := fun i _ => by simp [eqNd, IsUnit3]
    alpha := fun _ _ => by norm_num [eqP, eqPrm]
    exchange := fun _ _ => by norm_num [eqP, eqPrm]
    magnetic := fun _ _ => by norm_num [eqP, eqPrm] }

/-- the hypotheses of C76 are met, by a run in which every solve returns zero -/
example (H : TriElem.Rule) : let inp : ℕ → Input 5 := fun k => ⟨false, k, some fun _ => (0, 0), fun _ => (0, 0)⟩
    Start (eqP H) (exCfg 1) eqNd ∧ Valid (exCfg 1) ∧ (exCfg 1).recenter = some ∧
    (∀ k, (inp k).pot = fun _ => (0, 0)) ∧ (∀ i, (exCfg 1).magNode i = true → (eqNd i).next.v = 0) ∧
    (∀ dt, 0 < dt → Moves (eqP H) (exCfg 1) (eqF H) (run (exCfg 1) 0 eqNd (fun _ => (0, 0)) inp 0).nodes dt (fun _ => 0)) ∧
    ∀ k, 0 < attDt (exCfg 1) 0 (run (exCfg 1) 0 eqNd (fun _ => (0, 0)) inp k) → ∃ b,
      Solved (eqP H) (exCfg 1) (Iter.mk' (.fin (1 / 1000)) false 100) (eqF H)
        (baseProjection (inp k).r (run (exCfg 1) 0 eqNd (fun _ => (0, 0)) inp k).nodes)
        (attDt (exCfg 1) 0 (run (exCfg 1) 0 eqNd (fun _ => (0, 0)) inp k)) b (inp k).sol := by
  intro inp
  have hs := eq_start H
  have hv := ex_valid 1 zero_le_one
  have hrest : ∀ i, (exCfg 1).magNode i = true → (eqNd i).next.v = 0 := fun _ _ => rfl
  have heq : ∀ dt, 0 < dt →
      Moves (eqP H) (exCfg 1) (eqF H) (run (exCfg 1) 0 eqNd (fun _ => (0, 0)) inp 0).nodes dt (fun _ => 0) := by
    intro dt _
    have hval : ∀ t ∈ magTet (eqP H).mag (eqP H).tets, ∀ k, t.ind k < 5 :=
      fun t ht => hs.valid t (List.mem_filter.mp ht).1
    have hn : ∀ i, (h : i < 5) → (ext (run (exCfg 1) 0 eqNd (fun _ => (0, 0)) inp 0).nodes i).cur = ⟨⟨0, 0, 1⟩, 0, 0, 0⟩ := by
      intro i h
      unfold Run.ext
      rw [dif_pos h]
      rfl
    refine C76_uniform hs _ (fun i => run_pos (ex_keeps 1).2 0 (fun _ => (0, 0)) inp 0 i) _ rfl dt eqPrm ⟨0, 0, 1⟩ 0 ⟨0, 0, -1⟩
      0 0 ?_ ?_ ?_
    · exact ⟨fun _ _ => rfl, rfl, fun t ht k => by rw [hn _ (hval t ht k)], fun t ht k => by rw [hn _ (hval t ht k)], fun _ _ _ => rfl,
        fun t ht => Energy.interpField_zero _ _ (fun k => congrArg DataNode.phi (hn _ (hval t ht k))),
        fun t ht => Energy.interpField_zero _ _ (fun k => congrArg DataNode.phiv (hn _ (hval t ht k))), fun _ _ => rfl⟩
    · simp [V3.nsq]
    · ext <;> simp [fieldOf, V3.cross, eqPrm]
  refine ⟨hs, hv, rfl, fun _ => rfl, hrest, heq, ?_⟩
  intro k
  induction k using Nat.strong_induction_on with
  | _ k ih =>
    intro hpos
    have hinv := equilibrium_inv hs hv rfl 0 (fun _ => (0, 0)) inp (fun _ => rfl) (fun _ => eqF H) _ (1 / 1000) rfl (by norm_num)
      hrest (fun _ => heq) k ih
    obtain ⟨⟨M, b, hsys⟩, -⟩ := C72_solvable hs hv (ex_keeps 1).1 (ex_keeps 1).2 0 (fun _ => (0, 0)) inp k (eqF H) (inp k).r _ hpos
    refine ⟨b, M, hsys, ?_⟩
    rw [solve_zero hs hv (ex_keeps 1).1 (ex_keeps 1).2 0 (fun _ => (0, 0)) inp k (eqF H) (inp k).r _ hpos _ (1 / 1000) rfl
      (by norm_num) M b (moves_same (fun i => by
          rw [run_pos (ex_keeps 1).2 0 (fun _ => (0, 0)) inp k i, run_pos (ex_keeps 1).2 0 (fun _ => (0, 0)) inp 0 i])
        (fun i => by rw [(hinv.1 i).1]; rfl) (heq _ hpos))
      (fun i hi => by rw [(hinv.1 i).2, (setPot_next _ _ eqNd i).2]; rfl) hsys]
    change _ = some _
    congr 1
    funext r
    simp [lift, unknowns]

end Verif.LlgSolve
