import Verif.Proofs.Balance
import Verif.Props.MeshElem

/-!
# C99: energy balance in an applied field that varies with time
-/

namespace Verif.Balance

open Verif.Mesh Verif.Assembly Verif.Tetra Verif.SparseMat Verif.Llg Verif.WeakForm Verif.TimeLoop Verif.Run Verif.Converge Verif.SemiDiscrete Verif.Relax Set

section
variable {n : ℕ} {ET : Type} {P : Problem} {cfg : Cfg n ET} {nodes : Fin n → Node} {D : Media n P} {H : ℝ → Tet → Fin P.G.n → V3} {Ms : ℝ}

/-- **C99** There are `C` and a limit for `max(dt)`, the same for all initial magnetizations, such that between any two states of a run
up to the time `T` the total energy changes by the work of the variation of the applied field less the energy lost by damping, up to
`C max(dt)` per unit of time. The energy lost is never negative. -/
theorem C99_balance (hs : Start P cfg nodes) (hd : P.dir = none) (h : Driven P (fun i => (ext nodes i).p) D H Ms) (t0 T : ℝ) :
    ∃ C δ, 0 < C ∧ 0 < δ ∧ ∀ (cfg' : Cfg n ET) (nodes' : Fin n → Node) (inp : ℕ → Input n) (V : ℕ → ℝ),
      cfg'.gamma0 = cfg.gamma0 → cfg'.magNode = cfg.magNode → (∀ i, (nodes' i).p = (nodes i).p) →
      (∀ i, cfg.magNode i = true → IsUnit3 (nodes' i).next.u ∧ (nodes' i).next.v = 0) →
      Valid cfg' → NoRecenter cfg' → (∀ t dt, cfg'.add t dt = t + dt) → cfg'.DTMAX ≤ δ →
      ExactRun P cfg' (D.world cfg'.magNode) V t0 nodes' inp →
      let s := run cfg' t0 nodes' ((D.world cfg'.magNode).pot nodes') inp
      let p := fun i => (ext nodes i).p
      let W := fun k => energyOf P p D (H (s k).t) cfg.magNode fun i => ((s k).nodes i).cur.u
      ∀ j j', j ≤ j' → (s j').t ≤ T →
        0 ≤ heat P p cfg' s j j' ∧
        |W j' - W j - (input P p H cfg' s j j' - heat P p cfg' s j j')| ≤ C * cfg'.DTMAX * ((s j').t - (s j).t) := by
  obtain ⟨C, δ, hC, hδ, hk⟩ := core (ET := ET) hs hd h t0 T
  refine ⟨2 * C, δ, by positivity, hδ, ?_⟩
  intro cfg' nodes' inp V h1 h2 h3 h4 h5 h6 h7 h8 h9 s p W j j' hj
  have hst := hk cfg' nodes' inp V h1 h2 h3 h4 h5 h6 h7 h8 h9
  induction j', hj using Nat.le_induction with
  | base =>
    intro _
    unfold heat input
    simp
  | succ k hjk ih =>
    intro hT
    obtain ⟨a1, a2, a3, a4, -⟩ := hst k
    obtain ⟨b1, b2⟩ := ih (a1.trans hT)
    have e1 : heat P p cfg' s j (k + 1) = heat P p cfg' s j k + ((s (k + 1)).t - (s k).t) *
        power P p cfg'.gamma0 (extV (masked cfg'.magNode fun a => ((s (k + 1)).nodes a).cur.v)) := Finset.sum_Ico_succ_top hjk _
    have e2 : input P p H cfg' s j (k + 1) = input P p H cfg' s j k + fieldWork P p (fun t a => H (s (k + 1)).t t a - H (s k).t t a)
        (extV (masked cfg'.magNode fun a => ((s (k + 1)).nodes a).cur.u)) := Finset.sum_Ico_succ_top hjk _
    have a1' : (s k).t ≤ (s (k + 1)).t := a1
    have a4' := a4 hT
    refine ⟨?_, ?_⟩
    · rw [e1]
      exact add_nonneg b1 (mul_nonneg (by linarith) a3)
    · rw [e1, e2]
      set q := ((s (k + 1)).t - (s k).t) * power P p cfg'.gamma0 (extV (masked cfg'.magNode fun a => ((s (k + 1)).nodes a).cur.v)) with hq
      set f := fieldWork P p (fun t a => H (s (k + 1)).t t a - H (s k).t t a)
        (extV (masked cfg'.magNode fun a => ((s (k + 1)).nodes a).cur.u)) with hf
      have c1 : |W (k + 1) - W k + q - f| ≤ C * ((s (k + 1)).t - (s k).t) ^ 2 := a4'
      have c2 : C * ((s (k + 1)).t - (s k).t) ^ 2 ≤ 2 * C * cfg'.DTMAX * ((s (k + 1)).t - (s k).t) := by
        have d1 : (s (k + 1)).t - (s k).t ≤ 2 * cfg'.DTMAX := a2
        have d2 : 0 ≤ (s (k + 1)).t - (s k).t := by linarith
        nlinarith [mul_nonneg hC.le d2]
      have e : W (k + 1) - W j - (input P p H cfg' s j k + f - (heat P p cfg' s j k + q)) =
          (W k - W j - (input P p H cfg' s j k - heat P p cfg' s j k)) + (W (k + 1) - W k + q - f) := by ring
      rw [e]
      refine (abs_add_le _ _).trans ?_
      linarith

/-- **C99** A cycle, at the end of which the magnetization and the applied field are those of the beginning, takes from the applied field
the energy lost by damping (the area of the loop is the loss), up to `C max(dt)` per unit of time: a run does not create energy. -/
theorem C99_cycle (hs : Start P cfg nodes) (hd : P.dir = none) (h : Driven P (fun i => (ext nodes i).p) D H Ms) (t0 T : ℝ) :
    ∃ C δ, 0 < C ∧ 0 < δ ∧ ∀ (cfg' : Cfg n ET) (nodes' : Fin n → Node) (inp : ℕ → Input n) (V : ℕ → ℝ),
      cfg'.gamma0 = cfg.gamma0 → cfg'.magNode = cfg.magNode → (∀ i, (nodes' i).p = (nodes i).p) →
      (∀ i, cfg.magNode i = true → IsUnit3 (nodes' i).next.u ∧ (nodes' i).next.v = 0) →
      Valid cfg' → NoRecenter cfg' → (∀ t dt, cfg'.add t dt = t + dt) → cfg'.DTMAX ≤ δ →
      ExactRun P cfg' (D.world cfg'.magNode) V t0 nodes' inp →
      let s := run cfg' t0 nodes' ((D.world cfg'.magNode).pot nodes') inp
      let p := fun i => (ext nodes i).p
      ∀ j j', j ≤ j' → (s j').t ≤ T → H (s j').t = H (s j).t →
        (∀ i, cfg.magNode i = true → ((s j').nodes i).cur.u = ((s j).nodes i).cur.u) →
        |input P p H cfg' s j j' - heat P p cfg' s j j'| ≤ C * cfg'.DTMAX * ((s j').t - (s j).t) ∧
        -(C * cfg'.DTMAX * ((s j').t - (s j).t)) ≤ input P p H cfg' s j j' := by
  obtain ⟨C, δ, hC, hδ, hk⟩ := C99_balance (ET := ET) hs hd h t0 T
  refine ⟨C, δ, hC, hδ, ?_⟩
  intro cfg' nodes' inp V h1 h2 h3 h4 h5 h6 h7 h8 h9 s p j j' hj hT hH hu
  obtain ⟨a, b⟩ := hk cfg' nodes' inp V h1 h2 h3 h4 h5 h6 h7 h8 h9 j j' hj hT
  change 0 ≤ heat P p cfg' s j j' at a
  change |energyOf P p D (H (s j').t) cfg.magNode (fun i => ((s j').nodes i).cur.u)
    - energyOf P p D (H (s j).t) cfg.magNode (fun i => ((s j).nodes i).cur.u) - (input P p H cfg' s j j' - heat P p cfg' s j j')| ≤
    C * cfg'.DTMAX * ((s j').t - (s j).t) at b
  have e : masked cfg.magNode (fun i => ((s j').nodes i).cur.u) = masked cfg.magNode fun i => ((s j).nodes i).cur.u := masked_solved cfg _ _ hu
  have e2 : energyOf P p D (H (s j').t) cfg.magNode (fun i => ((s j').nodes i).cur.u) =
      energyOf P p D (H (s j).t) cfg.magNode fun i => ((s j).nodes i).cur.u := by
    unfold energyOf
    rw [hH, e]
  rw [e2, sub_self, zero_sub, abs_neg] at b
  exact ⟨b, by linarith [(abs_le.mp b).1]⟩

/-- **C99** The same between the states in any two rows of the output up to the time `T`. -/
theorem C99_rows (hs : Start P cfg nodes) (hd : P.dir = none) (h : Driven P (fun i => (ext nodes i).p) D H Ms) (t0 T : ℝ) :
    ∃ C δ, 0 < C ∧ 0 < δ ∧ ∀ (cfg' : Cfg n ET) (nodes' : Fin n → Node) (inp : ℕ → Input n) (V : ℕ → ℝ),
      cfg'.gamma0 = cfg.gamma0 → cfg'.magNode = cfg.magNode → (∀ i, (nodes' i).p = (nodes i).p) →
      (∀ i, cfg.magNode i = true → IsUnit3 (nodes' i).next.u ∧ (nodes' i).next.v = 0) →
      Valid cfg' → NoRecenter cfg' → (∀ t dt, cfg'.add t dt = t + dt) → cfg'.DTMAX ≤ δ →
      ExactRun P cfg' (D.world cfg'.magNode) V t0 nodes' inp →
      let s := run cfg' t0 nodes' ((D.world cfg'.magNode).pot nodes') inp
      let p := fun i => (ext nodes i).p
      let W := fun r : Row n ET => energyOf P p D (H r.t) cfg.magNode fun i => (r.nodes i).next.u
      ∀ k, (s k).rows.Pairwise fun r r' => r'.t ≤ T → ∃ j j', j < j' ∧ j' < k ∧ (s j).t = r.t ∧ (s j').t = r'.t ∧
        |W r' - W r - (input P p H cfg' s j j' - heat P p cfg' s j j')| ≤ C * cfg'.DTMAX * (r'.t - r.t) := by
  obtain ⟨C, δ, hC, hδ, hk⟩ := C99_balance (ET := ET) hs hd h t0 T
  obtain ⟨C', δ', hC', hδ', hk'⟩ := core (ET := ET) hs hd h t0 T
  refine ⟨C, min δ δ', hC, lt_min hδ hδ', ?_⟩
  intro cfg' nodes' inp V h1 h2 h3 h4 h5 h6 h7 h8 h9 s p W
  have hbal := hk cfg' nodes' inp V h1 h2 h3 h4 h5 h6 h7 (h8.trans (min_le_left _ _)) h9
  have hst := hk' cfg' nodes' inp V h1 h2 h3 h4 h5 h6 h7 (h8.trans (min_le_right _ _)) h9
  have key : ∀ k, (∀ r ∈ (s k).rows, ∃ j < k, (s j).t = r.t ∧ ∀ i, (r.nodes i).next.u = ((s j).nodes i).cur.u) ∧
      (s k).rows.Pairwise fun r r' => ∃ j j', j < j' ∧ j' < k ∧ ((s j).t = r.t ∧ ∀ i, (r.nodes i).next.u = ((s j).nodes i).cur.u) ∧
        ((s j').t = r'.t ∧ ∀ i, (r'.nodes i).next.u = ((s j').nodes i).cur.u) := by
    intro k
    induction k with
    | zero => exact ⟨fun r hr => absurd hr List.not_mem_nil, List.Pairwise.nil⟩
    | succ k ih =>
      obtain ⟨ih1, ih2⟩ := ih
      have up1 : ∀ r ∈ (s k).rows, ∃ j < k + 1, (s j).t = r.t ∧ ∀ i, (r.nodes i).next.u = ((s j).nodes i).cur.u :=
        fun r hr => (ih1 r hr).imp fun j hj => ⟨hj.1.trans (Nat.lt_succ_self _), hj.2⟩
      have up2 := ih2.imp (S := fun r r' => ∃ j j', j < j' ∧ j' < k + 1 ∧ ((s j).t = r.t ∧ ∀ i, (r.nodes i).next.u = ((s j).nodes i).cur.u) ∧
        ((s j').t = r'.t ∧ ∀ i, (r'.nodes i).next.u = ((s j').nodes i).cur.u)) fun {r r'} hj => by
          obtain ⟨j, j', a, b, c⟩ := hj
          exact ⟨j, j', a, b.trans (Nat.lt_succ_self _), c⟩
      obtain ⟨-, -, -, -, hr⟩ := hst k
      change (s (k + 1)).rows = (s k).rows ∨
          ∃ r : Row n ET, (s (k + 1)).rows = (s k).rows ++ [r] ∧ r.t = (s k).t ∧ ∀ i, (r.nodes i).next.u = ((s k).nodes i).cur.u at hr
      rcases hr with hr | ⟨r0, hr, e1, e2⟩
      · rw [hr]
        exact ⟨up1, up2⟩
      · rw [hr]
        refine ⟨fun r hr' => ?_, List.pairwise_append.mpr ⟨up2, List.pairwise_singleton _ _, fun r hr' r' hr'' => ?_⟩⟩
        · rcases List.mem_append.mp hr' with h' | h'
          · exact up1 r h'
          · rw [List.mem_singleton.mp h']
            exact ⟨k, Nat.lt_succ_self _, e1.symm, e2⟩
        · rw [List.mem_singleton.mp hr'']
          obtain ⟨j, hj, hj'⟩ := ih1 r hr'
          exact ⟨j, k, hj, Nat.lt_succ_self _, hj', e1.symm, e2⟩
  intro k
  refine (key k).2.imp fun {r r'} hj hT => ?_
  obtain ⟨j, j', a, b, ⟨c1, c2⟩, d1, d2⟩ := hj
  refine ⟨j, j', a, b, c1, d1, ?_⟩
  have := (hbal j j' a.le (d1.le.trans hT)).2
  change |energyOf P p D (H (s j').t) cfg.magNode (fun i => ((s j').nodes i).cur.u)
    - energyOf P p D (H (s j).t) cfg.magNode (fun i => ((s j).nodes i).cur.u) - (input P p H cfg' s j j' - heat P p cfg' s j j')| ≤
    C * cfg'.DTMAX * ((s j').t - (s j).t) at this
  rw [c1, d1] at this
  simp only [W, c2, d2]
  exact this

/-- **C99** For a change `h` of a uniform applied field, the work is `- mu0 Ms V <m>·h` with the magnetic volume `V` and the averages
written in the output. -/
theorem C99_columns (hs : Start P cfg nodes) (hMs : ∀ t ∈ magTet P.mag P.tets, (P.prm t.reg).Ms = Ms) (hne : ∃ t ∈ P.tets, P.mag t.reg = true)
    (nreg : ℕ) (u : ℕ → V3) (h : V3) :
    let p := fun i => (ext nodes i).p
    let m := fun f : V3 → ℝ => MeshElem.avg P.G p P.mag nreg P.tets (fun i => f (u i)) none
    fieldWork P p (fun _ _ => h) u = -(P.mu0 * Ms * (MeshElem.volumes P.G p P.mag nreg P.tets).2 * (h.x * m V3.x + h.y * m V3.y + h.z * m V3.z)) := by
  intro p m
  have hV : (MeshElem.volumes P.G p P.mag nreg P.tets).2 ≠ 0 := by
    rw [MeshElem.magVol_eq]
    obtain ⟨t, h1, h2⟩ := hne
    refine ne_of_gt (List.sum_pos _ (fun x hx => ?_) ?_)
    · obtain ⟨t, ht, rfl⟩ := List.mem_map.mp hx
      exact MeshElem.C55_positive P.G hs.rule p t (hs.oriented t (List.mem_filter.mp ht).1)
    · intro hc
      have := List.map_eq_nil_iff.mp hc
      have ht : t ∈ magTet P.mag P.tets := List.mem_filter.mpr ⟨h1, h2⟩
      rw [this] at ht
      exact List.not_mem_nil ht
  have hm : ∀ f : V3 → ℝ, (MeshElem.volumes P.G p P.mag nreg P.tets).2 * m f = ((magTet P.mag P.tets).map fun t =>
      ∑ j, weight P.G (fun k => p (t.ind k)) j * interpS P.G (fun k => f (u (t.ind k))) j).sum := by
    intro f
    change (MeshElem.volumes P.G p P.mag nreg P.tets).2 * MeshElem.avg _ _ _ _ _ _ _ = _
    unfold MeshElem.avg
    dsimp only
    rw [mul_div_cancel₀ _ hV]
    refine congrArg List.sum (List.map_congr_left fun t _ => ?_)
    rw [if_neg (by simp)]
    rfl
  have e : P.mu0 * Ms * (MeshElem.volumes P.G p P.mag nreg P.tets).2 * (h.x * m V3.x + h.y * m V3.y + h.z * m V3.z) =
      P.mu0 * Ms * (h.x * ((MeshElem.volumes P.G p P.mag nreg P.tets).2 * m V3.x)
        + h.y * ((MeshElem.volumes P.G p P.mag nreg P.tets).2 * m V3.y) + h.z * ((MeshElem.volumes P.G p P.mag nreg P.tets).2 * m V3.z)) := by ring
  rw [e, hm, hm, hm]
  unfold fieldWork
  rw [List.map_congr_left (g := fun t => Ms * work P.G (fun k => p (t.ind k)) (fun _ => h) fun k => u (t.ind k)) fun t ht => by rw [hMs t ht],
    List.sum_map_mul_left, ← List.sum_map_mul_left (r := h.x), ← List.sum_map_mul_left (r := h.y), ← List.sum_map_mul_left (r := h.z),
    ← List.sum_map_add, ← List.sum_map_add, mul_assoc]
  congr 4
  refine List.map_congr_left fun t _ => ?_
  unfold work
  rw [Finset.mul_sum, Finset.mul_sum, Finset.mul_sum, ← Finset.sum_add_distrib, ← Finset.sum_add_distrib]
  refine Finset.sum_congr rfl fun j _ => ?_
  unfold interpV interpS V3.dot
  simp only [Fin.sum_univ_four, V3.add_x, V3.add_y, V3.add_z, V3.smul_x, V3.smul_y, V3.smul_z]
  ring

end

/-! ## A case that meets the hypotheses -/

/-- a field that oscillates -/
noncomputable def exField (H : TriElem.Rule) (t : ℝ) : Tet → Fin (Relax.exP H).G.n → V3 := fun e j => Real.sin t * Energy.ex2H e j

/-- the sample of C90 in this field -/
noncomputable def exDriven (H : TriElem.Rule) : Media 5 (Relax.exP H) := { Relax.exMedia H with Hext := fun t _ => exField H t }

theorem ex_driven (H : TriElem.Rule) : Driven (Relax.exP H) (fun i => (ext exNd i).p) (exDriven H) (exField H) 1 where
  applied _ _ := rfl
  instant t := { Relax.ex_steady H with applied := fun _ _ => rfl }
  smooth t j := by
    refine ⟨?_, ?_, ?_⟩ <;> exact Real.contDiff_sin.mul contDiff_const

/-- For every largest step `d` the hypotheses hold for some run, from a magnetization which is not uniform. -/
example (H : TriElem.Rule) (d : ℝ) (hd : 0 < d) : Start (Relax.exP H) (exCfg 1) exNd ∧ (Relax.exP H).dir = none ∧
    Driven (Relax.exP H) (fun i => (ext exNd i).p) (exDriven H) (exField H) 1 ∧
    (exCfgDt d).gamma0 = (exCfg 1).gamma0 ∧ (exCfgDt d).magNode = (exCfg 1).magNode ∧
    (∀ i, (exCfg 1).magNode i = true → IsUnit3 (exNd i).next.u ∧ (exNd i).next.v = 0) ∧
    Valid (exCfgDt d) ∧ NoRecenter (exCfgDt d) ∧ (∀ t dt, (exCfgDt d).add t dt = t + dt) ∧
    (∃ inp, ExactRun (Relax.exP H) (exCfgDt d) ((exDriven H).world (exCfgDt d).magNode) (fun _ => 0) 0 exNd inp ∧
      ∀ k, (inp k).sig = false ∧ (inp k).sol ≠ none) ∧ ∃ t ∈ (Relax.exP H).tets, (Relax.exP H).mag t.reg = true := by
  have hs := Relax.ex_start' H
  have hs' : Start (Relax.exP H) (exCfgDt d) exNd := { hs with }
  have hv : Valid (exCfgDt d) := ⟨by change 0 < d / 10; positivity, by change d / 10 ≤ d; linarith, by norm_num [exCfgDt, Run.exCfg],
    by norm_num [exCfgDt, Run.exCfg], fun t dt => by
      have : (0 : ℝ) ≤ d / 10 / 2 := by positivity
      simpa [exCfgDt, Run.exCfg] using this⟩
  obtain ⟨inp, h1, h2⟩ := exists_exactRun hs' hv (ex_keeps 1).1 (ex_keeps 1).2 ((exDriven H).world (exCfgDt d).magNode) (fun _ => 0) 0
    (fun _ => 0)
  exact ⟨hs, rfl, ex_driven H, rfl, rfl, fun i hi => ⟨hs.unit i hi, rfl⟩, hv, fun _ => rfl, fun _ _ => rfl, ⟨inp, h1,
    fun k => ⟨(h2 k).1, (h2 k).2.2⟩⟩, _, List.mem_cons_self, rfl⟩

end Verif.Balance
