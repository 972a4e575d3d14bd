import Verif.Proofs.Motion
import Verif.Props.SpinOhm

/-!
# C117: potential and spin accumulation of a sample turned as a whole, and of spins turned alone
-/

namespace Verif.Electro

open Verif.Mesh Verif.MeshElem Verif.Tetra Verif.Llg

/-! ## Specification -/

/-- the spins which leave through a surface, as a vector -/
noncomputable def flowV (c : Consts) (q : SurfPrm) : V3 := ⟨flow c q 0, flow c q 1, flow c q 2⟩

/-- the body displaced by `N`, with other settings of the surfaces -/
def SpinData.displaced (d : SpinData) (N : Motion) (surf : ℕ → SurfPrm) : SpinData := { d with p := fun i => N.pt (d.p i), surf := surf }

/-- magnetizations turned by `M` -/
def turned (M : Motion) (s : MagState) : MagState := ⟨fun i => M.vec (s.cur i), fun i => M.vec (s.next i)⟩

/-- the vectors of the settings of a surface turned by `M`: polarization and spin vector are both given, or not, in `q` and `q'` -/
structure TurnedSurf (M : Motion) (q q' : SurfPrm) : Prop where
  jn : q'.jn = q.jn
  V : q'.V = q.V
  uP : (∃ u : V3, (∀ b, q.uP b = .fin (u.comp b)) ∧ ∀ b, q'.uP b = .fin ((M.vec u).comp b)) ∨ ((¬ ∀ b, (q.uP b).IsFin) ∧ ¬ ∀ b, (q'.uP b).IsFin)
  s : (∃ u : V3, (∀ b, q.s b = .fin (u.comp b)) ∧ ∀ b, q'.s b = .fin ((M.vec u).comp b)) ∨ ((¬ ∀ b, (q.s b).IsFin) ∧ ¬ ∀ b, (q'.s b).IsFin)

/-! ## Lemmas -/

section
variable {G : Rule} {H : TriElem.Rule} {nod : ℕ}

theorem gradV_move (N : Motion) (p : Fin 4 → V3) (f : Fin 4 → ℝ) : gradV (fun i => N.pt (p i)) f = N.vec (gradV p f) := by
  unfold gradV
  rw [N.vec_sum]
  exact Finset.sum_congr rfl fun i _ => by rw [N.daRow_move, N.vec_smul]

/-- the exchange of two nodal fields through the gradients depends on their scalar products -/
theorem gradV_comp (p : Fin 4 → V3) (w x : ℕ → V3) (t : Tet) :
    ∑ a : Fin 3, (gradV p (comp4 w a t)).dot (gradV p (comp4 x a t)) = ∑ i, ∑ j, (daRow p i).dot (daRow p j) * (w (t.ind i)).dot (x (t.ind j)) := by
  simp only [gradV_dot]
  rw [Finset.sum_comm]
  refine Finset.sum_congr rfl fun i _ => ?_
  rw [Finset.sum_comm]
  refine Finset.sum_congr rfl fun j _ => ?_
  rw [← Finset.mul_sum]
  congr 1
  simp [Fin.sum_univ_three, comp4, V3.comp, V3.dot]

theorem surfTerm_dot (d : SpinData) (w : ℕ → V3) (f : Tri) :
    surfTerm d w f = TriElem.surf (nod3 d.p f) * ((flowV d.c (d.surf f.reg)).dot (w (f.ind 0) + w (f.ind 1) + w (f.ind 2)) / 3) := by
  unfold surfTerm flowV
  simp only [Fin.sum_univ_three, V3.dot, V3.add_x, V3.add_y, V3.add_z]
  show TriElem.surf (nod3 d.p f) * (flow d.c (d.surf f.reg) 0 * (((w (f.ind 0)).x + (w (f.ind 1)).x + (w (f.ind 2)).x) / 3) +
    flow d.c (d.surf f.reg) 1 * (((w (f.ind 0)).y + (w (f.ind 1)).y + (w (f.ind 2)).y) / 3) +
    flow d.c (d.surf f.reg) 2 * (((w (f.ind 0)).z + (w (f.ind 1)).z + (w (f.ind 2)).z) / 3)) = _
  ring

theorem spinWeak_turned (d : SpinData) (M N : Motion) (q : ℕ → SurfPrm) (hq : ∀ f ∈ d.tris, flowV d.c (q f.reg) = M.vec (flowV d.c (d.surf f.reg)))
    (m n w x : ℕ → V3) :
    spinWeak (d.displaced N q) (fun i => M.vec (m i)) (fun i => M.vec (n i)) (fun i => M.vec (w i)) (fun i => M.vec (x i)) = spinWeak d m n w x := by
  rw [spinWeak_terms, spinWeak_terms]
  have e1 : (d.displaced N q).tets = d.tets := rfl
  have e2 : (d.displaced N q).tris = d.tris := rfl
  rw [e1, e2]
  congr 2
  · refine List.map_congr_left fun t _ => ?_
    have ep : nod4 (d.displaced N q).p t = fun i => N.pt (nod4 d.p t i) := rfl
    unfold volTerm
    rw [gradV_comp, gradV_comp, ep]
    simp only [N.daRow_move, N.vec_dot, N.detJ_move, gradV_move, M.vec_dot, M.vec_cross]
    rfl
  · refine List.map_congr_left fun f hf => ?_
    rw [surfTerm_dot, surfTerm_dot]
    have ep : nod3 (d.displaced N q).p f = fun i => N.pt (nod3 d.p f i) := rfl
    have es : flowV (d.displaced N q).c ((d.displaced N q).surf f.reg) = flowV d.c (q f.reg) := rfl
    rw [ep, N.surf_move, es, hq f hf, ← M.vec_add, ← M.vec_add, M.vec_dot]

theorem displaced_problem {d : SpinData} (h : SpinProblem G H nod d) (N : Motion) (q : ℕ → SurfPrm) : SpinProblem G H nod (d.displaced N q) :=
  ⟨h.rule, h.ruleT, h.valid, h.validT, fun t ht => by
    have ep : nod4 (d.displaced N q).p t = fun i => N.pt (nod4 d.p t i) := rfl
    rw [ep, N.detJ_move]
    exact h.oriented t ht⟩

open Classical in
theorem flowV_turned {c : Consts} {M : Motion} {q q' : SurfPrm} (h : TurnedSurf M q q') : flowV c q' = M.vec (flowV c q) := by
  have hs : (fun a => if ∀ b, (q'.s b).IsFin then (q'.s a).val else 0) =
      fun a => (M.vec ⟨if ∀ b, (q.s b).IsFin then (q.s 0).val else 0, if ∀ b, (q.s b).IsFin then (q.s 1).val else 0,
        if ∀ b, (q.s b).IsFin then (q.s 2).val else 0⟩).comp a := by
    rcases h.s with ⟨u, h1, h2⟩ | ⟨h1, h2⟩
    · have f1 : ∀ b, (q.s b).IsFin := fun b => by rw [h1 b]; trivial
      have f2 : ∀ b, (q'.s b).IsFin := fun b => by rw [h2 b]; trivial
      funext a
      rw [if_pos f2, if_pos f1, if_pos f1, if_pos f1, h2 a, h1 0, h1 1, h1 2]
      rfl
    · funext a
      rw [if_neg h2, if_neg h1]
      have : (⟨0, 0, 0⟩ : V3) = 0 := rfl
      rw [if_neg h1, if_neg h1, this, M.vec_zero]
      fin_cases a <;> rfl
  by_cases hj : q.jn.IsFin ∧ ∀ b, (q.uP b).IsFin
  · rcases h.uP with ⟨u, h1, h2⟩ | ⟨h1, -⟩
    · have hj' : q'.jn.IsFin ∧ ∀ b, (q'.uP b).IsFin := ⟨h.jn ▸ hj.1, fun b => by rw [h2 b]; trivial⟩
      have e : flowV c q = (-q.jn.val * (c.mub / c.e)) * u := by
        unfold flowV flow
        simp only [if_pos hj]
        rw [h1, h1, h1]
        rfl
      have e' : flowV c q' = (-q.jn.val * (c.mub / c.e)) * M.vec u := by
        unfold flowV flow
        simp only [if_pos hj']
        rw [h2, h2, h2, h.jn]
        rfl
      rw [e, e', M.vec_smul]
    · exact absurd hj.2 h1
  · have hj' : ¬ (q'.jn.IsFin ∧ ∀ b, (q'.uP b).IsFin) := by
      rintro ⟨h1, h2⟩
      rcases h.uP with ⟨u, h3, -⟩ | ⟨-, h3⟩
      · exact hj ⟨h.jn ▸ h1, fun b => by rw [h3 b]; trivial⟩
      · exact h3 h2
    unfold flowV flow
    simp only [if_neg hj, if_neg hj']
    have := fun a => congrFun hs a
    ext
    · exact this 0
    · exact this 1
    · exact this 2

/-! ## Properties -/

/-- **C117** The electric potential of a displaced sample is the same. -/
theorem C117_potential {p : ℕ → V3} {sigma : ℕ → ℝ} {tets : List Tet} {tris : List Tri} (h : Problem G H nod p sigma tets tris) (N : Motion) (prm : ℕ → SurfPrm)
    (v : ℝ) (V : ℕ → ℝ) : Solved G H nod (fun i => N.pt (p i)) sigma prm tets tris v V ↔ Solved G H nod p sigma prm tets tris v V := by
  have h' : Problem G H nod (fun i => N.pt (p i)) sigma tets tris := ⟨h.rule, h.ruleT, h.valid, h.validT, fun t ht => by
    have ep : nod4 (fun i => N.pt (p i)) t = fun i => N.pt (nod4 p t i) := rfl
    rw [ep, N.detJ_move]
    exact h.oriented t ht, h.cond⟩
  obtain ⟨K, L, h1, h2⟩ := pot_solved h prm
  obtain ⟨K', L', h3, h4⟩ := pot_solved h' prm
  have hw : WeakPotential (fun i => N.pt (p i)) sigma (fun r => currentDensity (prm r)) tets tris (OnPotential prm tris) V ↔
      WeakPotential p sigma (fun r => currentDensity (prm r)) tets tris (OnPotential prm tris) V := by
    refine forall_congr' fun w => forall_congr' fun _ => ?_
    have e : weakForm (fun i => N.pt (p i)) sigma (fun r => currentDensity (prm r)) tets tris w V =
        weakForm p sigma (fun r => currentDensity (prm r)) tets tris w V := by
      unfold weakForm
      congr 2
      · refine List.map_congr_left fun t _ => ?_
        have ep : nod4 (fun i => N.pt (p i)) t = fun i => N.pt (nod4 p t i) := rfl
        rw [ep, gradV_move, gradV_move, N.vec_dot, N.detJ_move]
      · refine List.map_congr_left fun f _ => ?_
        have ep : nod3 (fun i => N.pt (p i)) f = fun i => N.pt (nod3 p f i) := rfl
        rw [ep, N.surf_move]
    rw [e]
  constructor
  · rintro ⟨he, K'', L'', h5, h6⟩
    rw [h3] at h5
    cases h5
    exact ⟨he, K, L, h1, (h2 _ _).mpr (hw.mp ((h4 _ _).mp h6))⟩
  · rintro ⟨he, K'', L'', h5, h6⟩
    rw [h1] at h5
    cases h5
    exact ⟨he, K', L', h3, (h4 _ _).mpr (hw.mpr ((h2 _ _).mp h6))⟩

/-- **C117** If the magnetization and the spins of the contacts are turned by `M`, then the spin accumulation is turned by `M`, wherever the sample is and however it is
turned (`N`). -/
theorem C117_spin {d : SpinData} (h : SpinProblem G H nod d) (hm : ∀ t ∈ d.tets, Material d.c (d.vol t.reg)) (M N : Motion) {q : ℕ → SurfPrm}
    (hq : ∀ f ∈ d.tris, TurnedSurf M (d.surf f.reg) (q f.reg)) {hs : List MagState} (hne : hs ≠ []) {S : ℕ → Prop} {x y : ℕ → V3}
    (hx : Computed G H nod d hs S x) (hy : Computed G H nod (d.displaced N q) (hs.map (turned M)) S y) (hS : ∀ i, S i → y i = M.vec (x i)) :
    ∀ t ∈ d.tets, ∀ k, y (t.ind k) = M.vec (x (t.ind k)) := by
  have h' := displaced_problem h N q
  -- the turned spin accumulation solves the system of the turned sample
  have hMx : Computed G H nod (d.displaced N q) (hs.map (turned M)) S fun i => M.vec (x i) := by
    obtain ⟨sys, h1, h2⟩ := C45_history h' (hs.map (turned M))
    refine ⟨sys, h1, (h2 S _).mpr fun w hw => ?_⟩
    have e := Computed.weak (V := d.V) (q := d.surf) h hx (fun i => M.back (w i)) fun i hi => by
      rw [hw i hi]
      simp [Motion.back, V3.dot]
      rfl
    have e2 : w = fun i => M.vec (M.back (w i)) := funext fun i => (M.vec_back (w i)).symm
    rw [← e, List.map_map]
    congr 1
    refine List.map_congr_left fun s _ => ?_
    conv_lhs => rw [e2]
    exact spinWeak_turned d M N q (fun f hf => flowV_turned (hq f hf)) s.cur s.next (fun i => M.back (w i)) x
  have z : ∀ u : V3, (1 : ℝ) * u + (0 : ℝ) * u = u := fun u => by ext <;> simp
  have hne' : hs.map (turned M) ≠ [] := fun e => hne (List.map_eq_nil_iff.mp e)
  have := C116_superposition (d := d.displaced N q) (V := d.V) (V₁ := d.V) (V₂ := d.V) (q := q) (q₁ := q) (q₂ := q) (a := 1) (b := 0) h' hm
    (fun t _ => by rw [z]) (fun f _ c => by ring) hne' hy hMx hMx fun i hi => by rw [z, hS i hi]
  intro t ht k
  rw [this t ht k, z]

/-- **C117** The field by which the spin accumulation acts on the magnetization turns in the same way. -/
theorem C117_torque {d : SpinData} (h : SpinProblem G H nod d) (hm : ∀ t ∈ d.tets, Material d.c (d.vol t.reg)) (M N : Motion) {q : ℕ → SurfPrm}
    (hq : ∀ f ∈ d.tris, TurnedSurf M (d.surf f.reg) (q f.reg)) {hs : List MagState} (hne : hs ≠ []) {S : ℕ → Prop} {x y : ℕ → V3}
    (hx : Computed G H nod d hs S x) (hy : Computed G H nod (d.displaced N q) (hs.map (turned M)) S y) (hS : ∀ i, S i → y i = M.vec (x i))
    (gamma0 : ℝ) (Ms : ℕ → ℝ) (on : Bool) : ∀ t ∈ d.tets, ∀ j,
      SpinTorque.extraField G on d.c d.mag d.vol gamma0 Ms y t j = M.vec (SpinTorque.extraField G on d.c d.mag d.vol gamma0 Ms x t j) := by
  intro t ht j
  have e : nod4 y t = fun k => M.vec (nod4 x t k) := funext (C117_spin h hm M N hq hne hx hy hS t ht)
  unfold SpinTorque.extraField SpinTorque.calcHst
  split_ifs
  · rw [e, M.interpV_move, M.vec_smul]
  · rw [M.vec_zero]

end

/-! ## Example: a quarter turn of the spins, with the sample at rest or turned too -/

/-- a quarter turn about `z`, then a displacement -/
noncomputable def exTurn : Motion :=
  ⟨⟨0, 1, 0⟩, ⟨-1, 0, 0⟩, ⟨0, 0, 1⟩, ⟨5, 0, 0⟩, by simp [DirectOrthonormal, V3.nsq, V3.dot, V3.cross]⟩

/-- the settings of `exCur` with the polarization turned -/
noncomputable def exCurT (j : ℝ) (r : ℕ) : SurfPrm :=
  if r = 1 then ⟨"left", .fin j, .nan, ![.fin (-1), .fin 1, .fin 1], fun _ => .nan⟩ else ⟨"right", .nan, .fin 0, fun _ => .nan, fun _ => .fin 0⟩

theorem exCurT_turned (j : ℝ) (r : ℕ) : TurnedSurf exTurn (exCur j r) (exCurT j r) := by
  by_cases hr : r = 1
  · subst hr
    refine ⟨rfl, rfl, Or.inl ⟨⟨1, 1, 1⟩, fun b => ?_, fun b => ?_⟩, Or.inr ⟨fun h => h 0, fun h => h 0⟩⟩
    · fin_cases b <;> rfl
    · fin_cases b <;> simp [exCurT, exTurn, Motion.vec, V3.comp]
  · have e : exCur j r = ⟨"right", .nan, .fin 0, fun _ => .nan, fun _ => .fin 0⟩ := if_neg hr
    have e' : exCurT j r = ⟨"right", .nan, .fin 0, fun _ => .nan, fun _ => .fin 0⟩ := if_neg hr
    rw [e, e']
    refine ⟨rfl, rfl, Or.inr ⟨fun h => h 0, fun h => h 0⟩, Or.inl ⟨0, fun b => ?_, fun b => ?_⟩⟩
    · fin_cases b <;> rfl
    · rw [exTurn.vec_zero]
      fin_cases b <;> rfl

example (s : MagState) (N : Motion) : ∃ x y : ℕ → V3, Computed Tetra.rule5 TriElem.rule4 4 exMag [s] (fun i => i = 1 ∨ i = 2 ∨ i = 3) x ∧
    Computed Tetra.rule5 TriElem.rule4 4 (exMag.displaced N (exCurT 2)) [turned exTurn s] (fun i => i = 1 ∨ i = 2 ∨ i = 3) y ∧
    ∀ t ∈ exMag.tets, ∀ k, y (t.ind k) = exTurn.vec (x (t.ind k)) := by
  have hlt : ∀ i, (i = 1 ∨ i = 2 ∨ i = 3) → i < 4 := by omega
  obtain ⟨x, hx, hx0⟩ := computed_exists exMag_problem exMag_material s (exMag_covered _) hlt
  obtain ⟨y, hy, hy0⟩ := computed_exists (displaced_problem exMag_problem N (exCurT 2)) exMag_material (turned exTurn s) (exMag_covered _) hlt
  refine ⟨x, y, hx, hy, C117_spin exMag_problem exMag_material exTurn N (fun f _ => exCurT_turned 2 f.reg) (List.cons_ne_nil _ _) hx hy fun i hi => ?_⟩
  rw [hx0 i hi, hy0 i hi, exTurn.vec_zero]

example (N : Motion) : ∃ V : ℕ → ℝ, Solved Tetra.rule5 TriElem.rule4 4 (fun i => N.pt (Tetra.exP i)) (fun _ => 1) (exCur 2) [Tetra.exT] exTris 0 V := by
  obtain ⟨V, h⟩ := solved_exists ex_problem (exCur 2) (exCur_connected 2) 0
  exact ⟨V, (C117_potential ex_problem N (exCur 2) 0 V).mpr h⟩

end Verif.Electro
