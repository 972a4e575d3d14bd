import Verif.Model.FieldKind
import Verif.Props.ExtField
import Verif.Props.Rescale

/-!
# C112: the same field in two notations
-/

namespace Verif.FieldKind

open Verif.Mesh Verif.Assembly Verif.Tetra Verif.SparseMat Verif.Llg Verif.TimeLoop Verif.Krylov Verif.MeshElem

/-- two applied fields that are the same function of time and position -/
def Same (F F' : Field) : Prop :=
  let val := fun (F : Field) (t : ℝ) (x : V3) => match F with
    | .RtoR3 f => f t
    | .R4toR3 space time => time t * space x
  ∀ t x, val F t x = val F' t x

/-- the tetrahedrons are in the order that a space dependent field needs (C44); a field without dependence on space needs nothing -/
def Readable (mag : ℕ → Bool) (tets : List Tet) : Field → Prop
  | .RtoR3 _ => True
  | .R4toR3 _ _ => ExtField.MagneticFirst (fun te => mag te.reg) tets

section
variable {G : Tetra.Rule} {p : ℕ → V3} {mag : ℕ → Bool} {tets : List Tet} {mu0 : ℝ}

theorem vdiv_smul (a : ℝ) (v : V3) (m : ℝ) : vdiv (a * v) m = (a / m) * v := by
  ext <;> simp [vdiv] <;> ring

/-- the value of the field -/
noncomputable def value (mu0 : ℝ) (F : Field) (t : ℝ) (x : V3) : V3 := match F with
  | .RtoR3 f => vdiv (f t) mu0
  | .R4toR3 space time => vdiv (time t * space x) mu0

theorem Same.value {F F' : Field} (h : Same F F') (mu0 t : ℝ) (x : V3) : value mu0 F t x = value mu0 F' t x := by
  have := h t x
  cases F <;> cases F' <;> exact congrArg (vdiv · mu0) this

theorem elemField_value {F : Field} (hF : Readable mag tets F) (t : ℝ) {idx : ℕ} {te : Tet} (ht : tets[idx]? = some te)
    (hm : mag te.reg = true) : elemField G p mag tets mu0 F t idx = some fun j => value mu0 F t (Tetra.ptGauss G (nod4 p te) j) := by
  cases F with
  | RtoR3 f => rfl
  | R4toR3 space time =>
    have := ExtField.C44_partial (fun te : Tet => mag te.reg) (gauss G p) tets hF space idx te ht hm
    unfold elemField table
    dsimp only
    rw [this, Option.map_some]
    congr 1
    funext j
    show _ = vdiv _ mu0
    rw [vdiv_smul]
    unfold getFieldTime gauss
    congr 1
    rw [List.getD_eq_getElem?_getD, List.getElem?_map, List.getElem?_ofFn]
    simp

theorem zeeman_value {F : Field} (hF : Readable mag tets F) (Ms : ℝ) (u : ℕ → V3) (t : ℝ) {idx : ℕ} {te : Tet} (ht : tets[idx]? = some te)
    (hm : mag te.reg = true) : elemZeeman G p mag tets mu0 Ms u F t idx te = some (-mu0 * Ms * ∑ j, weight G (nod4 p te) j *
      (interpV G (nod4 u te) j).dot (value mu0 F t (Tetra.ptGauss G (nod4 p te) j))) := by
  cases F with
  | RtoR3 f => rfl
  | R4toR3 space time =>
    have := ExtField.C44_partial (fun te : Tet => mag te.reg) (gauss G p) tets hF space idx te ht hm
    unfold elemZeeman table
    dsimp only
    rw [this, Option.map_some]
    congr 1
    unfold zeemanEnergySpace
    rw [mul_assoc (-mu0 * Ms), Finset.mul_sum]
    congr 1
    refine Finset.sum_congr rfl fun j _ => ?_
    show _ = _ * V3.dot _ (vdiv _ mu0)
    rw [vdiv_smul]
    have e : ((gauss G p te).map space).getD j 0 = space (Tetra.ptGauss G (nod4 p te) j) := by
      unfold gauss
      rw [List.getD_eq_getElem?_getD, List.getElem?_map, List.getElem?_ofFn]
      simp
    dsimp only
    rw [e]
    unfold getFieldTime V3.dot
    simp only [V3.smul_x, V3.smul_y, V3.smul_z]
    ring

/-- **C112** The elements get the same applied field at all integration points, whichever notation is used. -/
theorem C112_field_partial {F F' : Field} (h : Same F F') (hF : Readable mag tets F) (hF' : Readable mag tets F') (t : ℝ) (idx : ℕ) (te : Tet)
    (ht : tets[idx]? = some te) (hm : mag te.reg = true) :
    elemField G p mag tets mu0 F t idx = elemField G p mag tets mu0 F' t idx ∧ (elemField G p mag tets mu0 F t idx).isSome := by
  rw [elemField_value hF t ht hm, elemField_value hF' t ht hm]
  exact ⟨congrArg some (funext fun j => h.value mu0 t _), rfl⟩

/-- **C112** The Zeeman energy is the same. -/
theorem C112_energy_partial {F F' : Field} (h : Same F F') (hF : Readable mag tets F) (hF' : Readable mag tets F') (Ms : ℕ → ℝ) (u : ℕ → V3)
    (t : ℝ) : zeeman G p mag tets mu0 Ms u F t = zeeman G p mag tets mu0 Ms u F' t ∧ (zeeman G p mag tets mu0 Ms u F t).isSome := by
  unfold zeeman
  have key : ∀ (l : List ℕ), (∀ i ∈ l, ∃ te, tets[i]? = some te ∧ mag te.reg = true) → ∀ e : ℝ,
      (l.foldlM (fun e idx => do
        let te ← tets[idx]?
        let z ← elemZeeman G p mag tets mu0 (Ms te.reg) u F t idx te
        pure (e + z)) e : Option ℝ) =
      l.foldlM (fun e idx => do
        let te ← tets[idx]?
        let z ← elemZeeman G p mag tets mu0 (Ms te.reg) u F' t idx te
        pure (e + z)) e ∧
      (l.foldlM (fun e idx => do
        let te ← tets[idx]?
        let z ← elemZeeman G p mag tets mu0 (Ms te.reg) u F t idx te
        pure (e + z)) e : Option ℝ).isSome := by
    intro l
    induction l with
    | nil => intro _ e; exact ⟨rfl, rfl⟩
    | cons i l ih =>
      intro hl e
      obtain ⟨te, h1, h2⟩ := hl i (by simp)
      simp only [List.foldlM_cons, h1, Option.bind_eq_bind, Option.bind_some, zeeman_value hF _ u t h1 h2, zeeman_value hF' _ u t h1 h2,
        h.value mu0 t, Option.pure_def]
      exact ih (fun i hi => hl i (List.mem_cons_of_mem _ hi)) _
  refine key _ (fun i hi => ?_) 0
  unfold ExtField.magTet at hi
  rw [List.mem_filterMap] at hi
  obtain ⟨⟨te, k⟩, h1, h2⟩ := hi
  rw [List.mem_zipIdx_iff_getElem?] at h1
  dsimp only at h1 h2
  split_ifs at h2 with hm
  injection h2 with h2
  subst h2
  exact ⟨te, h1, hm⟩

end

/-! ## Runs -/

/-- the world hands the applied field `F` to the magnetic elements -/
def Supplies {n : ℕ} {P : Run.Problem} (p : ℕ → V3) (F : Field) (W : Run.World n P) : Prop :=
  ∀ t nd idx te, P.tets[idx]? = some te → P.mag te.reg = true → elemField P.G p P.mag P.tets P.mu0 F t idx = some (W.Hext t nd te)

/-- the linear system does not depend on the applied field elsewhere than in the magnetic elements -/
theorem system_congr {n : ℕ} {ET : Type} {P : Run.Problem} {cfg : Cfg n ET} {F F' : Run.Fields P} (h1 : ∀ te ∈ magTet P.mag P.tets, F.Hext te = F'.Hext te)
    (h2 : F.Hst = F'.Hst) (h3 : F.V = F'.V) {nd : Fin n → Node} {dt : ℝ} {M : Sp ℝ} {b : List ℝ} (h : Run.IsSystem P cfg F nd dt M b) :
    Run.IsSystem P cfg F' nd dt M b := by
  obtain ⟨order, orderT, before, a1, a2, a3, a4, a5⟩ := h
  have e : ∀ te ∈ order, tetElem P.G P.prm (P.step cfg dt) (Run.ext nd) F.Hext F.Hst P.dir F.V te =
      tetElem P.G P.prm (P.step cfg dt) (Run.ext nd) F'.Hext F'.Hst P.dir F'.V te := fun te hte => by
    unfold tetElem
    rw [h1 te (a1.subset hte), h2, h3]
  refine ⟨order, orderT, before, a1, a2, a3, ?_, ?_⟩
  · rw [← a4]
    unfold elems
    rw [List.map_congr_left fun te hte => by rw [← e te hte]]
  · rw [← a5, List.map_congr_left fun te hte => e te hte]

theorem solved_congr {n : ℕ} {ET : Type} {P : Run.Problem} {cfg : Cfg n ET} {it : Iter} {p : ℕ → V3} {F F' : Field} (h : Same F F')
    (hF : Readable P.mag P.tets F) (hF' : Readable P.mag P.tets F') {W W' : Run.World n P} (hW : Supplies p F W) (hW' : Supplies p F' W')
    (hst : W.Hst = W'.Hst) {t V dt : ℝ} {nd nd' : Fin n → Node} {b : List ℝ} {sol : Option (Fin n → ℝ × ℝ)}
    (hs : LlgSolve.Solved P cfg it ⟨W.Hext t nd, W.Hst t nd, V⟩ nd' dt b sol) :
    LlgSolve.Solved P cfg it ⟨W'.Hext t nd, W'.Hst t nd, V⟩ nd' dt b sol := by
  obtain ⟨M, hM, hsol⟩ := hs
  have e1 : ∀ te ∈ magTet P.mag P.tets, W.Hext t nd te = W'.Hext t nd te := fun te hte => by
    rw [magTet, List.mem_filter] at hte
    obtain ⟨hte, hm⟩ := hte
    obtain ⟨idx, hidx⟩ := List.getElem?_of_mem hte
    have hm : P.mag te.reg = true := hm
    have e := (C112_field_partial (G := P.G) (p := p) (mu0 := P.mu0) h hF hF' t idx te hidx hm).1
    rw [hW _ nd idx te hidx hm, hW' _ nd idx te hidx hm] at e
    exact Option.some.inj e
  have e2 : W.Hst t nd = W'.Hst t nd := by rw [hst]
  exact ⟨M, system_congr (F := ⟨W.Hext t nd, W.Hst t nd, V⟩) (F' := ⟨W'.Hext t nd, W'.Hst t nd, V⟩) e1 e2 rfl hM, hsol⟩

/-- **C112** The runs are the same: a run whose attempts are decided by the solver with the field in one notation is one with the field
in the other notation, with the same right hand sides, so the same states (which depend on the applied field only through the
solutions). Missing: with a space dependent notation the magnetic tetrahedrons have to come first (C44,
`C112_negation`); exact arithmetic. -/
theorem C112_run_partial {n : ℕ} {ET : Type} {P : Run.Problem} {cfg : Cfg n ET} {it : Iter} {p : ℕ → V3} {F F' : Field} (h : Same F F')
    (hF : Readable P.mag P.tets F) (hF' : Readable P.mag P.tets F') {W W' : Run.World n P} (hW : Supplies p F W) (hW' : Supplies p F' W')
    (hst : W.Hst = W'.Hst) (hpot : W.pot = W'.pot) {V : ℕ → ℝ} {t0 : ℝ} {nd : Fin n → Node} {inp : ℕ → Input n} {B : ℕ → List ℝ}
    (hr : Rescale.SolverRun P cfg it W V t0 nd inp B) : Rescale.SolverRun P cfg it W' V t0 nd inp B := by
  refine ⟨fun k => ?_, fun k => ?_⟩
  · intro s ha hd
    have hs : s = run cfg t0 nd (W.pot nd) inp k := by rw [hpot]
    have := hr.solved k
    rw [← hs] at this
    exact solved_congr h hF hF' hW hW' hst (this ha hd)
  · rw [← hpot]
    exact hr.pot k

/-- **C112** Only the product of the two factors of a space dependent field counts: a constant can be written in either of them, for any
mesh, with the same fields, the same energy, and the same accesses out of bounds. -/
theorem C112_factor (G : Tetra.Rule) (p : ℕ → V3) (mag : ℕ → Bool) (tets : List Tet) (mu0 : ℝ) (space : V3 → V3) (time : ℝ → ℝ) (c t : ℝ) :
    (∀ idx, elemField G p mag tets mu0 (.R4toR3 (fun x => c * space x) time) t idx =
      elemField G p mag tets mu0 (.R4toR3 space fun t => c * time t) t idx) ∧
    ∀ Ms u, zeeman G p mag tets mu0 Ms u (.R4toR3 (fun x => c * space x) time) t =
      zeeman G p mag tets mu0 Ms u (.R4toR3 space fun t => c * time t) t := by
  have hread : ∀ idx, ExtField.readField (table G p mag tets fun x => c * space x) idx =
      (ExtField.readField (table G p mag tets space) idx).map (List.map fun v : V3 => c * v) := fun idx => by
    unfold table ExtField.readField
    rw [ExtField.table_eq, ExtField.table_eq, List.getElem?_map, List.getElem?_map, Option.map_map]
    congr 1
    funext te
    simp
  have hget : ∀ (l : List V3) (j : ℕ), (l.map fun v : V3 => c * v).getD j 0 = c * l.getD j 0 := fun l j => by
    rw [List.getD_eq_getElem?_getD, List.getElem?_map, List.getD_eq_getElem?_getD]
    cases l[j]? with
    | none => ext <;> simp
    | some v => rfl
  constructor
  · intro idx
    unfold elemField
    dsimp only
    rw [hread, Option.map_map]
    congr 1
    funext l j
    show getFieldTime mu0 time t * (l.map fun v : V3 => c * v).getD j 0 = _
    rw [hget]
    unfold getFieldTime
    ext <;> simp <;> ring
  · intro Ms u
    have : ∀ idx te, elemZeeman G p mag tets mu0 (Ms te.reg) u (.R4toR3 (fun x => c * space x) time) t idx te =
        elemZeeman G p mag tets mu0 (Ms te.reg) u (.R4toR3 space fun t => c * time t) t idx te := fun idx te => by
      unfold elemZeeman
      dsimp only
      rw [hread, Option.map_map]
      congr 1
      funext l
      show zeemanEnergySpace _ _ _ _ _ _ (fun j : Fin G.n => (l.map fun v : V3 => c * v).getD j 0) = _
      simp only [hget]
      unfold zeemanEnergySpace getFieldTime
      rw [Finset.mul_sum, Finset.mul_sum]
      refine Finset.sum_congr rfl fun j _ => ?_
      unfold V3.dot
      simp only [V3.smul_x, V3.smul_y, V3.smul_z]
      ring
    unfold zeeman
    simp only [this]

/-- **C112** The order is needed: as soon as a magnetic tetrahedron comes after a non magnetic one, a uniform field in the space
dependent notation reads the table out of bounds in the first attempt, while the other notation is always defined. -/
theorem C112_negation (G : Tetra.Rule) (p : ℕ → V3) (mag : ℕ → Bool) (tets : List Tet) (mu0 : ℝ)
    (h : ¬ ExtField.MagneticFirst (fun te => mag te.reg) tets) (e : V3) (a : ℝ → ℝ) :
    Same (.RtoR3 fun t => a t * e) (.R4toR3 (fun _ => e) a) ∧ ∀ t,
    (∃ idx te, tets[idx]? = some te ∧ mag te.reg = true ∧ elemField G p mag tets mu0 (.R4toR3 (fun _ => e) a) t idx = none) ∧
    ∀ idx, (elemField G p mag tets mu0 (.RtoR3 fun t => a t * e) t idx).isSome := by
  refine ⟨fun t x => rfl, fun t => ⟨?_, fun idx => rfl⟩⟩
  unfold ExtField.MagneticFirst at h
  push Not at h
  obtain ⟨i, j, s, t', hij, hs, ht, hm, hms⟩ := h
  obtain ⟨k, te, hk, hmk, hr⟩ := ExtField.C44_out_of_bounds (fun te : Tet => mag te.reg) (gauss G p) tets i j s t' hij hs (by simpa using hms) ht hm
  refine ⟨k, te, hk, hmk, ?_⟩
  unfold elemField table
  dsimp only
  rw [hr]
  rfl

/-- The hypotheses of `C112_field_partial` and `C112_energy_partial` are met by a rotating and a growing field and by the meshes of the
examples, all of whose tetrahedrons are magnetic. -/
example (H : TriElem.Rule) (e : V3) (a : ℝ → ℝ) :
    Same (.RtoR3 fun t => a t * e) (.R4toR3 (fun _ => e) a) ∧ Readable (Run.exP H).mag (Run.exP H).tets (.RtoR3 fun t => a t * e) ∧
    Readable (Run.exP H).mag (Run.exP H).tets (.R4toR3 (fun _ => e) a) ∧ (Run.exP H).tets.length = 2 :=
  ⟨fun _ _ => rfl, trivial, fun _ _ _ _ _ _ _ _ => rfl, rfl⟩

/-- Worlds as in `C112_run_partial`, the first in the notation without space. -/
example (H : TriElem.Rule) (e : V3) (a : ℝ → ℝ) (p : ℕ → V3) (Hst : ℝ → (Fin 5 → Node) → Tet → Fin (Run.exP H).G.n → V3)
    (pot : (Fin 5 → Node) → Fin 5 → ℝ × ℝ) :
    Supplies p (.RtoR3 fun t => a t * e) (⟨fun t _ _ _ => getField (Run.exP H).mu0 (fun t => a t * e) t, Hst, pot⟩ : Run.World 5 (Run.exP H)) ∧
    Supplies p (.R4toR3 (fun _ => e) a)
      (⟨fun t _ _ _ => getFieldTime (Run.exP H).mu0 a t * e, Hst, pot⟩ : Run.World 5 (Run.exP H)) := by
  refine ⟨fun _ _ _ _ _ _ => rfl, fun t nd idx te ht hm => ?_⟩
  rw [elemField_value (G := (Run.exP H).G) (F := .R4toR3 (fun _ => e) a) (fun _ _ _ _ _ _ _ _ => rfl) t ht hm]
  congr 1
  funext j
  exact vdiv_smul _ _ _

/-- A mesh as in `C112_negation`. -/
example : ¬ ExtField.MagneticFirst (fun te : Tet => (fun r => r == 1) te.reg) [⟨![0, 1, 2, 3], 0⟩, ⟨![1, 2, 3, 4], 1⟩] := by
  intro h
  have := h 0 1 _ _ Nat.zero_lt_one rfl rfl rfl
  simp at this

end Verif.FieldKind
