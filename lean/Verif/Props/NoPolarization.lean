import Verif.Props.Defaults
import Verif.Props.SpinAccSolve

/-!
# C106: what becomes of a current without a polarization

The text of the default settings says that the polarization of the current through a surface is `[0, 0, 1]` unless given.
-/

namespace Verif.Electro

open Verif.Mesh Verif.Assembly Verif.SparseMat Verif.Krylov

/-- nothing is prescribed on the surface: neither a current nor a spin vector -/
def Silent (m : SurfPrm) : Prop := m.jn = .nan ∧ ∀ a, m.s a = .nan

/-- a parameter of the surface regions as the solver sees it (`paramTri` is `mySettings.paramTriangle`,
spinAccumulationSolver.cpp:12) -/
def surfPrm (p : Settings.TriPrm Fl) : SurfPrm where
  regName := String.ofList p.regName
  jn := p.jn
  V := p.V
  uP := ![p.uP.1, p.uP.2.1, p.uP.2.2]
  s := ![p.s.1, p.s.2.1, p.s.2.2]

theorem norm3_nan {v : Fin 3 → Fl} (h : ∀ a, v a = .nan) : norm3 v = .nan := by
  unfold norm3
  rw [h, h, h]
  rfl

theorem silent_value {c : Consts} {m : SurfPrm} (h : Silent m) : spinValue c m = none := by
  classical
  unfold spinValue
  rw [norm3_nan h.2, h.1, if_neg (fun hc => hc.2), if_neg (fun hc => hc.1)]

theorem unpolarized_value {c : Consts} {m : SurfPrm} (hj : m.jn.IsFin) (hs : ∀ a, m.s a = .nan) (hu : ∀ a, m.uP a = .nan) :
    spinValue c m = some fun _ => .nan := by
  classical
  unfold spinValue
  rw [norm3_nan hs, if_pos ⟨trivial, hj⟩]
  congr 1
  funext a
  rw [hu, Fl.mul_nan]

/-- a stored coefficient times NaN is NaN -/
theorem mult_of_nan {n : ℕ} {shape : Shape} {m : Sp ℝ} (w : m.WF shape) {r q : Fin n} (h : InShape shape r q) {X : Vec n}
    (hq : X q = .nan) : mult (rowsOf n (liftSp m)) X r = .nan := by
  obtain ⟨s, hs, hin⟩ := h
  obtain ⟨row, hrow, hw⟩ := (liftSp_wf w).2 r s hs
  unfold mult
  refine foldl_nan (fun e : Fin n × Fl => e.2 * X e.1) _ _ (Or.inr ?_)
  have hmem : (q : ℕ) ∈ row.indices := by rw [hw.indices]; exact (Finset.mem_sort _).mpr hin
  obtain ⟨k, hk, e⟩ := List.getElem_of_mem hmem
  have hk' : k < row.values.length := by
    rw [hw.length, ← Finset.length_sort (· ≤ ·), ← hw.indices]; exact hk
  refine ⟨(q, row.values[k]), ?_, by show _ * X q = _; rw [hq, Fl.mul_nan]⟩
  unfold rowsOf
  rw [hrow]
  refine List.mem_filterMap.mpr ⟨((q : ℕ), row.values[k]), ?_, ?_⟩
  · refine List.mem_iff_getElem.mpr ⟨k, by rw [List.length_zip]; omega, ?_⟩
    rw [List.getElem_zip, e]
  · rw [dif_pos q.2]

section
variable {G : Tetra.Rule} {H : TriElem.Rule} {nod : ℕ} {d : SpinData}

/-- **C106** (negation, the computation) If a current without a polarization crosses a surface, and a tetrahedron has a node on
this surface and a node on no surface with a condition, then no computation of the spin accumulation converges. -/
theorem C106_negation_solver (h : SpinProblem G H nod d) (hs : List MagState) (it : Iter) (f : Tri) (hf : f ∈ d.tris) (k : Fin 3)
    (hj : (d.surf f.reg).jn.IsFin) (hS : ∀ a, (d.surf f.reg).s a = .nan) (hu : ∀ a, (d.surf f.reg).uP a = .nan)
    (honly : ∀ g ∈ d.tris, (∃ l, g.ind l = f.ind k) → g.reg = f.reg ∨ Silent (d.surf g.reg))
    (t : Tet) (ht : t ∈ d.tets) (i j : Fin 4) (hi : t.ind i = f.ind k)
    (hfree : ∀ g ∈ d.tris, (∃ l, g.ind l = t.ind j) → Silent (d.surf g.reg)) :
    ∃ sys st, (SpinSys.new nod d.tets).history G H d.c d.p d.mag d.vol d.surf d.V d.tets d.tris hs = some sys ∧
      sys.solve it d.c nod d.surf d.tris = some st ∧ st.iter.status = .CANNOT_CONVERGE := by
  obtain ⟨sys, hsys, hw, -, -, -⟩ := history_new h hs
  have hvi : t.ind i < nod := h.valid t ht i
  have hvj : t.ind j < nod := h.valid t ht j
  let r : Fin (3 * nod) := ⟨3 * t.ind j, by omega⟩
  let q : Fin (3 * nod) := ⟨3 * t.ind i, by omega⟩
  have hin : InShape (fullShape 3 nod d.tets) r q := by
    have := buildMat_inShape (α := ℝ) (D := 3) h.valid (fun _ => true) t ht (fun _ _ => rfl)
      ⟨t.ind, fun _ _ => 0, fun _ => 0⟩ rfl (Op.add (3 * t.ind j + 0) (3 * t.ind i + 0) 0)
      ((mem_buildMat _ _).mpr ⟨j, i, 0, by norm_num, 0, by norm_num, rfl⟩)
    exact this
  obtain ⟨h1, h2, h3⟩ := writes_spec (0 : Fl)
    (d.tris.flatMap fun f => ((spinValue d.c (d.surf f.reg)).elim [] (triWrites f))) (List.replicate (3 * nod) 0, [])
  rw [← spinDirichlet_writes] at h1 h2 h3
  have hval := unpolarized_value (c := d.c) hj hS hu
  -- the value at the node of the surface
  have hq : vecOf (3 * nod) (spinDirichlet d.c nod d.surf d.tris).1 q = .nan := by
    have hmem : ((q : ℕ), Fl.nan) ∈ d.tris.flatMap fun f => ((spinValue d.c (d.surf f.reg)).elim [] (triWrites f)) := by
      refine List.mem_flatMap.mpr ⟨f, hf, ?_⟩
      rw [hval]
      exact mem_triWrites.mpr ⟨k, 0, by show 3 * t.ind i = _; rw [hi]; rfl, rfl⟩
    rcases h3 q (by show (q : ℕ) < (List.replicate (3 * nod) (0 : Fl)).length; rw [List.length_replicate]; exact q.2) with
      ⟨h4, -⟩ | ⟨v, h4, h5⟩
    · exact absurd (List.mem_map.mpr ⟨_, hmem, rfl⟩) h4
    · refine Eq.trans h5 ?_
      obtain ⟨g, hg, hm⟩ := List.mem_flatMap.mp h4
      have node : ∀ w, ((q : ℕ), v) ∈ triWrites g w → ∃ l, g.ind l = f.ind k := by
        intro w hw
        obtain ⟨l, a, e, -⟩ := mem_triWrites.mp hw
        refine ⟨l, ?_⟩
        have e : 3 * t.ind i = 3 * g.ind l + (a : ℕ) := e
        have := a.2
        omega
      cases hv : spinValue d.c (d.surf g.reg) with
      | none => rw [hv] at hm; cases hm
      | some w =>
        rw [hv] at hm
        rcases honly g hg (node w hm) with e | hsil
        · rw [e, hval] at hv
          injection hv with hv
          obtain ⟨l, a, -, e2⟩ := mem_triWrites.mp hm
          rw [e2, ← hv]
        · rw [silent_value hsil] at hv
          cases hv
  -- the free node
  have hr : r ∉ idxOf (3 * nod) (suppressCopies (spinDirichlet d.c nod d.surf d.tris).2) := by
    rw [mem_idxOf, (C56_suppress_copies _).2, h1, List.nil_append]
    intro hc
    obtain ⟨⟨r', v⟩, hm, e⟩ := List.mem_map.mp hc
    obtain ⟨g, hg, hm⟩ := List.mem_flatMap.mp hm
    cases hv : spinValue d.c (d.surf g.reg) with
    | none => rw [hv] at hm; cases hm
    | some w =>
      rw [hv] at hm
      obtain ⟨l, a, e2, -⟩ := mem_triWrites.mp hm
      have e : r' = 3 * t.ind j := e
      have hn : g.ind l = t.ind j := by have := a.2; omega
      rw [silent_value (hfree g hg ⟨l, hn⟩)] at hv
      cases hv
  refine ⟨sys, ?_⟩
  set A := rowsOf (3 * nod) (liftSp sys.K) with hA
  set ld := idxOf (3 * nod) (suppressCopies (spinDirichlet d.c nod d.surf d.tris).2) with hld
  set xd := vecOf (3 * nod) (spinDirichlet d.c nod d.surf d.tris).1 with hxd
  set L := vecOf (3 * nod) (sys.L.map .fin) with hL
  have hb : applyMask ld (sub (mult A xd) L) r = .nan := by
    rw [applyMask_of_not_mem hr]
    show L r - mult A xd r = _
    rw [mult_of_nan hw hin hq, Fl.sub_nan]
  have hn : norm (applyMask ld (sub (mult A fun _ => 0) (applyMask ld (sub (mult A xd) L)))) = .nan := by
    apply norm_of_nan (i := r)
    rw [applyMask_of_not_mem hr]
    show applyMask ld (sub (mult A xd) L) r - _ = _
    rw [hb, Fl.nan_sub]
  obtain ⟨o, e1, e2, -, -⟩ := bicg_nan A (applyMask ld (diagPrecond A)) ld _
    (bicgInit it.reset A ld (fun _ => 0) (applyMask ld (sub (mult A xd) L))) hn
  exact ⟨_, hsys, congrArg (Option.map _) e1, e2⟩

/-- **C106** (negation, from the settings to the result) Whatever the files: a surface region whose first description gives a
finite current density and neither a polarization nor a spin vector — a reader of the documented defaults expects the polarization
`[0, 0, 1]` — makes every computation of the spin accumulation fail on every mesh where some tetrahedron has a node on this surface
and a node on no surface with a condition. -/
theorem C106_negation_run (C : Settings.Conv Fl) (hnan : C.nan = .nan) (b s : Settings.All Fl)
    (hb : Settings.read C (Settings.start C) Settings.defaults = some b) (files : List (Option Settings.Yaml))
    (hfiles : Settings.readFiles C b files = some s) (name : Text.Str) (hname : name ≠ "__default__".toList)
    (node : Settings.Yaml) (hfirst : Settings.FirstSaid "surface_regions".toList name files node)
    (current : Text.Str) (x : ℝ) (hcur : Settings.textAt node "jn".toList = some current) (hx : C.toD current = some (.fin x))
    (huP : Settings.Absent node "uP".toList) (hsp : Settings.Absent node "s".toList)
    (h : SpinProblem G H nod d) (hs : List MagState) (it : Iter) (f : Tri) (hf : f ∈ d.tris) (k : Fin 3)
    (hreg : ∀ q, Settings.findTri name s.mesh.tri = some q → d.surf f.reg = surfPrm q)
    (honly : ∀ g ∈ d.tris, (∃ l, g.ind l = f.ind k) → g.reg = f.reg ∨ Silent (d.surf g.reg))
    (t : Tet) (ht : t ∈ d.tets) (i j : Fin 4) (hi : t.ind i = f.ind k)
    (hfree : ∀ g ∈ d.tris, (∃ l, g.ind l = t.ind j) → Silent (d.surf g.reg)) :
    ∃ sys st, (SpinSys.new nod d.tets).history G H d.c d.p d.mag d.vol d.surf d.V d.tets d.tris hs = some sys ∧
      sys.solve it d.c nod d.surf d.tris = some st ∧ st.iter.status = .CANNOT_CONVERGE := by
  obtain ⟨_, q, -, hq, ov⟩ := Settings.C106_surface_partial C b s hb files hfiles name hname node hfirst
  have e := hreg q hq
  have hjn := ov.jn
  rw [hcur] at hjn
  dsimp only at hjn
  rw [hx] at hjn
  have hjn : q.jn = .fin x := Option.some.inj hjn
  have hu := ov.uP huP
  have hS := ov.s hsp
  rw [hnan] at hu hS
  refine C106_negation_solver h hs it f hf k ?_ ?_ ?_ honly t ht i j hi hfree
  · rw [e]; show Fl.IsFin q.jn; rw [hjn]; trivial
  · intro a
    rw [e]
    unfold surfPrm
    dsimp only
    rw [hS]
    fin_cases a <;> rfl
  · intro a
    rw [e]
    unfold surfPrm
    dsimp only
    rw [hu]
    fin_cases a <;> rfl

end

/-! ## A concrete case -/

/-- every text is the number one -/
noncomputable def oneConv : Settings.Conv Fl where
  toD _ := some (.fin 1)
  toInt _ := some 0
  toBool _ := some false
  nan := .nan
  isNaN x := match x with | .nan => true | _ => false
  nonpos _ := false
  divMu0 := id
  normalize := id
  compiles _ := true
  cpuCount := 1

/-- a current of density one through the surface `left` -/
def leftFile : Settings.Yaml :=
  .map [("mesh".toList, .map [("surface_regions".toList, .map [("left".toList, .map [("jn".toList, .scalar "1".toList)])])])]

/-- one tetrahedron with one face on the surface `left` -/
noncomputable def exLeft : SpinData :=
  { exD with
    tris := [⟨![0, 1, 2], 0⟩]
    surf := fun _ => ⟨"left", .fin 1, .nan, fun _ => .nan, fun _ => .nan⟩ }

theorem exLeft_problem : SpinProblem Tetra.rule5 TriElem.rule4 4 exLeft where
  rule := exD_problem.rule
  ruleT := exD_problem.ruleT
  valid := exD_problem.valid
  validT := by
    intro f hf k
    have hf : f ∈ [(⟨![0, 1, 2], 0⟩ : Tri)] := hf
    rw [List.mem_singleton] at hf
    subst hf
    fin_cases k <;> decide
  oriented := exD_problem.oriented

/-- all the hypotheses together -/
example : ∃ (b s : Settings.All Fl) (q : Settings.TriPrm Fl),
    Settings.read oneConv (Settings.start oneConv) Settings.defaults = some b ∧
    Settings.readFiles oneConv b [some leftFile] = some s ∧ Settings.findTri "left".toList s.mesh.tri = some q ∧
    exLeft.surf 0 = surfPrm q ∧
    Settings.FirstSaid "surface_regions".toList "left".toList [some leftFile] (.map [("jn".toList, .scalar "1".toList)]) ∧
    Settings.textAt (.map [("jn".toList, .scalar "1".toList)]) "jn".toList = some "1".toList ∧
    Settings.Absent (.map [("jn".toList, .scalar "1".toList)]) "uP".toList ∧
    Settings.Absent (.map [("jn".toList, .scalar "1".toList)]) "s".toList ∧
    (∀ g ∈ exLeft.tris, ∀ l, g.ind l ≠ Tetra.exT.ind 3) ∧ Tetra.exT.ind 0 = 0 ∧ Tetra.exT ∈ exLeft.tets := by
  refine ⟨_, _, _, rfl, rfl, rfl, ?_, ?_, Settings.textAt_eq (n := some (.scalar "1".toList)) rfl,
    Or.inl (Settings.get_at rfl), Or.inl (Settings.get_at rfl), ?_, rfl,
    List.mem_singleton.mpr rfl⟩
  · unfold surfPrm exLeft
    dsimp only
    congr 1
    · funext a; fin_cases a <;> rfl
    · funext a; fin_cases a <;> rfl
  · have : Settings.regionIn "surface_regions".toList "left".toList (some leftFile) =
        some (.map [("jn".toList, .scalar "1".toList)]) := by
      show leftFile.at _ = _
      rw [Settings.at_cons, Settings.get_at (show leftFile.get "mesh".toList = some (some _) from rfl)]
      show Settings.Yaml.at _ _ = _
      rw [Settings.at_cons, Settings.get_at (show Settings.Yaml.get "surface_regions".toList _ = some (some _) from rfl)]
      show Settings.Yaml.at _ _ = _
      exact Settings.get_at rfl
    unfold Settings.FirstSaid
    rw [List.filterMap_cons, this]
    rfl
  · intro g hg l
    have hg : g ∈ [(⟨![0, 1, 2], 0⟩ : Tri)] := hg
    rw [List.mem_singleton] at hg
    subst hg
    fin_cases l <;> decide

end Verif.Electro
