import Verif.Props.SpinTurn

/-!
# C120: reciprocity and balance of the spin accumulation
-/

namespace Verif.Electro

open Verif.Mesh Verif.MeshElem Verif.Tetra Verif.Llg

/-! ## Specification -/

/-- spins brought into the body by the current in the magnetization `n` and through the surfaces, each weighted with the field `w` where it is brought -/
noncomputable def injected (d : SpinData) (n w : ℕ → V3) : ℝ :=
  (d.tets.map fun t => if t.isMagnetic d.mag then
    (d.c.mub * (d.vol t.reg).P.val * (d.vol t.reg).sigma / d.c.e) * (detJ (nod4 d.p t) / 6) *
      ∑ i : Fin 4, (gradV (nod4 d.p t) (nod4 d.V t)).dot (daRow (nod4 d.p t) i) * (w (t.ind i)).dot (n (t.ind i)) else 0).sum
  - (d.tris.map fun f => TriElem.surf (nod3 d.p f) *
      ∑ a : Fin 3, flow d.c (d.surf f.reg) a * (((w (f.ind 0)).comp a + (w (f.ind 1)).comp a + (w (f.ind 2)).comp a) / 3)).sum

/-- loss of the spin accumulation by diffusion and relaxation -/
noncomputable def loss (d : SpinData) (x : ℕ → V3) : ℝ :=
  (d.tets.map fun t => diffusivity d.c (d.vol t.reg) * (detJ (nod4 d.p t) / 6) *
    ((∑ a : Fin 3, (gradV (nod4 d.p t) (comp4 x a t)).nsq) + (∑ i : Fin 4, (x (t.ind i)).nsq) / 4 / ((d.vol t.reg).lsf * (d.vol t.reg).lsf))).sum

/-- both magnetizations reversed -/
def reversed (s : MagState) : MagState := ⟨fun i => (-1 : ℝ) * s.cur i, fun i => (-1 : ℝ) * s.next i⟩

/-! ## Lemmas -/

theorem spinWeak_split (d : SpinData) (m n w x : ℕ → V3) : spinWeak d m n w x = spinForm d m w x - injected d n w := by
  have comb : ∀ {α : Type} (l : List α) (f g h : α → ℝ), (∀ y, f y = g y - h y) → (l.map f).sum = (l.map g).sum - (l.map h).sum := by
    intro α l f g h e
    induction l with
    | nil => simp
    | cons y l ih =>
      simp only [List.map_cons, List.sum_cons]
      rw [ih, e y]
      ring
  have e : (d.tets.map (volTerm d m n w x)).sum = spinForm d m w x - (d.tets.map fun t => if t.isMagnetic d.mag then
      (d.c.mub * (d.vol t.reg).P.val * (d.vol t.reg).sigma / d.c.e) * (detJ (nod4 d.p t) / 6) *
        ∑ i : Fin 4, (gradV (nod4 d.p t) (nod4 d.V t)).dot (daRow (nod4 d.p t) i) * (w (t.ind i)).dot (n (t.ind i)) else 0).sum := by
    unfold spinForm
    refine comb _ _ _ _ fun t => ?_
    unfold volTerm
    by_cases hmag : t.isMagnetic d.mag = true
    · simp only [hmag, if_true]
      ring
    · simp only [hmag, Bool.false_eq_true, if_false]
      ring
  rw [spinWeak_terms, e]
  unfold injected
  have e2 : (d.tris.map (surfTerm d w)) = d.tris.map fun f => TriElem.surf (nod3 d.p f) *
      ∑ a : Fin 3, flow d.c (d.surf f.reg) a * (((w (f.ind 0)).comp a + (w (f.ind 1)).comp a + (w (f.ind 2)).comp a) / 3) := rfl
  rw [e2, sub_sub_eq_add_sub, sub_add_eq_add_sub]

theorem spinForm_swap (d : SpinData) (m w x : ℕ → V3) : spinForm d m w x = spinForm d (fun i => (-1 : ℝ) * m i) x w := by
  unfold spinForm
  congr 1
  refine List.map_congr_left fun t _ => ?_
  have h1 : ∀ a b : V3, a.dot b = b.dot a := fun a b => by simp only [V3.dot]; ring
  have h2 : ∀ a b c : V3, a.dot (b.cross c) = b.dot (a.cross ((-1 : ℝ) * c)) := fun a b c => by
    simp only [V3.dot, V3.cross, V3.smul_x, V3.smul_y, V3.smul_z]; ring
  congr 1
  · congr 1
    · congr 1
      exact Finset.sum_congr rfl fun a _ => h1 _ _
    · congr 2
      exact Finset.sum_congr rfl fun i _ => h1 _ _
  · split_ifs
    · congr 2
      exact Finset.sum_congr rfl fun i _ => h2 _ _ _
    · rfl

theorem loss_form (d : SpinData) (m x : ℕ → V3) : spinForm d m x x = loss d x := by
  rw [spinForm_self]
  unfold loss
  congr 1
  refine List.map_congr_left fun t _ => ?_
  unfold spinPart
  ring

section
variable {G : Rule} {H : TriElem.Rule} {nod : ℕ}

/-! ## Properties -/

/-- **C120** Two experiments with the same body: in the second one the magnetization is reversed, and the currents and contacts are others. What the first one
injects, weighted with the spin accumulation of the second one, equals what the second one injects, weighted with the spin accumulation of the first one. -/
theorem C120_reciprocity {d : SpinData} (h : SpinProblem G H nod d) {V₁ V₂ : ℕ → ℝ} {q₁ q₂ : ℕ → SurfPrm} {hs : List MagState} {S : ℕ → Prop} {x y : ℕ → V3}
    (hx : Computed G H nod (d.under V₁ q₁) hs S x) (hy : Computed G H nod (d.under V₂ q₂) (hs.map reversed) S y) (hx0 : ∀ i, S i → x i = 0)
    (hy0 : ∀ i, S i → y i = 0) :
    (hs.map fun s => injected (d.under V₁ q₁) s.next y).sum = ((hs.map reversed).map fun s => injected (d.under V₂ q₂) s.next x).sum := by
  have e1 := Computed.weak h hx y hy0
  have e2 := Computed.weak h hy x hx0
  have sub : ∀ (l : List MagState) (f g : MagState → ℝ), (l.map fun s => f s - g s).sum = (l.map f).sum - (l.map g).sum := by
    intro l f g
    induction l with
    | nil => simp
    | cons y l ih =>
      simp only [List.map_cons, List.sum_cons]
      rw [ih]
      ring
  simp only [spinWeak_split, sub] at e1 e2
  have e3 : (hs.map fun s => spinForm (d.under V₁ q₁) s.cur y x).sum = ((hs.map reversed).map fun s => spinForm (d.under V₂ q₂) s.cur x y).sum := by
    rw [List.map_map]
    congr 1
    refine List.map_congr_left fun s _ => ?_
    exact spinForm_swap d s.cur y x
  linarith

/-- **C120** What is injected, weighted with the spin accumulation, is lost by diffusion and relaxation; the precession about the magnetization has no part in it. -/
theorem C120_balance {d : SpinData} (h : SpinProblem G H nod d) (hm : ∀ t ∈ d.tets, Material d.c (d.vol t.reg)) {s : MagState} {S : ℕ → Prop} {x : ℕ → V3}
    (hx : Computed G H nod d [s] S x) (hx0 : ∀ i, S i → x i = 0) : injected d s.next x = loss d x ∧ 0 ≤ injected d s.next x := by
  have e1 := Computed.weak (V := d.V) (q := d.surf) h hx x hx0
  have e2 : spinWeak d s.cur s.next x x = 0 := by
    have : ([s].map fun s => spinWeak d s.cur s.next x x).sum = 0 := e1
    simpa using this
  rw [spinWeak_split, loss_form] at e2
  have e3 : injected d s.next x = loss d x := by linarith
  refine ⟨e3, e3 ▸ ?_⟩
  rw [← loss_form d s.cur, spinForm_self]
  refine List.sum_nonneg fun y hy => ?_
  obtain ⟨t, ht, rfl⟩ := List.mem_map.mp hy
  exact spinPart_nonneg h hm x ht

end

/-! ## Example: the tetrahedron of C116, with two polarizations of the current -/

example (s : MagState) : ∃ x y : ℕ → V3,
    Computed Tetra.rule5 TriElem.rule4 4 (exMag.under exMag.V (exCur 2)) [s] (fun i => i = 1 ∨ i = 2 ∨ i = 3) x ∧
    Computed Tetra.rule5 TriElem.rule4 4 (exMag.under exMag.V (exCurT 3)) [reversed s] (fun i => i = 1 ∨ i = 2 ∨ i = 3) y ∧
    injected (exMag.under exMag.V (exCur 2)) s.next y = injected (exMag.under exMag.V (exCurT 3)) (reversed s).next x ∧
    0 ≤ injected (exMag.under exMag.V (exCur 2)) s.next x := by
  have hlt : ∀ i, (i = 1 ∨ i = 2 ∨ i = 3) → i < 4 := by omega
  obtain ⟨x, hx, hx0⟩ := computed_exists (under_problem exMag_problem exMag.V (exCur 2)) exMag_material s (exMag_covered _) hlt
  obtain ⟨y, hy, hy0⟩ := computed_exists (under_problem exMag_problem exMag.V (exCurT 3)) exMag_material (reversed s) (exMag_covered _) hlt
  refine ⟨x, y, hx, hy, ?_, (C120_balance (under_problem exMag_problem exMag.V (exCur 2)) exMag_material hx hx0).2⟩
  have := C120_reciprocity exMag_problem hx hy hx0 hy0
  simpa using this

end Verif.Electro
