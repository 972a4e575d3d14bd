import Verif.Model.LlgElem
import Verif.Model.SpinTorque
import Verif.Props.Ohm

/-!
# C116: the spin accumulation is proportional to the current
-/

namespace Verif.Electro

open Verif.Mesh Verif.MeshElem Verif.Tetra Verif.Llg

/-! ## Specification -/

/-- the same body with another potential and other settings of the surfaces -/
def SpinData.under (d : SpinData) (V : ℕ → ℝ) (surf : ℕ → SurfPrm) : SpinData := { d with V := V, surf := surf }

/-- `x` is an exact solution of the system of the spin accumulation for the nodes outside `S`, after the magnetizations `hs` -/
def Computed (G : Rule) (H : TriElem.Rule) (nod : ℕ) (d : SpinData) (hs : List MagState) (S : ℕ → Prop) (x : ℕ → V3) : Prop :=
  ∃ sys, (SpinSys.new nod d.tets).history G H d.c d.p d.mag d.vol d.surf d.V d.tets d.tris hs = some sys ∧ sys.Solved nod S x

/-- the settings `q` of a surface are `q₁` with the current multiplied by `a`: the same electrode (its potential may be another),
polarization and spin vector; the spin vector is zero if it is given -/
structure Scaled (a : ℝ) (q q₁ : SurfPrm) : Prop where
  V : q.V.IsNan ↔ q₁.V.IsNan
  uP : q.uP = q₁.uP
  s : q.s = q₁.s
  zero : ∀ b, ∀ y, q.s b = .fin y → y = 0
  jn : (∃ j, q₁.jn = .fin j ∧ q.jn = .fin (a * j)) ∨ (¬ q₁.jn.IsFin ∧ ¬ q.jn.IsFin)

/-! ## Lemmas -/

section
variable {G : Rule} {H : TriElem.Rule} {nod : ℕ} {d : SpinData}

/-- diffusion, relaxation and precession -/
noncomputable def spinForm (d : SpinData) (m w s : ℕ → V3) : ℝ :=
  (d.tets.map fun t =>
    diffusivity d.c (d.vol t.reg) * (detJ (nod4 d.p t) / 6) * (∑ a : Fin 3, (gradV (nod4 d.p t) (comp4 w a t)).dot (gradV (nod4 d.p t) (comp4 s a t)))
    + diffusivity d.c (d.vol t.reg) / ((d.vol t.reg).lsf * (d.vol t.reg).lsf) * (detJ (nod4 d.p t) / 6) *
        ((∑ i : Fin 4, (w (t.ind i)).dot (s (t.ind i))) / 4)
    + (if t.isMagnetic d.mag then
        diffusivity d.c (d.vol t.reg) / ((d.vol t.reg).lsd * (d.vol t.reg).lsd) * (detJ (nod4 d.p t) / 6) *
          ((∑ i : Fin 4, (w (t.ind i)).dot ((s (t.ind i)).cross (m (t.ind i)))) / 4) else 0)).sum

theorem comp4_comb (q : Fin 4 → V3) (x x₁ x₂ : ℕ → V3) (a b : ℝ) (c : Fin 3) (t : Tet) :
    gradV q (comp4 (fun i => x i - (a * x₁ i + b * x₂ i)) c t) = gradV q (comp4 x c t) - (a * gradV q (comp4 x₁ c t) + b * gradV q (comp4 x₂ c t)) := by
  have e : ∀ (u v : ℝ) (i : ℕ), (u * x₁ i + v * x₂ i).comp c = u * (x₁ i).comp c + v * (x₂ i).comp c := by
    intro u v i
    fin_cases c <;> simp [V3.comp]
  have e' : ∀ i, (x i - (a * x₁ i + b * x₂ i)).comp c = (x i).comp c - (a * (x₁ i).comp c + b * (x₂ i).comp c) := by
    intro i
    fin_cases c <;> simp [V3.comp]
  unfold gradV comp4
  simp only [e', Fin.sum_univ_four]
  ext <;> simp only [V3.add_x, V3.add_y, V3.add_z, V3.sub_x, V3.sub_y, V3.sub_z, V3.smul_x, V3.smul_y, V3.smul_z] <;> ring

/-- an element in the weak form -/
noncomputable def volTerm (d : SpinData) (m n w s : ℕ → V3) (t : Tet) : ℝ :=
  diffusivity d.c (d.vol t.reg) * (detJ (nod4 d.p t) / 6) * (∑ a : Fin 3, (gradV (nod4 d.p t) (comp4 w a t)).dot (gradV (nod4 d.p t) (comp4 s a t)))
    + diffusivity d.c (d.vol t.reg) / ((d.vol t.reg).lsf * (d.vol t.reg).lsf) * (detJ (nod4 d.p t) / 6) *
        ((∑ i : Fin 4, (w (t.ind i)).dot (s (t.ind i))) / 4)
    + (if t.isMagnetic d.mag then
        diffusivity d.c (d.vol t.reg) / ((d.vol t.reg).lsd * (d.vol t.reg).lsd) * (detJ (nod4 d.p t) / 6) *
          ((∑ i : Fin 4, (w (t.ind i)).dot ((s (t.ind i)).cross (m (t.ind i)))) / 4)
        - (d.c.mub * (d.vol t.reg).P.val * (d.vol t.reg).sigma / d.c.e) * (detJ (nod4 d.p t) / 6) *
          ∑ i : Fin 4, (gradV (nod4 d.p t) (nod4 d.V t)).dot (daRow (nod4 d.p t) i) * (w (t.ind i)).dot (n (t.ind i)) else 0)

/-- a triangle in the weak form -/
noncomputable def surfTerm (d : SpinData) (w : ℕ → V3) (f : Tri) : ℝ :=
  TriElem.surf (nod3 d.p f) * ∑ a : Fin 3, flow d.c (d.surf f.reg) a * (((w (f.ind 0)).comp a + (w (f.ind 1)).comp a + (w (f.ind 2)).comp a) / 3)

theorem spinWeak_terms (d : SpinData) (m n w s : ℕ → V3) :
    spinWeak d m n w s = (d.tets.map (volTerm d m n w s)).sum + (d.tris.map (surfTerm d w)).sum := rfl

theorem spinWeak_comb {V V₁ V₂ : ℕ → ℝ} {q q₁ q₂ : ℕ → SurfPrm} {a b : ℝ}
    (hV : ∀ t ∈ d.tets, gradV (nod4 d.p t) (nod4 V t) = a * gradV (nod4 d.p t) (nod4 V₁ t) + b * gradV (nod4 d.p t) (nod4 V₂ t))
    (hq : ∀ f ∈ d.tris, ∀ c, flow d.c (q f.reg) c = a * flow d.c (q₁ f.reg) c + b * flow d.c (q₂ f.reg) c) (m n w x x₁ x₂ : ℕ → V3) :
    spinForm d m w (fun i => x i - (a * x₁ i + b * x₂ i)) =
      spinWeak (d.under V q) m n w x - (a * spinWeak (d.under V₁ q₁) m n w x₁ + b * spinWeak (d.under V₂ q₂) m n w x₂) := by
  have comb : ∀ {α : Type} (l : List α) (f g g₁ g₂ : α → ℝ), (∀ y ∈ l, f y = g y - (a * g₁ y + b * g₂ y)) →
      (l.map f).sum = (l.map g).sum - (a * (l.map g₁).sum + b * (l.map g₂).sum) := by
    intro α l f g g₁ g₂ h
    induction l with
    | nil => simp
    | cons y l ih =>
      simp only [List.map_cons, List.sum_cons]
      rw [ih fun z hz => h z (List.mem_cons_of_mem _ hz), h y List.mem_cons_self]
      ring
  have eT := comb d.tris (fun _ => 0) (surfTerm (d.under V q) w) (surfTerm (d.under V₁ q₁) w) (surfTerm (d.under V₂ q₂) w) (by
    intro f hf
    simp only [surfTerm, SpinData.under, hq f hf, Fin.sum_univ_three]
    ring)
  have eV := comb d.tets (fun t => volTerm (d.under V q) m n w x t - (a * volTerm (d.under V₁ q₁) m n w x₁ t + b * volTerm (d.under V₂ q₂) m n w x₂ t))
    (volTerm (d.under V q) m n w x) (volTerm (d.under V₁ q₁) m n w x₁) (volTerm (d.under V₂ q₂) m n w x₂) fun _ _ => rfl
  have eF : spinForm d m w (fun i => x i - (a * x₁ i + b * x₂ i)) =
      (d.tets.map fun t => volTerm (d.under V q) m n w x t - (a * volTerm (d.under V₁ q₁) m n w x₁ t + b * volTerm (d.under V₂ q₂) m n w x₂ t)).sum := by
    unfold spinForm
    congr 1
    refine List.map_congr_left fun t ht => ?_
    have d1 : ∀ u x y z : V3, u.dot (x - (a * y + b * z)) = u.dot x - (a * u.dot y + b * u.dot z) := fun u x y z => by
      simp only [V3.dot, V3.add_x, V3.add_y, V3.add_z, V3.sub_x, V3.sub_y, V3.sub_z, V3.smul_x, V3.smul_y, V3.smul_z]; ring
    have d2 : ∀ u y z : V3, (a * y + b * z).dot u = a * y.dot u + b * z.dot u := fun u y z => by
      simp only [V3.dot, V3.add_x, V3.add_y, V3.add_z, V3.smul_x, V3.smul_y, V3.smul_z]; ring
    have c1 : ∀ u x y z : V3, (x - (a * y + b * z)).cross u = x.cross u - (a * y.cross u + b * z.cross u) := fun u x y z => by
      ext <;> simp only [V3.cross, V3.add_x, V3.add_y, V3.add_z, V3.sub_x, V3.sub_y, V3.sub_z, V3.smul_x, V3.smul_y, V3.smul_z] <;> ring
    have m1 : ∀ f g h : Fin 4 → ℝ, ∑ i, (a * f i + b * g i) * h i = a * ∑ i, f i * h i + b * ∑ i, g i * h i := fun f g h => by
      rw [Finset.mul_sum, Finset.mul_sum, ← Finset.sum_add_distrib]
      exact Finset.sum_congr rfl fun i _ => by ring
    simp only [volTerm, SpinData.under, comp4_comb, hV t ht, c1, d1, d2, m1, Finset.sum_sub_distrib, Finset.sum_add_distrib, ← Finset.mul_sum]
    by_cases hmag : t.isMagnetic d.mag = true
    · simp only [hmag, if_true]
      ring
    · simp only [hmag, Bool.false_eq_true, if_false]
      ring
  have e0 : (d.tris.map fun _ => (0 : ℝ)).sum = 0 := by simp
  rw [eF, eV, spinWeak_terms, spinWeak_terms, spinWeak_terms]
  have e1 : ∀ V q, (d.under V q).tets = d.tets := fun _ _ => rfl
  have e2 : ∀ V q, (d.under V q).tris = d.tris := fun _ _ => rfl
  simp only [e1, e2]
  linear_combination eT - e0

/-- the part of an element in the form, without precession -/
noncomputable def spinPart (d : SpinData) (y : ℕ → V3) (t : Tet) : ℝ :=
  diffusivity d.c (d.vol t.reg) * (detJ (nod4 d.p t) / 6) * (∑ a : Fin 3, (gradV (nod4 d.p t) (comp4 y a t)).nsq)
    + diffusivity d.c (d.vol t.reg) / ((d.vol t.reg).lsf * (d.vol t.reg).lsf) * (detJ (nod4 d.p t) / 6) * ((∑ i : Fin 4, (y (t.ind i)).nsq) / 4)

theorem spinForm_self (d : SpinData) (m y : ℕ → V3) : spinForm d m y y = (d.tets.map (spinPart d y)).sum := by
  unfold spinForm
  congr 1
  refine List.map_congr_left fun t _ => ?_
  have h0 : ∀ i, (y i).dot ((y i).cross (m i)) = 0 := fun i => by simp only [V3.dot, V3.cross]; ring
  simp only [h0, Finset.sum_const_zero, zero_div, mul_zero, ite_self, add_zero]
  rfl

theorem diffusivity_pos {c : Consts} {m : VolPrm} (h : Material c m) : 0 < diffusivity c m := by
  have h1 := h.sigma
  have h2 := h.N0
  have h3 := mul_self_pos.mpr h.e
  unfold diffusivity
  positivity

theorem spinPart_nonneg (h : SpinProblem G H nod d) (hm : ∀ t ∈ d.tets, Material d.c (d.vol t.reg)) (y : ℕ → V3) {t : Tet} (ht : t ∈ d.tets) :
    0 ≤ spinPart d y t := by
  have h1 := diffusivity_pos (hm t ht)
  have h2 := h.oriented t ht
  have h3 := mul_self_pos.mpr (hm t ht).lsf
  have h4 : 0 ≤ ∑ a : Fin 3, (gradV (nod4 d.p t) (comp4 y a t)).nsq := Finset.sum_nonneg fun a _ => nsq_nonneg _
  have h5 : 0 ≤ ∑ i : Fin 4, (y (t.ind i)).nsq := Finset.sum_nonneg fun a _ => nsq_nonneg _
  unfold spinPart
  positivity

theorem spinPart_zero (h : SpinProblem G H nod d) (hm : ∀ t ∈ d.tets, Material d.c (d.vol t.reg)) (y : ℕ → V3) {t : Tet} (ht : t ∈ d.tets)
    (h0 : spinPart d y t = 0) (k : Fin 4) : y (t.ind k) = 0 := by
  have h1 := diffusivity_pos (hm t ht)
  have h2 := h.oriented t ht
  have h3 := mul_self_pos.mpr (hm t ht).lsf
  have h4 : 0 ≤ ∑ a : Fin 3, (gradV (nod4 d.p t) (comp4 y a t)).nsq := Finset.sum_nonneg fun a _ => nsq_nonneg _
  have h5 : 0 ≤ ∑ i : Fin 4, (y (t.ind i)).nsq := Finset.sum_nonneg fun a _ => nsq_nonneg _
  unfold spinPart at h0
  have h6 : 0 ≤ diffusivity d.c (d.vol t.reg) * (detJ (nod4 d.p t) / 6) * (∑ a : Fin 3, (gradV (nod4 d.p t) (comp4 y a t)).nsq) := by positivity
  have h7 : 0 < diffusivity d.c (d.vol t.reg) / ((d.vol t.reg).lsf * (d.vol t.reg).lsf) * (detJ (nod4 d.p t) / 6) := by positivity
  have h8 : ∑ i : Fin 4, (y (t.ind i)).nsq = 0 := by
    by_contra hne
    have h9 : 0 < ∑ i : Fin 4, (y (t.ind i)).nsq := lt_of_le_of_ne h5 (Ne.symm hne)
    have := mul_pos h7 (div_pos h9 (by norm_num : (0 : ℝ) < 4))
    linarith
  exact dot_self_eq_zero ((Finset.sum_eq_zero_iff_of_nonneg fun i _ => nsq_nonneg (y (t.ind i))).mp h8 k (Finset.mem_univ k))

theorem under_problem (h : SpinProblem G H nod d) (V : ℕ → ℝ) (q : ℕ → SurfPrm) : SpinProblem G H nod (d.under V q) :=
  ⟨h.rule, h.ruleT, h.valid, h.validT, h.oriented⟩

theorem Computed.weak (h : SpinProblem G H nod d) {V : ℕ → ℝ} {q : ℕ → SurfPrm} {hs : List MagState} {S : ℕ → Prop} {x : ℕ → V3}
    (hx : Computed G H nod (d.under V q) hs S x) (w : ℕ → V3) (hw : ∀ i, S i → w i = 0) :
    (hs.map fun s => spinWeak (d.under V q) s.cur s.next w x).sum = 0 := by
  obtain ⟨sys, h1, h2⟩ := hx
  obtain ⟨sys', h3, h4⟩ := C45_history (under_problem h V q) hs
  rw [h1] at h3
  cases h3
  exact (h4 S x).mp h2 w hw

/-! ## Properties -/

/-- **C116** Superposition: where the electric field, the spins through the surfaces and the spin vectors of the contacts are linear combinations, the spin accumulation
is the same linear combination, for the same magnetization. -/
theorem C116_superposition (h : SpinProblem G H nod d) (hm : ∀ t ∈ d.tets, Material d.c (d.vol t.reg)) {V V₁ V₂ : ℕ → ℝ} {q q₁ q₂ : ℕ → SurfPrm} {a b : ℝ}
    (hV : ∀ t ∈ d.tets, gradV (nod4 d.p t) (nod4 V t) = a * gradV (nod4 d.p t) (nod4 V₁ t) + b * gradV (nod4 d.p t) (nod4 V₂ t))
    (hq : ∀ f ∈ d.tris, ∀ c, flow d.c (q f.reg) c = a * flow d.c (q₁ f.reg) c + b * flow d.c (q₂ f.reg) c)
    {hs : List MagState} (hne : hs ≠ []) {S : ℕ → Prop} {x x₁ x₂ : ℕ → V3} (hx : Computed G H nod (d.under V q) hs S x)
    (hx₁ : Computed G H nod (d.under V₁ q₁) hs S x₁) (hx₂ : Computed G H nod (d.under V₂ q₂) hs S x₂) (hS : ∀ i, S i → x i = a * x₁ i + b * x₂ i) :
    ∀ t ∈ d.tets, ∀ k, x (t.ind k) = a * x₁ (t.ind k) + b * x₂ (t.ind k) := by
  set y : ℕ → V3 := fun i => x i - (a * x₁ i + b * x₂ i) with hy
  have hw : ∀ i, S i → y i = 0 := fun i hi => by
    rw [hy]
    simp only
    rw [hS i hi, sub_self]
  have e := hx.weak h y hw
  have e₁ := hx₁.weak h y hw
  have e₂ := hx₂.weak h y hw
  have e0 : (hs.map fun s => spinForm d s.cur y y).sum = 0 := by
    have : ∀ s ∈ hs, spinForm d s.cur y y = spinWeak (d.under V q) s.cur s.next y x -
        (a * spinWeak (d.under V₁ q₁) s.cur s.next y x₁ + b * spinWeak (d.under V₂ q₂) s.cur s.next y x₂) := fun s _ =>
      spinWeak_comb hV hq s.cur s.next y x x₁ x₂
    rw [List.map_congr_left this, sum_map_sub', List.sum_map_add, List.sum_map_mul_left, List.sum_map_mul_left, e, e₁, e₂]
    ring
  simp only [spinForm_self] at e0
  rw [List.map_const', List.sum_replicate, nsmul_eq_mul] at e0
  have hl : (hs.length : ℝ) ≠ 0 := by
    rw [Nat.cast_ne_zero]
    exact fun h => hne (List.length_eq_zero_iff.mp h)
  have e1 := (mul_eq_zero.mp e0).resolve_left hl
  intro t ht k
  have e2 := list_sum_zero (l := d.tets.map (spinPart d y)) (by
    intro z hz
    obtain ⟨t, ht, rfl⟩ := List.mem_map.mp hz
    exact spinPart_nonneg h hm y ht) e1 _ (List.mem_map.mpr ⟨t, ht, rfl⟩)
  exact sub_eq_zero.mp (spinPart_zero h hm y ht e2 k)

open Classical in
theorem flow_scaled {c : Consts} {a : ℝ} {q q₁ : SurfPrm} (h : Scaled a q q₁) (k : Fin 3) : flow c q k = a * flow c q₁ k := by
  have hz : ∀ b, (q.s b).IsFin → (q.s b).val = 0 := by
    intro b hb
    cases hc : q.s b with
    | nan => rw [hc] at hb; exact absurd hb id
    | inf s => rw [hc] at hb; exact absurd hb id
    | fin y => exact h.zero b y hc
  have e : (if ∀ b, (q.s b).IsFin then (q.s k).val else 0) = 0 := by
    split_ifs with h1
    · exact hz k (h1 k)
    · rfl
  unfold flow
  rw [← h.uP, ← h.s, e]
  rcases h.jn with ⟨j, h1, h2⟩ | ⟨h1, h2⟩
  · rw [h1, h2]
    have i1 : (Fl.fin j).IsFin ↔ True := ⟨fun _ => trivial, fun _ => trivial⟩
    have i2 : (Fl.fin (a * j)).IsFin ↔ True := ⟨fun _ => trivial, fun _ => trivial⟩
    simp only [i1, i2, true_and]
    split_ifs
    · show -(a * j) * _ * _ = a * (-j * _ * _)
      ring
    · rw [mul_zero]
  · rw [if_neg fun h => h2 h.1, if_neg fun h => h1 h.1, mul_zero]

theorem currentDensity_gives (q : SurfPrm) : Gives q (currentDensity q) := by
  unfold Gives currentDensity
  cases hc : q.jn with
  | nan => exact Or.inr ⟨id, if_neg id⟩
  | inf s => exact Or.inr ⟨id, if_neg id⟩
  | fin x => exact Or.inl (by rw [if_pos (show (Fl.fin x).IsFin from trivial)]; rfl)

/-- **C116** The spin accumulation is proportional to the current: if the current is multiplied by a factor, with the same magnetization and spin vectors on the contacts which are
zero or multiplied by this factor too, then the spin accumulation is multiplied by the factor. Reversing the current reverses it. The potential of the electrode has no effect. -/
theorem C116_current (h : SpinProblem G H nod d) (hm : ∀ t ∈ d.tets, Material d.c (d.vol t.reg)) {q q₁ : ℕ → SurfPrm} {a : ℝ}
    (hq : ∀ f ∈ d.tris, Scaled a (q f.reg) (q₁ f.reg)) (hc : Connected nod (fun r => (d.vol r).sigma) d.tets (OnPotential q d.tris)) {v v₁ : ℝ} {V V₁ : ℕ → ℝ}
    (hs : Solved G H nod d.p (fun r => (d.vol r).sigma) q d.tets d.tris v V) (hs₁ : Solved G H nod d.p (fun r => (d.vol r).sigma) q₁ d.tets d.tris v₁ V₁)
    {hist : List MagState} (hne : hist ≠ []) {S : ℕ → Prop} {x x₁ : ℕ → V3} (hx : Computed G H nod (d.under V q) hist S x)
    (hx₁ : Computed G H nod (d.under V₁ q₁) hist S x₁) (hS : ∀ i, S i → x i = a * x₁ i) : ∀ t ∈ d.tets, ∀ k, x (t.ind k) = a * x₁ (t.ind k) := by
  have hp : Problem G H nod d.p (fun r => (d.vol r).sigma) d.tets d.tris :=
    ⟨h.rule, h.ruleT, h.valid, h.validT, h.oriented, fun t ht => (hm t ht).sigma.le⟩
  have z : ∀ u w : V3, a * u + (0 : ℝ) * w = a * u := fun u w => by ext <;> simp
  have hV := (C115_superposition (a := a) (b := 0) (J := fun r => currentDensity (q r)) (J₁ := fun r => currentDensity (q₁ r))
    (J₂ := fun r => currentDensity (q₁ r)) hp hc (prm₁ := q₁) (prm₂ := q₁) ?_ ?_ (fun f _ => currentDensity_gives _) (fun f _ => currentDensity_gives _)
    (fun f _ => currentDensity_gives _) ?_ hs hs₁ hs₁).2
  · have := C116_superposition (a := a) (b := 0) h hm hV (fun f hf c => by rw [flow_scaled (hq f hf), zero_mul, add_zero]) hne hx hx₁ hx₁ fun i hi => by
      rw [hS i hi, z]
    intro t ht k
    rw [this t ht k, z]
  · intro i
    constructor <;> rintro ⟨f, hf, h1, h2⟩ <;> refine ⟨f, hf, ?_, h2⟩
    · rwa [(hq f hf).V]
    · rwa [← (hq f hf).V]
  · intro i
    constructor <;> rintro ⟨f, hf, h1, h2⟩ <;> refine ⟨f, hf, ?_, h2⟩
    · rwa [(hq f hf).V]
    · rwa [← (hq f hf).V]
  · intro f hf
    unfold currentDensity
    rcases (hq f hf).jn with ⟨j, h1, h2⟩ | ⟨h1, h2⟩
    · rw [h1, h2, if_pos (show (Fl.fin (a * j)).IsFin from trivial), if_pos (show (Fl.fin j).IsFin from trivial)]
      show a * j = a * j + 0 * j
      ring
    · rw [if_neg h1, if_neg h2]
      ring

/-- **C116** The field by which the spin accumulation acts on the magnetization is proportional to the current too. -/
theorem C116_torque (h : SpinProblem G H nod d) (hm : ∀ t ∈ d.tets, Material d.c (d.vol t.reg)) {q q₁ : ℕ → SurfPrm} {a : ℝ}
    (hq : ∀ f ∈ d.tris, Scaled a (q f.reg) (q₁ f.reg)) (hc : Connected nod (fun r => (d.vol r).sigma) d.tets (OnPotential q d.tris)) {v v₁ : ℝ} {V V₁ : ℕ → ℝ}
    (hs : Solved G H nod d.p (fun r => (d.vol r).sigma) q d.tets d.tris v V) (hs₁ : Solved G H nod d.p (fun r => (d.vol r).sigma) q₁ d.tets d.tris v₁ V₁)
    {hist : List MagState} (hne : hist ≠ []) {S : ℕ → Prop} {x x₁ : ℕ → V3} (hx : Computed G H nod (d.under V q) hist S x)
    (hx₁ : Computed G H nod (d.under V₁ q₁) hist S x₁) (hS : ∀ i, S i → x i = a * x₁ i) (gamma0 : ℝ) (Ms : ℕ → ℝ) :
    ∀ t ∈ d.tets, ∀ j, SpinTorque.extraField G true d.c d.mag d.vol gamma0 Ms x t j = a * SpinTorque.extraField G true d.c d.mag d.vol gamma0 Ms x₁ t j := by
  intro t ht j
  have e := C116_current h hm hq hc hs hs₁ hne hx hx₁ hS t ht
  have e' : nod4 x t = fun k => a * nod4 x₁ t k := funext e
  unfold SpinTorque.extraField SpinTorque.calcHst interpV
  rw [e']
  by_cases hmag : t.isMagnetic d.mag = true
  · simp only [hmag, Bool.and_self, if_true, Fin.sum_univ_four]
    ext <;> simp only [V3.add_x, V3.add_y, V3.add_z, V3.smul_x, V3.smul_y, V3.smul_z] <;> ring
  · simp only [hmag, Bool.and_false, Bool.false_eq_true, if_false]
    ext <;> simp

/-- **C116** Without current there is no spin accumulation, and the system of a time step is the one without spin accumulation. -/
theorem C116_no_current (h : SpinProblem G H nod d) (hm : ∀ t ∈ d.tets, Material d.c (d.vol t.reg)) {q : ℕ → SurfPrm}
    (hq : ∀ f ∈ d.tris, Scaled 0 (q f.reg) (q f.reg)) (hc : Connected nod (fun r => (d.vol r).sigma) d.tets (OnPotential q d.tris)) {v : ℝ} {V : ℕ → ℝ}
    (hs : Solved G H nod d.p (fun r => (d.vol r).sigma) q d.tets d.tris v V)
    {hist : List MagState} (hne : hist ≠ []) {S : ℕ → Prop} {x : ℕ → V3} (hx : Computed G H nod (d.under V q) hist S x) (hS : ∀ i, S i → x i = 0) :
    ∀ t ∈ d.tets, (∀ k, x (t.ind k) = 0) ∧ ∀ gamma0 Ms prm step nodes Hext dir Vdrift,
      tetElem G prm step nodes Hext (SpinTorque.extraField G true d.c d.mag d.vol gamma0 Ms x) dir Vdrift t =
        tetElem G prm step nodes Hext (SpinTorque.extraField G false d.c d.mag d.vol gamma0 Ms x) dir Vdrift t := by
  intro t ht
  have z : ∀ u : V3, (0 : ℝ) * u = 0 := fun u => by ext <;> simp
  have hS' : ∀ i, S i → x i = (0 : ℝ) * x i := fun i hi => by rw [z, hS i hi]
  have e := C116_current h hm hq hc hs hs hne hx hx hS' t ht
  refine ⟨fun k => by rw [e k, z], fun gamma0 Ms prm step nodes Hext dir Vdrift => ?_⟩
  have e2 : SpinTorque.extraField G true d.c d.mag d.vol gamma0 Ms x t = SpinTorque.extraField G false d.c d.mag d.vol gamma0 Ms x t := by
    funext j
    rw [C116_torque h hm hq hc hs hs hne hx hx hS' gamma0 Ms t ht j, z]
    rfl
  unfold tetElem
  rw [e2]

/-- there is a solution -/
theorem computed_exists (h : SpinProblem G H nod d) (hm : ∀ t ∈ d.tets, Material d.c (d.vol t.reg)) (s : MagState) {S : ℕ → Prop}
    (hc : Covered nod d.tets S) (hlt : ∀ i, S i → i < nod) : ∃ x, Computed G H nod d [s] S x ∧ ∀ i, S i → x i = 0 := by
  obtain ⟨y, ⟨h1, h2⟩, -⟩ := (C60_spin_unique h hm s.cur s.next S fun _ => 0).mpr hc
  obtain ⟨sys, h3, h4⟩ := C45_first_partial h s
  refine ⟨field y, ⟨sys, h3, (h4 _ _).mpr h2⟩, fun i hi => ?_⟩
  have hi' := hlt i hi
  have z : ∀ r (hr : r < 3 * nod), r / 3 = i → y ⟨r, hr⟩ = 0 := by
    intro r hr e
    rw [h1 ⟨r, hr⟩ (by rw [show ((⟨r, hr⟩ : Fin (3 * nod)) : ℕ) / 3 = i from e]; exact hi)]
    unfold flat V3.comp
    split <;> rfl
  unfold field
  ext
  · simp only [dif_pos (show 3 * i < 3 * nod by omega)]
    exact z _ _ (by omega)
  · simp only [dif_pos (show 3 * i + 1 < 3 * nod by omega)]
    exact z _ _ (by omega)
  · simp only [dif_pos (show 3 * i + 2 < 3 * nod by omega)]
    exact z _ _ (by omega)

end

/-! ## Example: a magnetic tetrahedron with a current through one face, and the reversed current -/

/-- a magnetic conductor -/
noncomputable def exMag : SpinData where
  c := ⟨1, 1⟩
  p := Tetra.exP
  mag := fun _ => true
  vol := fun _ => ⟨"magnet", 0, 1, .fin 1, .fin (1 / 2), 1, 1⟩
  surf := exCur 2
  V := fun _ => 0
  tets := [Tetra.exT]
  tris := exTris

theorem exMag_problem : SpinProblem Tetra.rule5 TriElem.rule4 4 exMag :=
  ⟨ex_problem.rule, ex_problem.ruleT, ex_problem.valid, ex_problem.validT, ex_problem.oriented⟩

theorem exMag_material : ∀ t ∈ exMag.tets, Material exMag.c (exMag.vol t.reg) := fun _ _ => ⟨one_ne_zero, zero_lt_one, zero_lt_one, one_ne_zero⟩

theorem exMag_covered (S : ℕ → Prop) : Covered 4 exMag.tets S := fun i hi _ =>
  ⟨Tetra.exT, List.mem_singleton.mpr rfl, ⟨i, hi⟩, by interval_cases i <;> rfl⟩

theorem exCur_scaled (a j : ℝ) (r : ℕ) : Scaled a (exCur (a * j) r) (exCur j r) := by
  by_cases hr : r = 1
  · subst hr
    refine ⟨Iff.rfl, rfl, rfl, fun b y h => ?_, Or.inl ⟨j, rfl, rfl⟩⟩
    have : Fl.nan = Fl.fin y := h
    cases this
  · have e : ∀ j, exCur j r = ⟨"right", .nan, .fin 0, fun _ => .nan, fun _ => .fin 0⟩ := fun j => if_neg hr
    rw [e, e]
    exact ⟨Iff.rfl, rfl, rfl, fun b y h => (Fl.fin.inj h).symm, Or.inr ⟨id, id⟩⟩

example (s : MagState) : ∃ (V V₁ : ℕ → ℝ) (x x₁ : ℕ → V3),
    Computed Tetra.rule5 TriElem.rule4 4 (exMag.under V (exCur (-1 * 2))) [s] (fun i => i = 1 ∨ i = 2 ∨ i = 3) x ∧
    Computed Tetra.rule5 TriElem.rule4 4 (exMag.under V₁ (exCur 2)) [s] (fun i => i = 1 ∨ i = 2 ∨ i = 3) x₁ ∧ ∀ t ∈ exMag.tets, ∀ k, x (t.ind k) = (-1 : ℝ) * x₁ (t.ind k) := by
  obtain ⟨V, hV⟩ := solved_exists ex_problem (exCur (-1 * 2)) (exCur_connected _) 0
  obtain ⟨V₁, hV₁⟩ := solved_exists ex_problem (exCur 2) (exCur_connected _) 0
  have hlt : ∀ i, (i = 1 ∨ i = 2 ∨ i = 3) → i < 4 := by omega
  obtain ⟨x, hx, hx0⟩ := computed_exists (under_problem exMag_problem V (exCur (-1 * 2))) exMag_material s (exMag_covered _) hlt
  obtain ⟨x₁, hx₁, hx₁0⟩ := computed_exists (under_problem exMag_problem V₁ (exCur 2)) exMag_material s (exMag_covered _) hlt
  refine ⟨V, V₁, x, x₁, hx, hx₁, C116_current exMag_problem exMag_material (fun f _ => exCur_scaled (-1) 2 f.reg) (exCur_connected _) hV hV₁ (List.cons_ne_nil _ _) hx hx₁
    fun i hi => ?_⟩
  rw [hx0 i hi, hx₁0 i hi]
  ext <;> simp

example (s : MagState) : ∃ (V : ℕ → ℝ) (x : ℕ → V3), Computed Tetra.rule5 TriElem.rule4 4 (exMag.under V (exCur 0)) [s] (fun i => i = 1 ∨ i = 2 ∨ i = 3) x ∧
    ∀ t ∈ exMag.tets, ∀ k, x (t.ind k) = 0 := by
  obtain ⟨V, hV⟩ := solved_exists ex_problem (exCur 0) (exCur_connected _) 7
  have hlt : ∀ i, (i = 1 ∨ i = 2 ∨ i = 3) → i < 4 := by omega
  obtain ⟨x, hx, hx0⟩ := computed_exists (under_problem exMag_problem V (exCur 0)) exMag_material s (exMag_covered _) hlt
  have e : ∀ r, Scaled 0 (exCur 0 r) (exCur 0 r) := fun r => by
    have := exCur_scaled 0 0 r
    rwa [zero_mul] at this
  exact ⟨V, x, hx, fun t ht => (C116_no_current exMag_problem exMag_material (fun f _ => e f.reg) (exCur_connected _) hV (List.cons_ne_nil _ _) hx hx0 t ht).1⟩

end Verif.Electro
