import Verif.Props.Maximum

/-!
# C115: Ohm's law

Superposition of the currents, reciprocity and the balance of the power for the potential computed by `electrostatSolver`.
-/

namespace Verif.Electro

open Verif.Mesh Verif.MeshElem Verif.Tetra Verif.Llg

/-! ## Specification -/

/-- the current density of the settings of a surface: the given value, none if no value is given -/
def Gives (q : SurfPrm) (j : ℝ) : Prop := q.jn = .fin j ∨ (¬ q.jn.IsFin ∧ j = 0)

/-- `V` is an exact solution of the equations assembled for the nodes outside the electrode (electrostatSolver.cpp:96-130), with the potential `v`
on the electrode -/
structure Solved (G : Rule) (H : TriElem.Rule) (nod : ℕ) (p : ℕ → V3) (sigma : ℕ → ℝ) (prm : ℕ → SurfPrm) (tets : List Tet) (tris : List Tri)
    (v : ℝ) (V : ℕ → ℝ) : Prop where
  electrode : ∀ i, OnPotential prm tris i → V i = v
  rows : ∃ K L, potSystem G H nod p sigma prm tets tris = some (K, L) ∧
    ∀ i, i < nod → ¬ OnPotential prm tris i → (K.mult V)[i]? = L[i]?

/-- power carried by the current densities `J` of the surfaces out of a body where the potential is `V`: current density times area times mean
potential, summed over the triangles -/
noncomputable def power (p : ℕ → V3) (tris : List Tri) (J V : ℕ → ℝ) : ℝ :=
  (tris.map fun f => J f.reg * TriElem.surf (nod3 p f) * ((V (f.ind 0) + V (f.ind 1) + V (f.ind 2)) / 3)).sum

/-- heat released in the body: conductivity times volume times squared field, summed over the tetrahedrons -/
noncomputable def heat (p : ℕ → V3) (sigma : ℕ → ℝ) (tets : List Tet) (V : ℕ → ℝ) : ℝ :=
  (tets.map fun t => sigma t.reg * (detJ (nod4 p t) / 6) * (gradV (nod4 p t) (nod4 V t)).nsq).sum

/-! ## Lemmas -/

section
variable {G : Rule} {H : TriElem.Rule} {nod : ℕ} {p : ℕ → V3} {sigma : ℕ → ℝ} {tets : List Tet} {tris : List Tri}

/-- the volume part of the weak form -/
noncomputable def volForm (p : ℕ → V3) (sigma : ℕ → ℝ) (tets : List Tet) (w V : ℕ → ℝ) : ℝ :=
  (tets.map fun t => sigma t.reg * (detJ (nod4 p t) / 6) * (gradV (nod4 p t) (nod4 w t)).dot (gradV (nod4 p t) (nod4 V t))).sum

theorem weakForm_split (J w V : ℕ → ℝ) : weakForm p sigma J tets tris w V = volForm p sigma tets w V + power p tris J w := rfl

theorem volForm_comm (w V : ℕ → ℝ) : volForm p sigma tets w V = volForm p sigma tets V w := by
  unfold volForm
  congr 1
  refine List.map_congr_left fun t _ => ?_
  simp only [V3.dot]
  ring

theorem gradV_comb (q : Fin 4 → V3) (a b c : ℝ) (f g : Fin 4 → ℝ) :
    gradV q (fun i => a * f i + b * g i + c) = a * gradV q f + b * gradV q g := by
  have h := gradV_const q c
  unfold gradV at *
  simp only [Fin.sum_univ_four] at *
  have hx := congrArg V3.x h
  have hy := congrArg V3.y h
  have hz := congrArg V3.z h
  simp only [V3.add_x, V3.add_y, V3.add_z, V3.smul_x, V3.smul_y, V3.smul_z, V3.zero_x, V3.zero_y, V3.zero_z] at hx hy hz
  ext
  · simp only [V3.add_x, V3.smul_x]; linear_combination hx
  · simp only [V3.add_y, V3.smul_y]; linear_combination hy
  · simp only [V3.add_z, V3.smul_z]; linear_combination hz

theorem volForm_comb (w f g : ℕ → ℝ) (a b c : ℝ) :
    volForm p sigma tets w (fun i => a * f i + b * g i + c) = a * volForm p sigma tets w f + b * volForm p sigma tets w g := by
  unfold volForm
  rw [← List.sum_map_mul_left, ← List.sum_map_mul_left, ← List.sum_map_add]
  congr 1
  refine List.map_congr_left fun t _ => ?_
  have : nod4 (fun i => a * f i + b * g i + c) t = fun i => a * nod4 f t i + b * nod4 g t i + c := rfl
  rw [this, gradV_comb]
  simp only [V3.dot, V3.add_x, V3.add_y, V3.add_z, V3.smul_x, V3.smul_y, V3.smul_z]
  ring

theorem volForm_shift (w f : ℕ → ℝ) (c : ℝ) : volForm p sigma tets w (fun i => f i - c) = volForm p sigma tets w f := by
  have := volForm_comb (p := p) (sigma := sigma) (tets := tets) w f f 1 0 (-c)
  simp only [one_mul, zero_mul, add_zero] at this
  rw [← this]
  rfl

theorem Gives.eq {q : SurfPrm} {j : ℝ} (h : Gives q j) : currentDensity q = j := by
  unfold currentDensity
  rcases h with h | ⟨h, rfl⟩
  · rw [h]
    exact if_pos trivial
  · rw [if_neg h]

theorem power_congr {J J' : ℕ → ℝ} (w : ℕ → ℝ) (h : ∀ f ∈ tris, J f.reg = J' f.reg) : power p tris J w = power p tris J' w := by
  unfold power
  congr 1
  exact List.map_congr_left fun f hf => by rw [h f hf]

/-- the equations, tested with a function that vanishes on the electrode -/
theorem Solved.weak (h : Problem G H nod p sigma tets tris) {prm : ℕ → SurfPrm} {v : ℝ} {V J : ℕ → ℝ}
    (hs : Solved G H nod p sigma prm tets tris v V) (hJ : ∀ f ∈ tris, Gives (prm f.reg) (J f.reg)) (w : ℕ → ℝ)
    (hw : ∀ i, OnPotential prm tris i → w i = 0) : volForm p sigma tets w V = -power p tris J w := by
  obtain ⟨K, L, h1, h2⟩ := pot_solved h prm
  obtain ⟨K', L', h3, h4⟩ := hs.rows
  rw [h1] at h3
  cases h3
  have := (h2 _ V).mp h4 w hw
  rw [weakForm_split, power_congr w fun f hf => (hJ f hf).eq] at this
  linarith

/-- there is a solution -/
theorem solved_exists (h : Problem G H nod p sigma tets tris) (prm : ℕ → SurfPrm) (hc : Connected nod sigma tets (OnPotential prm tris)) (v : ℝ) :
    ∃ V, Solved G H nod p sigma prm tets tris v V := by
  obtain ⟨V, ⟨h1, h2⟩, -⟩ := (C59_potential_unique h prm (OnPotential prm tris) fun _ => v).mpr hc
  obtain ⟨K, L, h3, h4⟩ := pot_solved h prm
  refine ⟨ext V, fun i hi => ?_, K, L, h3, (h4 _ _).mpr h2⟩
  have hlt : i < nod := by
    obtain ⟨f, hf, -, k, rfl⟩ := hi
    exact h.validT f hf k
  have := ext_val V ⟨i, hlt⟩
  exact this.trans (h1 ⟨i, hlt⟩ hi)

/-! ## Properties -/

/-- **C115** Superposition: with the same electrode, the potential above that of the electrode is a linear function of the currents imposed on the surfaces, and
so is the field in every element. The potential of the electrode itself has no other effect. -/
theorem C115_superposition (h : Problem G H nod p sigma tets tris) {prm prm₁ prm₂ : ℕ → SurfPrm}
    (hc : Connected nod sigma tets (OnPotential prm tris)) (h₁ : ∀ i, OnPotential prm₁ tris i ↔ OnPotential prm tris i)
    (h₂ : ∀ i, OnPotential prm₂ tris i ↔ OnPotential prm tris i) {J J₁ J₂ : ℕ → ℝ} {a b : ℝ}
    (hJ : ∀ f ∈ tris, Gives (prm f.reg) (J f.reg)) (hJ₁ : ∀ f ∈ tris, Gives (prm₁ f.reg) (J₁ f.reg))
    (hJ₂ : ∀ f ∈ tris, Gives (prm₂ f.reg) (J₂ f.reg)) (hab : ∀ f ∈ tris, J f.reg = a * J₁ f.reg + b * J₂ f.reg) {v v₁ v₂ : ℝ} {V V₁ V₂ : ℕ → ℝ}
    (hs : Solved G H nod p sigma prm tets tris v V) (hs₁ : Solved G H nod p sigma prm₁ tets tris v₁ V₁)
    (hs₂ : Solved G H nod p sigma prm₂ tets tris v₂ V₂) :
    (∀ i, i < nod → V i - v = a * (V₁ i - v₁) + b * (V₂ i - v₂)) ∧
      ∀ t ∈ tets, gradV (nod4 p t) (nod4 V t) = a * gradV (nod4 p t) (nod4 V₁ t) + b * gradV (nod4 p t) (nod4 V₂ t) := by
  have key : ∀ i, i < nod → V i - v = a * (V₁ i - v₁) + b * (V₂ i - v₂) := by
    set y : ℕ → ℝ := fun i => a * V₁ i + b * V₂ i + (v - a * v₁ - b * v₂) with hy
    set u : ℕ → ℝ := fun i => 1 * V i + (-1) * y i + 0 with hu
    have hS : ∀ i, OnPotential prm tris i → u i = 0 := by
      intro i hi
      rw [hu, hy]
      simp only
      rw [hs.electrode i hi, hs₁.electrode i ((h₁ i).mpr hi), hs₂.electrode i ((h₂ i).mpr hi)]
      ring
    have e := hs.weak h hJ u hS
    have e₁ := hs₁.weak h hJ₁ u fun i hi => hS i ((h₁ i).mp hi)
    have e₂ := hs₂.weak h hJ₂ u fun i hi => hS i ((h₂ i).mp hi)
    have eP : power p tris J u = a * power p tris J₁ u + b * power p tris J₂ u := by
      unfold power
      rw [← List.sum_map_mul_left, ← List.sum_map_mul_left, ← List.sum_map_add]
      congr 1
      refine List.map_congr_left fun f hf => ?_
      rw [hab f hf]
      ring
    have e0 : volForm p sigma tets u u = 0 := by
      have h1 : volForm p sigma tets u u = 1 * volForm p sigma tets u V + (-1) * volForm p sigma tets u y := volForm_comb u V y 1 (-1) 0
      have h2 : volForm p sigma tets u y = a * volForm p sigma tets u V₁ + b * volForm p sigma tets u V₂ := volForm_comb u V₁ V₂ a b _
      rw [h1, h2, e, e₁, e₂, eP]
      ring
    have e1 := pot_form G h.rule p sigma nod tets h.valid u u
    rw [one_mul] at e1
    have e2 := e1.trans e0
    have joined : ∀ i k, Relation.ReflTransGen (Conducts sigma tets) i k → u i = u k := by
      intro i k hr
      induction hr with
      | refl => rfl
      | tail _ hbc ih => exact ih.trans (form_zero h u e2 hbc)
    intro i hi
    obtain ⟨k, -, hk, hr⟩ := hc i hi
    have := joined i k hr
    rw [hS k hk] at this
    rw [hu, hy] at this
    simp only at this
    linarith
  refine ⟨key, fun t ht => ?_⟩
  rw [← gradV_comb (nod4 p t) a b (v - a * v₁ - b * v₂)]
  congr 1
  funext k
  have := key (t.ind k) (h.valid t ht k)
  show V (t.ind k) = a * V₁ (t.ind k) + b * V₂ (t.ind k) + _
  linarith

/-- **C115** Ohm's law: multiplying all imposed currents by a factor multiplies all differences of potential by this factor. -/
theorem C115_ohm (h : Problem G H nod p sigma tets tris) {prm prm₁ : ℕ → SurfPrm}
    (hc : Connected nod sigma tets (OnPotential prm tris)) (h₁ : ∀ i, OnPotential prm₁ tris i ↔ OnPotential prm tris i) {J J₁ : ℕ → ℝ} {a : ℝ}
    (hJ : ∀ f ∈ tris, Gives (prm f.reg) (J f.reg)) (hJ₁ : ∀ f ∈ tris, Gives (prm₁ f.reg) (J₁ f.reg))
    (ha : ∀ f ∈ tris, J f.reg = a * J₁ f.reg) {v v₁ : ℝ} {V V₁ : ℕ → ℝ}
    (hs : Solved G H nod p sigma prm tets tris v V) (hs₁ : Solved G H nod p sigma prm₁ tets tris v₁ V₁) {i k : ℕ} (hi : i < nod) (hk : k < nod) :
    V i - V k = a * (V₁ i - V₁ k) := by
  have := (C115_superposition (a := a) (b := 0) h hc h₁ h₁ hJ hJ₁ hJ₁ (fun f hf => by rw [ha f hf]; ring) hs hs₁ hs₁).1
  have h1 := this i hi
  have h2 := this k hk
  linear_combination h1 - h2

/-- **C115** A body which conducts better by a factor everywhere has voltages smaller by this factor, for the same currents. -/
theorem C115_conductivity (h : Problem G H nod p sigma tets tris) {prm prm₁ : ℕ → SurfPrm}
    (hc : Connected nod sigma tets (OnPotential prm tris)) (h₁ : ∀ i, OnPotential prm₁ tris i ↔ OnPotential prm tris i) {J : ℕ → ℝ} {c : ℝ} (hc0 : 0 < c)
    (hJ : ∀ f ∈ tris, Gives (prm f.reg) (J f.reg)) (hJ₁ : ∀ f ∈ tris, Gives (prm₁ f.reg) (J f.reg)) {v v₁ : ℝ} {V V₁ : ℕ → ℝ}
    (hs : Solved G H nod p sigma prm tets tris v V) (hs₁ : Solved G H nod p (fun r => c * sigma r) prm₁ tets tris v₁ V₁) {i k : ℕ} (hi : i < nod) (hk : k < nod) :
    V₁ i - V₁ k = (V i - V k) / c := by
  have h' : Problem G H nod p (fun r => c * sigma r) tets tris :=
    ⟨h.rule, h.ruleT, h.valid, h.validT, h.oriented, fun t ht => mul_nonneg hc0.le (h.cond t ht)⟩
  have hvol : ∀ w y : ℕ → ℝ, volForm p (fun r => c * sigma r) tets w y = c * volForm p sigma tets w y := by
    intro w y
    unfold volForm
    rw [← List.sum_map_mul_left]
    congr 1
    exact List.map_congr_left fun t _ => by ring
  set u : ℕ → ℝ := fun i => c * V₁ i + (-1) * V i + (v - c * v₁) with hu
  have hS : ∀ i, OnPotential prm tris i → u i = 0 := by
    intro i hi
    rw [hu]
    simp only
    rw [hs.electrode i hi, hs₁.electrode i ((h₁ i).mpr hi)]
    ring
  have e := hs.weak h hJ u hS
  have e₁ := hs₁.weak h' hJ₁ u fun i hi => hS i ((h₁ i).mp hi)
  rw [hvol] at e₁
  have e0 : volForm p sigma tets u u = 0 := by
    have h1 : volForm p sigma tets u u = c * volForm p sigma tets u V₁ + (-1) * volForm p sigma tets u V := volForm_comb u V₁ V c (-1) _
    rw [h1, e₁, e]
    ring
  have e1 := pot_form G h.rule p sigma nod tets h.valid u u
  rw [one_mul] at e1
  have e2 := e1.trans e0
  have zero : ∀ i, i < nod → u i = 0 := by
    intro i hi
    obtain ⟨k, -, hk, hr⟩ := hc i hi
    have joined : ∀ i k, Relation.ReflTransGen (Conducts sigma tets) i k → u i = u k := by
      intro i k hr
      induction hr with
      | refl => rfl
      | tail _ hbc ih => exact ih.trans (form_zero h u e2 hbc)
    rw [joined i k hr, hS k hk]
  have z1 : c * V₁ i + (-1) * V i + (v - c * v₁) = 0 := zero i hi
  have z2 : c * V₁ k + (-1) * V k + (v - c * v₁) = 0 := zero k hk
  rw [eq_div_iff hc0.ne']
  linear_combination z1 - z2

/-- **C115** Reciprocity: the potential that the currents of one setting produce at the surfaces of another, weighted with the currents there, is the same
when the two settings are exchanged. -/
theorem C115_reciprocity (h : Problem G H nod p sigma tets tris) {prm₁ prm₂ : ℕ → SurfPrm}
    (h₂ : ∀ i, OnPotential prm₂ tris i ↔ OnPotential prm₁ tris i) {J₁ J₂ : ℕ → ℝ} (hJ₁ : ∀ f ∈ tris, Gives (prm₁ f.reg) (J₁ f.reg))
    (hJ₂ : ∀ f ∈ tris, Gives (prm₂ f.reg) (J₂ f.reg)) {v₁ v₂ : ℝ} {V₁ V₂ : ℕ → ℝ}
    (hs₁ : Solved G H nod p sigma prm₁ tets tris v₁ V₁) (hs₂ : Solved G H nod p sigma prm₂ tets tris v₂ V₂) :
    power p tris J₁ (fun i => V₂ i - v₂) = power p tris J₂ fun i => V₁ i - v₁ := by
  have e₁ := hs₁.weak h hJ₁ (fun i => V₂ i - v₂) fun i hi => by rw [hs₂.electrode i ((h₂ i).mpr hi), sub_self]
  have e₂ := hs₂.weak h hJ₂ (fun i => V₁ i - v₁) fun i hi => by rw [hs₁.electrode i ((h₂ i).mp hi), sub_self]
  rw [volForm_comm, volForm_shift] at e₁ e₂
  rw [volForm_comm] at e₁
  linarith

/-- **C115** Balance of the power: the heat released in the body is the power delivered by the sources, so the sources never receive power. -/
theorem C115_power (h : Problem G H nod p sigma tets tris) {prm : ℕ → SurfPrm} {J : ℕ → ℝ} (hJ : ∀ f ∈ tris, Gives (prm f.reg) (J f.reg))
    {v : ℝ} {V : ℕ → ℝ} (hs : Solved G H nod p sigma prm tets tris v V) :
    heat p sigma tets V = power p tris J (fun i => v - V i) ∧ 0 ≤ power p tris J fun i => v - V i := by
  have e := hs.weak h hJ (fun i => V i - v) fun i hi => by rw [hs.electrode i hi, sub_self]
  rw [volForm_comm, volForm_shift] at e
  have e' : power p tris J (fun i => v - V i) = -power p tris J fun i => V i - v := by
    unfold power
    rw [← sum_map_neg']
    congr 1
    refine List.map_congr_left fun f _ => ?_
    ring
  have e3 : heat p sigma tets V = volForm p sigma tets V V := by
    unfold heat volForm
    congr 1
  have e4 : 0 ≤ heat p sigma tets V := by
    unfold heat
    refine List.sum_nonneg fun x hx => ?_
    obtain ⟨t, ht, rfl⟩ := List.mem_map.mp hx
    have h1 := h.cond t ht
    have h2 := h.oriented t ht
    have h3 : 0 ≤ (gradV (nod4 p t) (nod4 V t)).nsq := nsq_nonneg _
    positivity
  have e5 : heat p sigma tets V = power p tris J (fun i => v - V i) := by rw [e3, e, e']
  exact ⟨e5, e5 ▸ e4⟩

end

/-! ## Example: the tetrahedron of C109, a current through one face -/

/-- the settings of C109 with the current density `j` through the left face -/
noncomputable def exCur (j : ℝ) (r : ℕ) : SurfPrm :=
  if r = 1 then ⟨"left", .fin j, .nan, fun _ => .fin 1, fun _ => .nan⟩ else ⟨"right", .nan, .fin 0, fun _ => .nan, fun _ => .fin 0⟩

theorem exCur_connected (j : ℝ) : Connected 4 (fun _ => 1) [Tetra.exT] (OnPotential (exCur j) exTris) := by
  intro i hi
  refine ⟨3, by norm_num, ⟨⟨![1, 2, 3], 2⟩, by simp [exTris], ?_, 2, rfl⟩,
    Relation.ReflTransGen.single ⟨Tetra.exT, by simp, zero_lt_one, ⟨⟨i, hi⟩, by interval_cases i <;> rfl⟩, 3, rfl⟩⟩
  show ¬ Fl.IsNan (.fin 0)
  exact id

theorem exCur_electrode (j k : ℝ) (i : ℕ) : OnPotential (exCur j) exTris i ↔ OnPotential (exCur k) exTris i := by
  simp [OnPotential, exTris, exCur, Fl.IsNan]

/-- its current densities -/
noncomputable def exJ (j : ℝ) (r : ℕ) : ℝ := if r = 1 then j else 0

theorem exCur_gives (j : ℝ) : ∀ f ∈ exTris, Gives (exCur j f.reg) (exJ j f.reg) := by
  intro f hf
  simp only [exTris, List.mem_cons, List.not_mem_nil, or_false] at hf
  rcases hf with rfl | rfl
  · exact Or.inl rfl
  · exact Or.inr ⟨id, rfl⟩

example : ∃ V₂ V₃ V₅ : ℕ → ℝ, Solved Tetra.rule5 TriElem.rule4 4 Tetra.exP (fun _ => 1) (exCur 2) [Tetra.exT] exTris 0 V₂ ∧
    Solved Tetra.rule5 TriElem.rule4 4 Tetra.exP (fun _ => 1) (exCur 3) [Tetra.exT] exTris 0 V₃ ∧
    Solved Tetra.rule5 TriElem.rule4 4 Tetra.exP (fun _ => 1) (exCur 5) [Tetra.exT] exTris 0 V₅ ∧
    (∀ i, i < 4 → V₅ i - 0 = 1 * (V₂ i - 0) + 1 * (V₃ i - 0)) ∧ ∀ i k, i < 4 → k < 4 → V₃ i - V₃ k = 3 / 2 * (V₂ i - V₂ k) := by
  obtain ⟨V₂, h₂⟩ := solved_exists ex_problem (exCur 2) (exCur_connected 2) 0
  obtain ⟨V₃, h₃⟩ := solved_exists ex_problem (exCur 3) (exCur_connected 3) 0
  obtain ⟨V₅, h₅⟩ := solved_exists ex_problem (exCur 5) (exCur_connected 5) 0
  refine ⟨V₂, V₃, V₅, h₂, h₃, h₅, (C115_superposition ex_problem (exCur_connected 5) (exCur_electrode 2 5) (exCur_electrode 3 5) (exCur_gives 5) (exCur_gives 2)
    (exCur_gives 3) (fun f _ => ?_) h₅ h₂ h₃).1, fun i k hi hk => C115_ohm ex_problem (exCur_connected 3) (exCur_electrode 2 3) (exCur_gives 3) (exCur_gives 2)
      (fun f _ => ?_) h₃ h₂ hi hk⟩
  · unfold exJ
    split_ifs <;> norm_num
  · unfold exJ
    split_ifs <;> norm_num

example : ∃ V₂ V₃ : ℕ → ℝ, Solved Tetra.rule5 TriElem.rule4 4 Tetra.exP (fun _ => 1) (exCur 2) [Tetra.exT] exTris 0 V₂ ∧
    Solved Tetra.rule5 TriElem.rule4 4 Tetra.exP (fun _ => 1) (exCur 3) [Tetra.exT] exTris 0 V₃ ∧ (power Tetra.exP exTris (exJ 2) fun i => V₃ i - 0) =
    power Tetra.exP exTris (exJ 3) fun i => V₂ i - 0 := by
  obtain ⟨V₂, h₂⟩ := solved_exists ex_problem (exCur 2) (exCur_connected 2) 0
  obtain ⟨V₃, h₃⟩ := solved_exists ex_problem (exCur 3) (exCur_connected 3) 0
  exact ⟨V₂, V₃, h₂, h₃, C115_reciprocity ex_problem (exCur_electrode 3 2) (exCur_gives 2) (exCur_gives 3) h₂ h₃⟩

example : ∃ V : ℕ → ℝ, Solved Tetra.rule5 TriElem.rule4 4 Tetra.exP (fun _ => 1) (exCur 2) [Tetra.exT] exTris 7 V ∧
    0 ≤ power Tetra.exP exTris (exJ 2) fun i => 7 - V i := by
  obtain ⟨V, h⟩ := solved_exists ex_problem (exCur 2) (exCur_connected 2) 7
  exact ⟨V, h, (C115_power ex_problem (exCur_gives 2) h).2⟩

/-- the tetrahedron with three times the conductivity -/
theorem ex_problem3 : Problem Tetra.rule5 TriElem.rule4 4 Tetra.exP (fun _ => 3 * 1) [Tetra.exT] exTris :=
  ⟨ex_problem.rule, ex_problem.ruleT, ex_problem.valid, ex_problem.validT, ex_problem.oriented, fun _ _ => by norm_num⟩

example : ∃ V V₃ : ℕ → ℝ, Solved Tetra.rule5 TriElem.rule4 4 Tetra.exP (fun _ => 1) (exCur 2) [Tetra.exT] exTris 0 V ∧
    Solved Tetra.rule5 TriElem.rule4 4 Tetra.exP (fun _ => 3 * 1) (exCur 2) [Tetra.exT] exTris 0 V₃ ∧ V₃ 0 - V₃ 1 = (V 0 - V 1) / 3 := by
  obtain ⟨V, h⟩ := solved_exists ex_problem (exCur 2) (exCur_connected 2) 0
  obtain ⟨V₃, h₃⟩ := solved_exists ex_problem3 (exCur 2) (fun i hi => by
    obtain ⟨k, hk, hS, hr⟩ := exCur_connected 2 i hi
    exact ⟨k, hk, hS, hr.lift id fun a b ⟨t, ht, _, h1, h2⟩ => ⟨t, ht, by norm_num, h1, h2⟩⟩) 0
  exact ⟨V, V₃, h, h₃, C115_conductivity ex_problem (exCur_connected 2) (fun _ => Iff.rfl) (by norm_num) (exCur_gives 2) (exCur_gives 2) h h₃ (by norm_num) (by norm_num)⟩

end Verif.Electro
