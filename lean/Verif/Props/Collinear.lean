import Verif.Props.SpinTurn

/-!
# C119: collinear spins exert no torque
-/

namespace Verif.Electro

open Verif.Mesh Verif.MeshElem Verif.Tetra Verif.Llg

/-! ## Specification -/

/-- the vector `v` has the direction of `u`, or the opposite direction, or is zero -/
def Along (u v : V3) : Prop := ∃ a : ℝ, v = a * u

/-- polarization and spin vector of a surface are along `u`, if they are given -/
structure AlongSurf (u : V3) (q : SurfPrm) : Prop where
  uP : (∃ v : V3, Along u v ∧ ∀ b, q.uP b = .fin (v.comp b)) ∨ ¬ ∀ b, (q.uP b).IsFin
  s : (∃ v : V3, Along u v ∧ ∀ b, q.s b = .fin (v.comp b)) ∨ ¬ ∀ b, (q.s b).IsFin

/-! ## Lemmas -/

/-- the half turn about a unit vector -/
noncomputable def halfTurn (u : V3) (hu : u.nsq = 1) : Motion where
  a := ⟨2 * u.x * u.x - 1, 2 * u.x * u.y, 2 * u.x * u.z⟩
  b := ⟨2 * u.y * u.x, 2 * u.y * u.y - 1, 2 * u.y * u.z⟩
  c := ⟨2 * u.z * u.x, 2 * u.z * u.y, 2 * u.z * u.z - 1⟩
  d := 0
  basis := by
    have h : u.x * u.x + u.y * u.y + u.z * u.z = 1 := hu
    refine ⟨?_, ?_, ?_, ?_, ?_, ?_, ?_⟩
    · simp only [V3.nsq]; linear_combination 4 * u.x * u.x * h
    · simp only [V3.nsq]; linear_combination 4 * u.y * u.y * h
    · simp only [V3.nsq]; linear_combination 4 * u.z * u.z * h
    · simp only [V3.dot]; linear_combination 4 * u.x * u.y * h
    · simp only [V3.dot]; linear_combination 4 * u.y * u.z * h
    · simp only [V3.dot]; linear_combination 4 * u.z * u.x * h
    · ext <;> simp only [V3.cross]
      · ring
      · ring
      · linear_combination -2 * h

theorem halfTurn_vec (u : V3) (hu : u.nsq = 1) (v : V3) : (halfTurn u hu).vec v = (2 * u.dot v) * u - v := by
  ext <;> simp only [Motion.vec, halfTurn, V3.dot, V3.add_x, V3.add_y, V3.add_z, V3.sub_x, V3.sub_y, V3.sub_z, V3.smul_x, V3.smul_y, V3.smul_z] <;> ring

theorem halfTurn_along {u : V3} (hu : u.nsq = 1) {v : V3} (h : Along u v) : (halfTurn u hu).vec v = v := by
  obtain ⟨a, rfl⟩ := h
  have h : u.x * u.x + u.y * u.y + u.z * u.z = 1 := hu
  rw [halfTurn_vec]
  ext <;> simp only [V3.dot, V3.sub_x, V3.sub_y, V3.sub_z, V3.smul_x, V3.smul_y, V3.smul_z]
  · linear_combination 2 * a * u.x * h
  · linear_combination 2 * a * u.y * h
  · linear_combination 2 * a * u.z * h

theorem along_of_halfTurn {u : V3} (hu : u.nsq = 1) {v : V3} (h : v = (halfTurn u hu).vec v) : Along u v := by
  rw [halfTurn_vec] at h
  have hx := congrArg V3.x h
  have hy := congrArg V3.y h
  have hz := congrArg V3.z h
  simp only [V3.sub_x, V3.sub_y, V3.sub_z, V3.smul_x, V3.smul_y, V3.smul_z] at hx hy hz
  refine ⟨u.dot v, ?_⟩
  ext <;> simp only [V3.smul_x, V3.smul_y, V3.smul_z] <;> linarith

/-- the motion which changes nothing -/
def rest : Motion := ⟨⟨1, 0, 0⟩, ⟨0, 1, 0⟩, ⟨0, 0, 1⟩, 0, by simp [DirectOrthonormal, V3.nsq, V3.dot, V3.cross]⟩

theorem rest_displaced (d : SpinData) : d.displaced rest d.surf = d := by
  have : (fun i => rest.pt (d.p i)) = d.p := funext fun i => by
    ext <;> simp [Motion.pt, Motion.vec, rest]
  unfold SpinData.displaced
  rw [this]

theorem alongSurf_turned {u : V3} (hu : u.nsq = 1) {q : SurfPrm} (h : AlongSurf u q) : TurnedSurf (halfTurn u hu) q q := by
  refine ⟨rfl, rfl, ?_, ?_⟩
  · rcases h.uP with ⟨v, hv, hb⟩ | hb
    · exact Or.inl ⟨v, hb, fun b => by rw [halfTurn_along hu hv, hb]⟩
    · exact Or.inr ⟨hb, hb⟩
  · rcases h.s with ⟨v, hv, hb⟩ | hb
    · exact Or.inl ⟨v, hb, fun b => by rw [halfTurn_along hu hv, hb]⟩
    · exact Or.inr ⟨hb, hb⟩

/-- only the magnetization of the magnetic elements counts -/
theorem spinWeak_congr (d : SpinData) {m m' n n' : ℕ → V3} (h : ∀ t ∈ d.tets, t.isMagnetic d.mag = true → ∀ k, m (t.ind k) = m' (t.ind k) ∧ n (t.ind k) = n' (t.ind k))
    (w x : ℕ → V3) : spinWeak d m n w x = spinWeak d m' n' w x := by
  rw [spinWeak_terms, spinWeak_terms]
  congr 2
  refine List.map_congr_left fun t ht => ?_
  unfold volTerm
  by_cases hmag : t.isMagnetic d.mag = true
  · simp only [hmag, if_true, (h t ht hmag _).1, (h t ht hmag _).2]
  · simp only [hmag, Bool.false_eq_true, if_false]

section
variable {G : Rule} {H : TriElem.Rule} {nod : ℕ}

/-! ## Properties -/

/-- **C119** If the magnetization of the magnetic elements and the spins of the contacts are along `u`, then the spin accumulation is along `u`. -/
theorem C119_spin {d : SpinData} (h : SpinProblem G H nod d) (hm : ∀ t ∈ d.tets, Material d.c (d.vol t.reg)) {u : V3} (hu : u.nsq = 1)
    (hq : ∀ f ∈ d.tris, AlongSurf u (d.surf f.reg)) {hs : List MagState} (hne : hs ≠ [])
    (hmag : ∀ s ∈ hs, ∀ t ∈ d.tets, t.isMagnetic d.mag = true → ∀ k, Along u (s.cur (t.ind k)) ∧ Along u (s.next (t.ind k)))
    {S : ℕ → Prop} {x : ℕ → V3} (hx : Computed G H nod d hs S x) (hS : ∀ i, S i → Along u (x i)) : ∀ t ∈ d.tets, ∀ k, Along u (x (t.ind k)) := by
  have hMx : Computed G H nod d hs S fun i => (halfTurn u hu).vec (x i) := by
    obtain ⟨sys, h1, h2⟩ := C45_history h hs
    refine ⟨sys, h1, (h2 S _).mpr fun w hw => ?_⟩
    have e := Computed.weak (V := d.V) (q := d.surf) h hx (fun i => (halfTurn u hu).back (w i)) fun i hi => by
      rw [hw i hi]
      simp [Motion.back, V3.dot]
      rfl
    have e2 : w = fun i => (halfTurn u hu).vec ((halfTurn u hu).back (w i)) := funext fun i => ((halfTurn u hu).vec_back (w i)).symm
    rw [← e]
    congr 1
    refine List.map_congr_left fun s hs' => ?_
    have e3 := spinWeak_turned d (halfTurn u hu) rest d.surf (fun f hf => flowV_turned (alongSurf_turned hu (hq f hf))) s.cur s.next
      (fun i => (halfTurn u hu).back (w i)) x
    rw [rest_displaced, ← e2] at e3
    refine Eq.trans (spinWeak_congr d (fun t ht hmt k => ?_) w _) e3
    exact ⟨(halfTurn_along hu (hmag s hs' t ht hmt k).1).symm, (halfTurn_along hu (hmag s hs' t ht hmt k).2).symm⟩
  have z : ∀ v : V3, (1 : ℝ) * v + (0 : ℝ) * v = v := fun v => by ext <;> simp
  have := C116_superposition (d := d) (V := d.V) (V₁ := d.V) (V₂ := d.V) (q := d.surf) (q₁ := d.surf) (q₂ := d.surf) (a := 1) (b := 0) h hm
    (fun t _ => by rw [z]) (fun f _ c => by ring) hne hx hMx hMx fun i hi => by rw [z, halfTurn_along hu (hS i hi)]
  intro t ht k
  refine along_of_halfTurn hu ?_
  have e := this t ht k
  rwa [z] at e

/-- **C119** The field by which the spin accumulation acts on the magnetization is along `u` too, and exerts no torque on it. -/
theorem C119_torque {d : SpinData} (h : SpinProblem G H nod d) (hm : ∀ t ∈ d.tets, Material d.c (d.vol t.reg)) {u : V3} (hu : u.nsq = 1)
    (hq : ∀ f ∈ d.tris, AlongSurf u (d.surf f.reg)) {hs : List MagState} (hne : hs ≠ [])
    (hmag : ∀ s ∈ hs, ∀ t ∈ d.tets, t.isMagnetic d.mag = true → ∀ k, Along u (s.cur (t.ind k)) ∧ Along u (s.next (t.ind k)))
    {S : ℕ → Prop} {x : ℕ → V3} (hx : Computed G H nod d hs S x) (hS : ∀ i, S i → Along u (x i)) (gamma0 : ℝ) (Ms : ℕ → ℝ) (on : Bool) :
    ∀ t ∈ d.tets, ∀ j, Along u (SpinTorque.extraField G on d.c d.mag d.vol gamma0 Ms x t j) ∧
      ∀ s ∈ hs, (Tetra.interpV G (nod4 s.next t) j).cross (SpinTorque.extraField G on d.c d.mag d.vol gamma0 Ms x t j) = 0 := by
  have interp : ∀ (y : Fin 4 → V3) (j : Fin G.n), (∀ k, Along u (y k)) → Along u (Tetra.interpV G y j) := by
    intro y j hy
    choose a ha using hy
    refine ⟨∑ k, G.a k j * a k, ?_⟩
    have : y = fun k => a k * u := funext ha
    rw [this]
    ext <;> simp [Tetra.interpV, Fin.sum_univ_four] <;> ring
  intro t ht j
  have hF : Along u (SpinTorque.extraField G on d.c d.mag d.vol gamma0 Ms x t j) := by
    unfold SpinTorque.extraField SpinTorque.calcHst
    split_ifs
    · obtain ⟨a, ha⟩ := interp (nod4 x t) j (C119_spin h hm hu hq hne hmag hx hS t ht)
      refine ⟨SpinTorque.prefactor d.c (d.vol t.reg) gamma0 (Ms t.reg) * a, ?_⟩
      rw [ha]
      ext <;> simp only [V3.smul_x, V3.smul_y, V3.smul_z] <;> ring
    · exact ⟨0, by ext <;> simp⟩
  refine ⟨hF, fun s hs' => ?_⟩
  by_cases hmt : t.isMagnetic d.mag = true
  · obtain ⟨a, ha⟩ := interp (nod4 s.next t) j fun k => (hmag s hs' t ht hmt k).2
    obtain ⟨b, hb⟩ := hF
    rw [ha, hb]
    ext <;> simp only [V3.cross, V3.smul_x, V3.smul_y, V3.smul_z, V3.zero_x, V3.zero_y, V3.zero_z] <;> ring
  · have : SpinTorque.extraField G on d.c d.mag d.vol gamma0 Ms x t j = 0 := by
      unfold SpinTorque.extraField
      simp [hmt]
    rw [this]
    ext <;> simp [V3.cross]

end

/-! ## Example: the tetrahedron of C116 with spins along an oblique direction, two of them reversed -/

/-- the direction -/
noncomputable def exU : V3 := ⟨3 / 5, 4 / 5, 0⟩

theorem exU_unit : exU.nsq = 1 := by norm_num [exU, V3.nsq]

/-- a current polarized against `exU` enters at one surface, the other is an electrode -/
noncomputable def exAlong (r : ℕ) : SurfPrm :=
  if r = 1 then ⟨"left", .fin 2, .nan, ![.fin (-3 / 5), .fin (-4 / 5), .fin 0], fun _ => .nan⟩ else ⟨"right", .nan, .fin 0, fun _ => .nan, fun _ => .fin 0⟩

theorem exAlong_along (r : ℕ) : AlongSurf exU (exAlong r) := by
  by_cases hr : r = 1
  · subst hr
    refine ⟨Or.inl ⟨(-1 : ℝ) * exU, ⟨-1, rfl⟩, fun b => ?_⟩, Or.inr fun h => h 0⟩
    fin_cases b <;> simp [exAlong, exU, V3.comp] <;> norm_num
  · have e : exAlong r = ⟨"right", .nan, .fin 0, fun _ => .nan, fun _ => .fin 0⟩ := if_neg hr
    rw [e]
    refine ⟨Or.inr fun h => h 0, Or.inl ⟨0, ⟨0, by ext <;> simp⟩, fun b => ?_⟩⟩
    fin_cases b <;> rfl

/-- the magnetization alternates -/
noncomputable def exAlt : MagState := ⟨fun i => (-1 : ℝ) ^ i * exU, fun i => (-1 : ℝ) ^ i * exU⟩

example : ∃ x : ℕ → V3, Computed Tetra.rule5 TriElem.rule4 4 (exMag.under exMag.V exAlong) [exAlt] (fun i => i = 1 ∨ i = 2 ∨ i = 3) x ∧
    (∀ k, Along exU (x (Tetra.exT.ind k))) ∧
    ∀ j, (Tetra.interpV Tetra.rule5 (nod4 exAlt.next Tetra.exT) j).cross
      (SpinTorque.extraField Tetra.rule5 true exMag.c exMag.mag exMag.vol 1 (fun _ => 1) x Tetra.exT j) = 0 := by
  have hlt : ∀ i, (i = 1 ∨ i = 2 ∨ i = 3) → i < 4 := by omega
  have hp := under_problem exMag_problem exMag.V exAlong
  obtain ⟨x, hx, hx0⟩ := computed_exists hp exMag_material exAlt (exMag_covered _) hlt
  have hmag : ∀ s ∈ [exAlt], ∀ t ∈ (exMag.under exMag.V exAlong).tets, t.isMagnetic (exMag.under exMag.V exAlong).mag = true →
      ∀ k, Along exU (s.cur (t.ind k)) ∧ Along exU (s.next (t.ind k)) := by
    intro s hs t _ _ k
    rw [List.mem_singleton.mp hs]
    exact ⟨⟨_, rfl⟩, ⟨_, rfl⟩⟩
  have hS : ∀ i, (i = 1 ∨ i = 2 ∨ i = 3) → Along exU (x i) := fun i hi => ⟨0, by rw [hx0 i hi]; ext <;> simp⟩
  have ht : Tetra.exT ∈ (exMag.under exMag.V exAlong).tets := List.mem_singleton.mpr rfl
  exact ⟨x, hx, C119_spin hp exMag_material exU_unit (fun f _ => exAlong_along f.reg) (List.cons_ne_nil _ _) hmag hx hS _ ht, fun j =>
    (C119_torque hp exMag_material exU_unit (fun f _ => exAlong_along f.reg) (List.cons_ne_nil _ _) hmag hx hS 1 (fun _ => 1) true _ ht j).2 _ (List.mem_singleton.mpr rfl)⟩

end Verif.Electro
