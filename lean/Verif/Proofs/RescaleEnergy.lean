import Verif.Spec.Rescale
import Verif.Props.Motion
import Verif.Props.Recenter

/-!
# Energies, potentials and recentering with stronger fields
-/

namespace Verif.Rescale

open Verif.Mesh Verif.MeshElem Verif.EnergyAll Verif.Llg

variable {c : ℝ}

theorem fin_sq_mul (x : ℝ) : (Fl.fin (c ^ 2) * Fl.fin x : Fl) = Fl.fin (c ^ 2 * x) := rfl

/-- the Zeeman term: adding a finite number -/
theorem zeeman_add (hc : c ≠ 0) (z : Fl) (x y : ℝ) (h : y = c ^ 2 * x) : (Fl.fin (c ^ 2) * z + Fl.fin y : Fl) = Fl.fin (c ^ 2) * (z + Fl.fin x) := by
  subst h
  rcases z with _ | s | z
  · rfl
  · show Fl.add (Fl.mul (.fin (c ^ 2)) (.inf s)) (.fin (c ^ 2 * x)) = Fl.mul (.fin (c ^ 2)) (Fl.add (.inf s) (.fin x))
    simp only [Fl.mul, Fl.add]
    rw [if_neg (pow_ne_zero 2 hc)]
  · show Fl.fin (c ^ 2 * z + c ^ 2 * x) = Fl.fin (c ^ 2 * (z + x))
    rw [mul_add]

theorem sum_mul_left' {ι : Type} (s : Finset ι) (k : ℝ) (f g : ι → ℝ) (h : ∀ i ∈ s, f i = k * g i) : ∑ i ∈ s, f i = k * ∑ i ∈ s, g i := by
  rw [Finset.mul_sum]
  exact Finset.sum_congr rfl h

theorem interpS_smul {G : Tetra.Rule} (k : ℝ) (f : Fin 4 → ℝ) (j : Fin G.n) : Tetra.interpS G (fun i => k * f i) j = k * Tetra.interpS G f j := by
  unfold Tetra.interpS
  exact sum_mul_left' _ _ _ _ fun i _ => by ring

theorem interpS_smul3 {H : TriElem.Rule} (k : ℝ) (f : Fin 3 → ℝ) (j : Fin H.n) : TriElem.interpS H (fun i => k * f i) j = k * TriElem.interpS H f j := by
  unfold TriElem.interpS
  exact sum_mul_left' _ _ _ _ fun i _ => by ring

theorem demagEnergy_scale (G : Tetra.Rule) (mu0 Ms : ℝ) (p u : Fin 4 → V3) (phi : Fin 4 → ℝ) :
    Tetra.demagEnergy G mu0 (c * Ms) p u (fun i => c * phi i) = c ^ 2 * Tetra.demagEnergy G mu0 Ms p u phi := by
  unfold Tetra.demagEnergy
  rw [sum_mul_left' _ c _ (fun j => Tetra.weight G p j * (((Tetra.deriv p 0 u).x + (Tetra.deriv p 1 u).y + (Tetra.deriv p 2 u).z) *
    Tetra.interpS G phi j)) fun j _ => by rw [interpS_smul]; ring]
  ring

theorem demagEnergy_scale3 (H : TriElem.Rule) (mu0 dMs : ℝ) (p u : Fin 3 → V3) (phi : Fin 3 → ℝ) :
    TriElem.demagEnergy H mu0 (c * dMs) p u (fun i => c * phi i) = c ^ 2 * TriElem.demagEnergy H mu0 dMs p u phi := by
  unfold TriElem.demagEnergy
  rw [sum_mul_left' _ c _ (fun j => ((TriElem.interpV H u j).dot (TriElem.unitNormal p) * TriElem.interpS H phi j) * TriElem.weight H p j)
    fun j _ => by rw [interpS_smul3]; ring]
  ring

theorem zeemanEnergy_scale (G : Tetra.Rule) (mu0 Ms : ℝ) (p u : Fin 4 → V3) (h : V3) :
    Tetra.zeemanEnergy G mu0 (c * Ms) p u (c * h) = c ^ 2 * Tetra.zeemanEnergy G mu0 Ms p u h := by
  unfold Tetra.zeemanEnergy
  rw [sum_mul_left' _ c _ (fun j => Tetra.weight G p j * (Tetra.interpV G u j).dot h) fun j _ => by
    simp only [V3.dot, V3.smul_x, V3.smul_y, V3.smul_z]; ring]
  ring

theorem zeemanEnergySpace_scale (G : Tetra.Rule) (mu0 Ms amp : ℝ) (p u : Fin 4 → V3) (h : Fin G.n → V3) :
    Tetra.zeemanEnergySpace G mu0 (c * Ms) (c * amp) p u h = c ^ 2 * Tetra.zeemanEnergySpace G mu0 Ms amp p u h := by
  unfold Tetra.zeemanEnergySpace
  ring

theorem tetStep_scale (hc : c ≠ 0) (G : Tetra.Rule) (mu0 : ℝ) (p : ℕ → V3) (m : ℕ → Tetra.Prm) (u : ℕ → V3) (phi : ℕ → ℝ) (a : Applied G.n)
    (e : Terms) (t : Tet) :
    tetStep G mu0 p (fun r => prm c (m r)) u (fun i => c * phi i) (applied c a) (terms c e) t = terms c (tetStep G mu0 p m u phi a e t) := by
  have n : ∀ x : ℝ, c ^ 2 * x ≠ 0 ↔ x ≠ 0 := fun x => by simp [hc]
  unfold tetStep terms
  congr 1
  · show c ^ 2 * e.exchange + Tetra.exchangeEnergy G (prm c (m t.reg)) (nod4 p t) (nod4 u t) = _
    unfold Tetra.exchangeEnergy prm
    ring
  · dsimp only
    have k1 : ((prm c (m t.reg)).K ≠ 0) ↔ ((m t.reg).K ≠ 0) := n _
    have k2 : ((prm c (m t.reg)).K3 ≠ 0) ↔ ((m t.reg).K3 ≠ 0) := n _
    have a1 : Tetra.uniaxialEnergy G (prm c (m t.reg)) (nod4 p t) (nod4 u t) = c ^ 2 * Tetra.uniaxialEnergy G (m t.reg) (nod4 p t) (nod4 u t) := by
      unfold Tetra.uniaxialEnergy prm
      ring
    have a2 : Tetra.cubicEnergy G (prm c (m t.reg)) (nod4 p t) (nod4 u t) = c ^ 2 * Tetra.cubicEnergy G (m t.reg) (nod4 p t) (nod4 u t) := by
      unfold Tetra.cubicEnergy prm
      ring
    rw [a1, a2]
    by_cases h1 : (m t.reg).K ≠ 0 <;> by_cases h2 : (m t.reg).K3 ≠ 0
    · rw [if_pos (k2.mpr h2), if_pos (k1.mpr h1), if_pos h2, if_pos h1]; ring
    · rw [if_neg (mt k2.mp h2), if_pos (k1.mpr h1), if_neg h2, if_pos h1]; ring
    · rw [if_pos (k2.mpr h2), if_neg (mt k1.mp h1), if_pos h2, if_neg h1]; ring
    · rw [if_neg (mt k2.mp h2), if_neg (mt k1.mp h1), if_neg h2, if_neg h1]
  · show c ^ 2 * e.demag + Tetra.demagEnergy G mu0 (c * (m t.reg).Ms) (nod4 p t) (nod4 u t) (fun i => c * nod4 phi t i) = _
    rw [demagEnergy_scale]
    ring
  · cases a with
    | undef => rfl
    | uniform h => exact zeeman_add hc _ _ _ (zeemanEnergy_scale _ _ _ _ _ _)
    | space amp h => exact zeeman_add hc _ _ _ (zeemanEnergySpace_scale _ _ _ _ _ _ _)

theorem triStep_scale (hc : c ≠ 0) (H : TriElem.Rule) (mu0 : ℝ) (p : ℕ → V3) (m : ℕ → SurfPrm) (u : ℕ → V3) (phi : ℕ → ℝ)
    (e : Terms) (f : Tri × ℝ) :
    triStep H mu0 p (fun r => sprm c (m r)) u (fun i => c * phi i) (terms c e) (tri c f) = terms c (triStep H mu0 p m u phi e f) := by
  have n : ∀ x : ℝ, c ^ 2 * x ≠ 0 ↔ x ≠ 0 := fun x => by simp [hc]
  unfold triStep terms
  dsimp only
  congr 1
  · have k1 : ((sprm c (m (tri c f).1.reg)).Ks ≠ 0) ↔ ((m f.1.reg).Ks ≠ 0) := n _
    by_cases h1 : (m f.1.reg).Ks ≠ 0
    · rw [if_pos (k1.mpr h1), if_pos h1]
      unfold TriElem.anisotropyEnergy
      simp only [sprm, tri]
      ring
    · rw [if_neg (mt k1.mp h1), if_neg h1]
  · show c ^ 2 * e.demag + TriElem.demagEnergy H mu0 (c * f.2) (nod3 p f.1) (nod3 u f.1) (fun i => c * nod3 phi f.1 i) = _
    rw [demagEnergy_scale3]
    ring

theorem terms_scale (hc : c ≠ 0) (G : Tetra.Rule) (H : TriElem.Rule) (mu0 : ℝ) (p : ℕ → V3) (m : ℕ → Tetra.Prm) (sm : ℕ → SurfPrm)
    (mtets : List Tet) (mtris : List (Tri × ℝ)) (u : ℕ → V3) (phi : ℕ → ℝ) (a : Applied G.n) :
    EnergyAll.terms G H mu0 p (fun r => prm c (m r)) (fun r => sprm c (sm r)) mtets (mtris.map (tri c)) u (fun i => c * phi i) (applied c a) =
      terms c (EnergyAll.terms G H mu0 p m sm mtets mtris u phi a) := by
  have h1 : ∀ (l : List Tet) (e : Terms), l.foldl (tetStep G mu0 p (fun r => prm c (m r)) u (fun i => c * phi i) (applied c a)) (terms c e) =
      terms c (l.foldl (tetStep G mu0 p m u phi a) e) := by
    intro l
    induction l with
    | nil => intro e; rfl
    | cons t l ih => intro e; rw [List.foldl_cons, List.foldl_cons, tetStep_scale hc, ih]
  have h2 : ∀ (l : List (Tri × ℝ)) (e : Terms), (l.map (tri c)).foldl (triStep H mu0 p (fun r => sprm c (sm r)) u (fun i => c * phi i)) (terms c e) =
      terms c (l.foldl (triStep H mu0 p sm u phi) e) := by
    intro l
    induction l with
    | nil => intro e; rfl
    | cons t l ih => intro e; rw [List.map_cons, List.foldl_cons, List.foldl_cons, triStep_scale hc, ih]
  have z : (⟨0, 0, 0, 0⟩ : Terms) = terms c ⟨0, 0, 0, 0⟩ := by
    unfold terms
    have : (Fl.fin (c ^ 2) * (0 : Fl) : Fl) = 0 := by
      show Fl.fin (c ^ 2 * 0) = Fl.fin 0
      rw [mul_zero]
    simp only [this, mul_zero]
  unfold EnergyAll.terms
  conv_lhs => rw [z]
  rw [h1, h2]

/-! ## Potentials -/

theorem charges_scale (k : ℝ) (G : Tetra.Rule) (Ms : ℝ) (p u : Fin 4 → V3) (j : Fin G.n) :
    Tetra.charges G (c * Ms) p (fun i => k * u i) j = c * k * Tetra.charges G Ms p u j := by
  unfold Tetra.charges
  simp only [Fin.sum_univ_four, V3.smul_x, V3.smul_y, V3.smul_z]
  ring

theorem charges_scale3 (hc : c ≠ 0) (k : ℝ) (H : TriElem.Rule) (dMs : ℝ) (p u : Fin 3 → V3) (j : Fin H.n) :
    TriElem.charges H (c * dMs) p (fun i => k * u i) j = c * k * TriElem.charges H dMs p u j := by
  unfold TriElem.charges
  have e : TriElem.interpV H (fun i => k * u i) j = k * TriElem.interpV H u j := by
    unfold TriElem.interpV
    rw [Fin.sum_univ_three, Fin.sum_univ_three]
    ext <;> simp only [V3.add_x, V3.add_y, V3.add_z, V3.smul_x, V3.smul_y, V3.smul_z] <;> ring
  have d : ∀ a b : V3, (k * a : V3).dot b = k * a.dot b := fun a b => by
    simp only [V3.dot, V3.smul_x, V3.smul_y, V3.smul_z]
    ring
  rw [e, d]
  by_cases h : dMs ≠ 0
  · rw [if_pos h, if_pos (mul_ne_zero hc h)]
    ring
  · rw [if_neg h, if_neg (fun h' => h fun e => h' (by rw [e, mul_zero]))]
    ring

theorem potentialAt_scale (k : ℝ) (dMs : ℝ) (p u : Fin 3 → V3) (i : Fin 3) :
    TriElem.potentialAt (c * dMs) p (fun i => k * u i) i = c * k * TriElem.potentialAt dMs p u i := by
  have d : ∀ a b : V3, (k * a : V3).dot b = k * a.dot b := fun a b => by
    simp only [V3.dot, V3.smul_x, V3.smul_y, V3.smul_z]
    ring
  unfold TriElem.potentialAt TriElem.potential
  dsimp only
  rw [d, d, d]
  ring

theorem correction_scale (hc : c ≠ 0) (k : ℝ) (H : TriElem.Rule) (dMs : ℝ) (p u : Fin 3 → V3) (i : Fin 3) :
    TriElem.correction H (c * dMs) p (fun i => k * u i) i = c * k * TriElem.correction H dMs p u i := by
  unfold TriElem.correction
  rw [potentialAt_scale, sum_mul_left' _ (c * k) _ (fun j => TriElem.charges H dMs p u j / (p i - TriElem.ptGauss H p j).norm)
    fun j _ => by rw [charges_scale3 hc]; ring]
  ring

theorem corr_scale (hc : c ≠ 0) (k : ℝ) (H : TriElem.Rule) (p : ℕ → V3) (mtris : List (Tri × ℝ)) (u : ℕ → V3) :
    corr H p (mtris.map (tri c)) (fun i => k * u i) = fun i => c * k * corr H p mtris u i := by
  have hi : ∀ (f : Tri × ℝ) (l : List (Fin 3)) (g : ℕ → ℝ), l.foldl (fun x i => Function.update x ((tri c f).1.ind i)
      (x ((tri c f).1.ind i) + TriElem.correction H (tri c f).2 (nod3 p (tri c f).1) (nod3 (fun i => (k * u i : V3)) (tri c f).1) i))
        (fun i => c * k * g i) = fun i => c * k * l.foldl (fun x i => Function.update x (f.1.ind i) (x (f.1.ind i) +
        TriElem.correction H f.2 (nod3 p f.1) (nod3 u f.1) i)) g i := by
    intro f l
    induction l with
    | nil => intro g; rfl
    | cons a l ih =>
      intro g
      rw [List.foldl_cons, List.foldl_cons, ← ih]
      congr 1
      funext i
      have e : TriElem.correction H (tri c f).2 (nod3 p (tri c f).1) (nod3 (fun i => (k * u i : V3)) (tri c f).1) a =
          c * k * TriElem.correction H f.2 (nod3 p f.1) (nod3 u f.1) a := correction_scale hc k H f.2 (nod3 p f.1) (nod3 u f.1) a
      rw [e]
      show Function.update (fun i => c * k * g i) (f.1.ind a) (c * k * g (f.1.ind a) + _) i = _
      by_cases h : i = f.1.ind a
      · subst h
        rw [Function.update_self, Function.update_self]
        ring
      · rw [Function.update_of_ne h, Function.update_of_ne h]
  have ho : ∀ (l : List (Tri × ℝ)) (g : ℕ → ℝ), (l.map (tri c)).foldl (fun x f => (List.finRange 3).foldl (fun x i =>
      Function.update x (f.1.ind i) (x (f.1.ind i) + TriElem.correction H f.2 (nod3 p f.1) (nod3 (fun i => (k * u i : V3)) f.1) i)) x)
        (fun i => c * k * g i) = fun i => c * k * l.foldl (fun x f => (List.finRange 3).foldl (fun x i =>
      Function.update x (f.1.ind i) (x (f.1.ind i) + TriElem.correction H f.2 (nod3 p f.1) (nod3 u f.1) i)) x) g i := by
    intro l
    induction l with
    | nil => intro g; rfl
    | cons f l ih =>
      intro g
      rw [List.map_cons, List.foldl_cons, List.foldl_cons, hi, ih]
  have := ho mtris fun _ => 0
  simp only [mul_zero] at this
  exact this

theorem list_sum_scale {α : Type} (k : ℝ) (l : List α) (f g : α → ℝ) (h : ∀ a, f a = k * g a) : (l.map f).sum = k * (l.map g).sum := by
  rw [← List.sum_map_mul_left]
  exact congrArg List.sum (List.map_congr_left fun a _ => h a)

theorem directPot_scale (hc : c ≠ 0) (k : ℝ) (G : Tetra.Rule) (H : TriElem.Rule) (p : ℕ → V3) (Ms : ℕ → ℝ) (mtets : List Tet)
    (mtris : List (Tri × ℝ)) (u : ℕ → V3) (i : ℕ) :
    Run.directPot G H p (fun r => c * Ms r) mtets (mtris.map (tri c)) (fun i => k * u i) i =
      c * k * Run.directPot G H p Ms mtets mtris u i := by
  unfold Run.directPot
  rw [corr_scale hc, List.map_map, list_sum_scale (c * k) mtets _ (fun t => ∑ j, Tetra.charges G (Ms t.reg) (nod4 p t) (nod4 u t) j
      / (p i - Tetra.ptGauss G (nod4 p t) j).norm), list_sum_scale (c * k) mtris _ (fun f => ∑ j, TriElem.charges H f.2 (nod3 p f.1) (nod3 u f.1) j
      / (p i - TriElem.ptGauss H (nod3 p f.1) j).norm)]
  · ring
  · intro f
    exact sum_mul_left' _ _ _ _ fun j _ => by
      show TriElem.charges H (c * f.2) (nod3 p f.1) (fun i => k * nod3 u f.1 i) j / (p i - TriElem.ptGauss H (nod3 p f.1) j).norm = _
      rw [charges_scale3 hc]
      ring
  · intro t
    exact sum_mul_left' _ _ _ _ fun j _ => by
      show Tetra.charges G (c * Ms t.reg) (nod4 p t) (fun i => k * nod4 u t i) j / _ = _
      rw [charges_scale]
      ring

/-! ## Recentering -/

theorem loopRecenter_scale {n : ℕ} (g : Recenter.Geo n) (thres : ℝ) (d : ℤ) (nd : Fin n → Node) :
    Recenter.loopRecenter g thres d (nodes c nd) = (Recenter.loopRecenter g thres d nd).map (nodes c) := by
  unfold Recenter.loopRecenter Recenter.recenter
  dsimp only
  have e1 : Recenter.avg g (nodes c nd) (Recenter.switchDir d) = Recenter.avg g nd (Recenter.switchDir d) := rfl
  have e2 : ∀ i, (nodes c nd i).next.u = (nd i).next.u := fun _ => rfl
  have e3 : Recenter.shift g (nodes c nd) (Recenter.switchDir d) = Recenter.shift g nd (Recenter.switchDir d) := rfl
  have e4 : ∀ (i : Fin n) (u : V3), Recenter.setNode (nodes c nd i) u = node c (Recenter.setNode (nd i) u) := fun i u => by
    unfold Recenter.setNode nodes node data
    dsimp only
    have : (c * (0 : V3) : V3) = 0 := by ext <;> simp
    rw [this]
  simp only [e1, e2, e3, e4]
  split_ifs <;> rfl

end Verif.Rescale
