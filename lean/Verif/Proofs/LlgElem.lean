import Verif.Model.LlgElem
import Verif.Props.Tetra
import Verif.Props.Assembly

/-!
# The element matrix of the magnetization solver
-/

namespace Verif.Llg

open Verif.Mesh Verif.Assembly Verif.Tetra

/-- the two tangent vectors at a node -/
def tang (ep eq : Fin 4 → V3) (a : Fin 2) (i : Fin 4) : V3 := if a = 0 then ep i else eq i

theorem matP_apply (ep eq : Fin 4 → V3) (r : Fin 2 × Fin 4) (c : Fin 3 × Fin 4) :
    matP ep eq r c = if r.2 = c.2 then (tang ep eq r.1 r.2).comp c.1 else 0 := by
  unfold matP tang
  split_ifs <;> rfl

/-- entries of `P AE Pᵀ` -/
theorem proj_entry (G : Rule) (p u ep eq : Fin 4 → V3) (aeff : Fin G.n → ℝ) (pref : ℝ) (a b : Fin 2) (i k : Fin 4) :
    (matP ep eq * lumping G p u aeff pref * (matP ep eq).transpose) (a, i) (b, k) =
      (tang ep eq a i).dot (tang ep eq b k) * calcDiagBlock G p pref (contrib G p aeff) i k +
      if i = k then aw G p i * (tang ep eq a i).dot ((u i).cross (tang ep eq b k)) else 0 := by
  rw [Matrix.mul_apply, Fintype.sum_prod_type]
  simp only [Matrix.transpose_apply, matP_apply, Matrix.mul_apply, Fintype.sum_prod_type]
  simp only [mul_ite, mul_zero, ite_mul, zero_mul, Finset.sum_ite_eq, Finset.mem_univ, if_true]
  simp only [Fin.sum_univ_three]
  unfold lumping
  generalize tang ep eq a i = A
  generalize tang ep eq b k = B
  by_cases h : i = k
  · subst h
    simp [V3.comp, V3.dot, V3.cross]
    ring
  · simp [V3.comp, V3.dot, h]
    ring

/-- the tangent vector with components `y` -/
def vec (ep eq : Fin 4 → V3) (y : Fin 2 → Fin 4 → ℝ) (i : Fin 4) : V3 := y 0 i * ep i + y 1 i * eq i

/-- the quadratic form of `P AE Pᵀ`: damping plus exchange; the gyration term drops out -/
theorem proj_form (G : Rule) (p u ep eq : Fin 4 → V3) (aeff : Fin G.n → ℝ) (pref : ℝ) (y : Fin 2 → Fin 4 → ℝ) :
    ∑ i, ∑ k, ∑ a, ∑ b, y a i *
        (matP ep eq * lumping G p u aeff pref * (matP ep eq).transpose) (a, i) (b, k) * y b k =
      (∑ i, contrib G p aeff i * (vec ep eq y i).nsq) +
      pref * calcVol G p * ((Tetra.deriv p 0 (vec ep eq y)).nsq + (Tetra.deriv p 1 (vec ep eq y)).nsq
        + (Tetra.deriv p 2 (vec ep eq y)).nsq) := by
  have h1 : ∀ i k, ∑ a, ∑ b, y a i *
      (matP ep eq * lumping G p u aeff pref * (matP ep eq).transpose) (a, i) (b, k) * y b k =
      (vec ep eq y i).dot (vec ep eq y k) * calcDiagBlock G p pref (contrib G p aeff) i k := by
    intro i k
    simp only [proj_entry, Fin.sum_univ_two]
    have t0 : ∀ i, tang ep eq 0 i = ep i := fun _ => rfl
    have t1 : ∀ i, tang ep eq 1 i = eq i := fun _ => rfl
    simp only [t0, t1]
    by_cases h : i = k
    · subst h
      simp only [if_true]
      unfold vec
      simp only [V3.dot, V3.cross, V3.add_x, V3.add_y, V3.add_z, V3.smul_x, V3.smul_y, V3.smul_z]
      ring
    · simp only [if_neg h]
      unfold vec
      simp only [V3.dot, V3.add_x, V3.add_y, V3.add_z, V3.smul_x, V3.smul_y, V3.smul_z]
      ring
  simp only [h1]
  generalize vec ep eq y = w
  have h2 : ∀ i k, (da p * (da p).transpose) i k = da p i 0 * da p k 0 + da p i 1 * da p k 1 + da p i 2 * da p k 2 := by
    intro i k
    rw [Matrix.mul_apply, Fin.sum_univ_three]
    rfl
  simp only [calcDiagBlock, h2, mul_add, Finset.sum_add_distrib, mul_ite, mul_zero, Finset.sum_ite_eq, Finset.mem_univ,
    if_true]
  have h3 : ∑ i, (w i).dot (w i) * contrib G p aeff i = ∑ i, contrib G p aeff i * (w i).nsq :=
    Finset.sum_congr rfl fun i _ => by unfold V3.dot V3.nsq; ring
  rw [h3, add_comm]
  congr 1
  unfold Tetra.deriv
  simp only [V3.nsq, Fin.sum_univ_four, V3.dot, V3.add_x, V3.add_y, V3.add_z, V3.smul_x, V3.smul_y, V3.smul_z]
  ring

/-- the damping term on the diagonal is positive although one weight is negative -/
theorem contrib_pos {G : Rule} (hG : Compiled G) (p : Fin 4 → V3) (hp : 0 < detJ p) (aeff : Fin G.n → ℝ) (alpha : ℝ)
    (ha : 0 < alpha) (h : ∀ j, alpha / 1.1 ≤ aeff j ∧ aeff j ≤ 1.1 * alpha) (i : Fin 4) : 0 < contrib G p aeff i := by
  have e : contrib G p aeff i = detJ p * ∑ j, G.pds j * (G.a i j * aeff j) := by
    unfold contrib weight
    rw [Finset.mul_sum]
    exact Finset.sum_congr rfl fun j _ => by ring
  rw [e]
  apply mul_pos hp
  rcases hG with rfl | rfl
  · have hs : ∀ f : Fin rule1.n → ℝ, ∑ j, f j = f (0 : Fin 1) := fun f => Fin.sum_univ_one (f : Fin 1 → ℝ)
    have hp : rule1.pds (0 : Fin 1) = 1 / 6 := rfl
    have ha' : rule1.a i (0 : Fin 1) = 1 / 4 := by
      have e : rule1.a i (0 : Fin 1) = ![(1 : ℝ) - 1 / 4 - 1 / 4 - 1 / 4, 1 / 4, 1 / 4, 1 / 4] i := rfl
      rw [e]
      fin_cases i <;> norm_num
    rw [hs, hp, ha']
    have := (h (0 : Fin 1)).1
    have : 0 < alpha / 1.1 := by positivity
    linarith
  · rw [rule5_sum_pds, rule5_a0, rule5_a1, rule5_a2, rule5_a3, rule5_a4]
    have h0 := (h (0 : Fin 5)).2
    have h1 := (h (1 : Fin 5)).1
    have h2 := (h (2 : Fin 5)).1
    have h3 := (h (3 : Fin 5)).1
    have h4 := (h (4 : Fin 5)).1
    have e : alpha / 1.1 = 10 / 11 * alpha := by ring
    rw [e] at h1 h2 h3 h4
    norm_num at h0
    fin_cases i <;> norm_num <;> linarith

/-- local form of the matrix handed to the assembly, after exchange of the two block rows -/
theorem elem_Ke (G : Rule) (prm : ℕ → Prm) (s : Step) (nodes : ℕ → Node) (Hext Hst : Tet → Fin G.n → V3)
    (dir : Option (Fin 3)) (V : ℝ) (t : Tet) (di dj : ℕ) (hdi : di < 2) (hdj : dj < 2) (ie je : Fin 4) :
    (tetElem G prm s nodes Hext Hst dir V t).Ke (di * 4 + ie) (dj * 4 + je) =
      Kp G (prm t.reg) s (nodalOf nodes t) (Hext t) (Hst t) (⟨di, hdi⟩, ie) (⟨dj, hdj⟩, je) := by
  have a1 : Fin.ofNat 2 ((di * 4 + (ie : ℕ)) / 4) = ⟨di, hdi⟩ := by
    ext
    simp only [Fin.ofNat]
    omega
  have a2 : Fin.ofNat 4 ((di * 4 + (ie : ℕ)) % 4) = ie := by
    ext
    simp only [Fin.ofNat]
    omega
  have b1 : Fin.ofNat 2 ((dj * 4 + (je : ℕ)) / 4) = ⟨dj, hdj⟩ := by
    ext
    simp only [Fin.ofNat]
    omega
  have b2 : Fin.ofNat 4 ((dj * 4 + (je : ℕ)) % 4) = je := by
    ext
    simp only [Fin.ofNat]
    omega
  show Kp G (prm t.reg) s (nodalOf nodes t) (Hext t) (Hst t) _ _ = _
  rw [a1, a2, b1, b2]

theorem sum_point {ι : Type} (S : Finset ι) (n : ℕ) (row col : ι → ℕ) (K : ι → ℝ) (hr : ∀ q ∈ S, row q < n)
    (hc : ∀ q ∈ S, col q < n) (f g : ℕ → ℝ) :
    ∑ r ∈ Finset.range n, ∑ c ∈ Finset.range n, f r * (∑ q ∈ S, if row q = r ∧ col q = c then K q else 0) * g c =
      ∑ q ∈ S, f (row q) * K q * g (col q) := by
  have e : ∀ r c, f r * (∑ q ∈ S, if row q = r ∧ col q = c then K q else 0) * g c =
      ∑ q ∈ S, if row q = r then (if col q = c then f (row q) * K q * g (col q) else 0) else 0 := by
    intro r c
    rw [Finset.mul_sum, Finset.sum_mul]
    refine Finset.sum_congr rfl fun q _ => ?_
    by_cases h1 : row q = r
    · by_cases h2 : col q = c
      · rw [if_pos ⟨h1, h2⟩, if_pos h1, if_pos h2, h1, h2]
      · rw [if_neg (fun h => h2 h.2), if_pos h1, if_neg h2]; ring
    · rw [if_neg (fun h => h1 h.1), if_neg h1]; ring
  simp only [e]
  have e2 : ∀ r, ∑ c ∈ Finset.range n, ∑ q ∈ S, (if row q = r then (if col q = c then f (row q) * K q * g (col q) else 0) else 0)
      = ∑ q ∈ S, if row q = r then f (row q) * K q * g (col q) else 0 := by
    intro r
    rw [Finset.sum_comm]
    refine Finset.sum_congr rfl fun q hq => ?_
    by_cases h1 : row q = r
    · simp only [if_pos h1]
      rw [Finset.sum_ite_eq, if_pos (Finset.mem_range.mpr (hc q hq))]
    · simp only [if_neg h1]
      simp
  simp only [e2]
  rw [Finset.sum_comm]
  refine Finset.sum_congr rfl fun q hq => ?_
  rw [Finset.sum_ite_eq, if_pos (Finset.mem_range.mpr (hr q hq))]

/-- a bilinear form of the contribution of an element is a form on its nodes -/
theorem contribution_form (e : Elem 4 ℝ) (nod : ℕ) (h : ∀ k, e.ind k < nod) (f g : ℕ → ℝ) :
    ∑ r ∈ Finset.range (2 * nod), ∑ c ∈ Finset.range (2 * nod), f r * e.contribution 2 r c * g c =
      ∑ i : Fin 4, ∑ k : Fin 4, ∑ a : Fin 2, ∑ b : Fin 2,
        f (2 * e.ind i + a) * e.Ke ((a : ℕ) * 4 + i) ((b : ℕ) * 4 + k) * g (2 * e.ind k + b) := by
  have e1 : ∀ r c, e.contribution 2 r c = ∑ q : (Fin 4 × Fin 4) × (Fin 2 × Fin 2),
      if 2 * e.ind q.1.1 + q.2.1 = r ∧ 2 * e.ind q.1.2 + q.2.2 = c then
        e.Ke ((q.2.1 : ℕ) * 4 + q.1.1) ((q.2.2 : ℕ) * 4 + q.1.2) else 0 := by
    intro r c
    unfold Elem.contribution
    rw [Fintype.sum_prod_type, Fintype.sum_prod_type]
    refine Finset.sum_congr rfl fun i _ => Finset.sum_congr rfl fun k _ => ?_
    rw [Fintype.sum_prod_type, Finset.sum_range]
    refine Finset.sum_congr rfl fun a _ => ?_
    rw [Finset.sum_range]
  simp only [e1]
  rw [sum_point Finset.univ (2 * nod) (fun q : (Fin 4 × Fin 4) × (Fin 2 × Fin 2) => 2 * e.ind q.1.1 + q.2.1)
    (fun q => 2 * e.ind q.1.2 + q.2.2) (fun q => e.Ke ((q.2.1 : ℕ) * 4 + q.1.1) ((q.2.2 : ℕ) * 4 + q.1.2))]
  · rw [Fintype.sum_prod_type, Fintype.sum_prod_type]
    refine Finset.sum_congr rfl fun i _ => Finset.sum_congr rfl fun k _ => ?_
    rw [Fintype.sum_prod_type]
  · intro q _
    have := h q.1.1
    have := q.2.1.2
    omega
  · intro q _
    have := h q.1.2
    have := q.2.2.2
    omega

/-- the unknown of the other tangent direction at the same node: row `r` of the system is the projection on
that direction, because of the permutation of the block rows -/
def other (r : ℕ) : ℕ := if r % 2 = 0 then r + 1 else r - 1

theorem other_add (n : ℕ) (a : Fin 2) : other (2 * n + a) = 2 * n + (1 - a : Fin 2) := by
  unfold other
  fin_cases a
  · have : ((1 - (0 : Fin 2) : Fin 2) : ℕ) = 1 := rfl
    simp
  · have : ((1 - (1 : Fin 2) : Fin 2) : ℕ) = 0 := rfl
    simp [Nat.add_mod]

/-- the quadratic form of an element of the assembled system, with rows paired to the other direction -/
theorem elem_form (G : Rule) (prm : ℕ → Prm) (s : Step) (nodes : ℕ → Node) (Hext Hst : Tet → Fin G.n → V3)
    (dir : Option (Fin 3)) (V : ℝ) (t : Tet) (nod : ℕ) (ht : ∀ k, t.ind k < nod) (z : ℕ → ℝ) :
    ∃ aeff : Fin G.n → ℝ, (∀ j, ∃ h, aeff j = alphaEff s.gamma0 s.dt (prm t.reg).alpha h) ∧
      ∑ r ∈ Finset.range (2 * nod), ∑ c ∈ Finset.range (2 * nod),
        z (other r) * (tetElem G prm s nodes Hext Hst dir V t).contribution 2 r c * z c =
      let n := nodalOf nodes t
      let w := vec n.ep n.eq fun a i => z (2 * t.ind i + a)
      (∑ i, contrib G n.p aeff i * (w i).nsq) + s.prefactor * sdt s * abis (prm t.reg) s * calcVol G n.p *
        ((Tetra.deriv n.p 0 w).nsq + (Tetra.deriv n.p 1 w).nsq + (Tetra.deriv n.p 2 w).nsq) := by
  let n := nodalOf nodes t
  let He := fun j => interpField n.p n.phi + Hext t j + Hst t j
  let aeff := fun j => alphaEff s.gamma0 s.dt (prm t.reg).alpha (uHeff G (prm t.reg) s n He j)
  refine ⟨aeff, fun j => ⟨_, rfl⟩, ?_⟩
  have hind : (tetElem G prm s nodes Hext Hst dir V t).ind = t.ind := rfl
  rw [contribution_form _ nod (by rw [hind]; exact ht) (fun r => z (other r)) z, hind]
  refine Eq.trans ?_ (proj_form G n.p n.u n.ep n.eq aeff _ fun a i => z (2 * t.ind i + a))
  refine Finset.sum_congr rfl fun i _ => Finset.sum_congr rfl fun k _ => ?_
  have e : ∀ a b : Fin 2, (tetElem G prm s nodes Hext Hst dir V t).Ke ((a : ℕ) * 4 + i) ((b : ℕ) * 4 + k) =
      (matP n.ep n.eq * lumping G n.p n.u aeff (s.prefactor * sdt s * abis (prm t.reg) s) * (matP n.ep n.eq).transpose)
        (1 - a, i) (b, k) := fun a b => elem_Ke G prm s nodes Hext Hst dir V t a b a.2 b.2 i k
  simp only [e, other_add]
  have s0 : (1 : Fin 2) - 0 = 1 := rfl
  have s1 : (1 : Fin 2) - 1 = 0 := rfl
  simp only [Fin.sum_univ_two, s0, s1]
  ring

end Verif.Llg
