import Verif.Props.Converge

/-!
# Specification: the energy of a sample in steady conditions, and the time a run spends away from equilibrium
-/

namespace Verif.Relax

open Verif.Mesh Verif.Assembly Verif.Tetra Verif.Llg Verif.TimeLoop Verif.Run Verif.Converge

/-- `∫ H·w` on the magnetic elements, for the field `H` of the potential `phi` -/
noncomputable def demagWork (P : Problem) (p : ℕ → V3) (phi : ℕ → ℝ) (w : ℕ → V3) : ℝ :=
  ((magTet P.mag P.tets).map fun t => WeakForm.work P.G (fun k => p (t.ind k))
    (fun _ => interpField (fun k => p (t.ind k)) fun k => phi (t.ind k)) fun k => w (t.ind k)).sum

/-- exchange, uniaxial anisotropy, energy in the applied field `H`, and demagnetizing energy `-1/2 mu0 ∫ M·H` of the potential `phi`
(energy.cpp:25-47; C67 says that the code computes the last one) -/
noncomputable def totalEnergy (P : Problem) (p : ℕ → V3) (H : Tet → Fin P.G.n → V3) (phi : ℕ → ℝ) (u : ℕ → V3) : ℝ :=
  ((magTet P.mag P.tets).map fun t =>
    exchangeEnergy P.G (P.prm t.reg) (fun k => p (t.ind k)) (fun k => u (t.ind k))
    + uniaxialEnergy P.G (P.prm t.reg) (fun k => p (t.ind k)) (fun k => u (t.ind k))
    + zeemanEnergySpace P.G P.mu0 (P.prm t.reg).Ms 1 (fun k => p (t.ind k)) (fun k => u (t.ind k)) (H t)
    + -(1 / 2) * P.mu0 * (P.prm t.reg).Ms * WeakForm.work P.G (fun k => p (t.ind k))
        (fun _ => interpField (fun k => p (t.ind k)) fun k => phi (t.ind k)) (fun k => u (t.ind k))).sum

/-- Steady conditions: one value of Ms; no cubic anisotropy, no surface anisotropy, no spin accumulation field; a constant applied
field `H`; a potential of the demagnetizing field which is linear in the magnetization and reciprocal (the work of the field of `u`
on `w` is the work of the field of `w` on `u`), and the same for the velocity (or zero, if compiled with `FIRST_ORDER`) -/
structure Steady {n : ℕ} (P : Problem) (p : ℕ → V3) (D : Media n P) (H : Tet → Fin P.G.n → V3) (Ms : ℝ) : Prop where
  pos : 0 < Ms
  sameMs : ∀ t ∈ magTet P.mag P.tets, (P.prm t.reg).Ms = Ms
  cubic : ∀ t ∈ magTet P.mag P.tets, (P.prm t.reg).K3 = 0
  surface : ∀ f ∈ P.tris, (P.sprm f.1.reg).Ks = 0
  applied : ∀ t u, D.Hext t u = H
  spin : ∀ t u, D.Hst t u = fun _ _ => 0
  linear : ∀ (a b : ℝ) (u w : Fin n → V3) i, D.phi (fun i => a * u i + b * w i) i = a * D.phi u i + b * D.phi w i
  reciprocal : ∀ u w : Fin n → V3, demagWork P p (extS (D.phi u)) (extV w) = demagWork P p (extS (D.phi w)) (extV u)
  phiv : (∀ u v, D.phiv u v = D.phi v) ∨ ∀ u v i, D.phiv u v i = 0

/-- total energy when the magnetization of the nodes is `u` -/
noncomputable def energyOf {n : ℕ} (P : Problem) (p : ℕ → V3) (D : Media n P) (H : Tet → Fin P.G.n → V3) (mag : Fin n → Bool)
    (u : Fin n → V3) : ℝ :=
  totalEnergy P p H (extS (D.phi (masked mag u))) (extV (masked mag u))

open Classical in
/-- simulated time, in the first transitions of a run, of the accepted steps in which some magnetic node moved with velocity `ε` (per
unit of time) or more -/
noncomputable def timeAbove {n : ℕ} {ET : Type} (cfg : Cfg n ET) (s : ℕ → St n ET) (ε : ℝ) : ℕ → ℝ
  | 0 => 0
  | k + 1 => timeAbove cfg s ε k + if Accepted (s k) (s (k + 1)) ∧ ∃ i, cfg.magNode i = true ∧ ε ≤ ((s (k + 1)).nodes i).cur.v.norm
      then (s (k + 1)).t - (s k).t else 0

/-- the magnetization of each node moves continuously with `τ` -/
def Moving {n : ℕ} (γ : ℝ → Fin n → V3) : Prop :=
  ∀ i, Continuous (fun τ => (γ τ i).x) ∧ Continuous (fun τ => (γ τ i).y) ∧ Continuous fun τ => (γ τ i).z

/-- `b` is reached from `a` through unit magnetizations, along a continuous path on which the energy `W` stays below `e` or at `e` -/
def Reaches {n : ℕ} (mag : Fin n → Bool) (W : (Fin n → V3) → ℝ) (e : ℝ) (a b : Fin n → V3) : Prop :=
  ∃ γ : ℝ → Fin n → V3, Moving γ ∧ (∀ i, mag i = true → γ 0 i = a i ∧ γ 1 i = b i) ∧
    ∀ τ, 0 ≤ τ → τ ≤ 1 → (∀ i, mag i = true → IsUnit3 (γ τ i)) ∧ W (γ τ) ≤ e

/-- volume of the magnetic elements -/
noncomputable def magVol (P : Problem) (p : ℕ → V3) : ℝ := ((magTet P.mag P.tets).map fun t => calcVol P.G fun k => p (t.ind k)).sum

/-- One material, with anisotropy constant `K` and easy axis `e`, in the uniform field of magnitude `Hr` opposite to `e`; the demagnetizing
energy is not negative -/
structure Reversed {n : ℕ} (P : Problem) (p : ℕ → V3) (D : Media n P) (H : Tet → Fin P.G.n → V3) (K Hr : ℝ) (e : V3) : Prop where
  unit : IsUnit3 e
  hard : 0 < K
  material : ∀ t ∈ magTet P.mag P.tets, (P.prm t.reg).K = K ∧ (P.prm t.reg).uk = e
  field : ∀ t ∈ magTet P.mag P.tets, ∀ j, H t j = (-Hr) * e
  demag : ∀ u : Fin n → V3, demagWork P p (extS (D.phi u)) (extV u) ≤ 0

/-- an equilibrium: the derivative of the energy `W` is zero in every direction tangent to the magnetization -/
def Stationary {n : ℕ} (mag : Fin n → Bool) (W : (Fin n → V3) → ℝ) (u : Fin n → V3) : Prop :=
  ∀ w : Fin n → V3, (∀ i, mag i = true → (w i).dot (u i) = 0) → HasDerivAt (fun τ : ℝ => W fun i => u i + τ * w i) 0 0

/-- An energy well with one equilibrium: the quantity `f` is a continuous function of the magnetization of the magnetic nodes; every unit
magnetization with `f = a` has an energy higher than `e`; there is no equilibrium other than `m` among the unit magnetizations with
`f < a` and with an energy which does not exceed `e` -/
structure Well {n : ℕ} (mag : Fin n → Bool) (W f : (Fin n → V3) → ℝ) (a e : ℝ) (m : Fin n → V3) : Prop where
  continuous : Continuous fun c : Fin n → Fin 3 → ℝ => f (tab c)
  depends : ∀ u w : Fin n → V3, (∀ i, mag i = true → u i = w i) → f u = f w
  barrier : ∀ u : Fin n → V3, (∀ i, mag i = true → IsUnit3 (u i)) → f u = a → e < W u
  one : ∀ u : Fin n → V3, (∀ i, mag i = true → IsUnit3 (u i)) → f u < a → W u ≤ e → Stationary mag W u → ∀ i, mag i = true → u i = m i

/-- no dihedral angle of a magnetic element exceeds 90 degrees: the faces which meet in the edge between the vertices `k` and `l` -/
def NonObtuse (P : Problem) (p : ℕ → V3) : Prop :=
  ∀ t ∈ magTet P.mag P.tets, ∀ i j k l : Fin 4, i ≠ j → i ≠ k → i ≠ l → j ≠ k → j ≠ l → k ≠ l →
    0 ≤ ((p (t.ind l) - p (t.ind k)).cross (p (t.ind i) - p (t.ind k))).dot ((p (t.ind l) - p (t.ind k)).cross (p (t.ind j) - p (t.ind k)))

end Verif.Relax
