import Verif.Spec.Relax

/-!
# Vocabulary for C99: energy balance in an applied field that varies with time
-/

namespace Verif.Balance

open Verif.Mesh Verif.Assembly Verif.Tetra Verif.Llg Verif.TimeLoop Verif.Run Verif.Converge Verif.SemiDiscrete Verif.Relax

/-- At each instant the conditions are those of C90 with the field of that instant, and the applied field varies smoothly -/
structure Driven {n : ℕ} (P : Problem) (p : ℕ → V3) (D : Media n P) (H : ℝ → Tet → Fin P.G.n → V3) (Ms : ℝ) : Prop where
  applied : ∀ t u, D.Hext t u = H t
  instant : ∀ t, Steady P p { D with Hext := fun _ _ => H t } (H t) Ms
  smooth : ∀ t j, SmoothV fun τ : ℝ => H τ t j

/-- power lost by damping when the magnetization of the nodes has the velocity `v`: `mu0 Ms / gamma0 ∫ alpha |dm/dt|²` -/
noncomputable def power (P : Problem) (p : ℕ → V3) (gamma0 : ℝ) (v : ℕ → V3) : ℝ :=
  P.mu0 / gamma0 * ((magTet P.mag P.tets).map fun t => (P.prm t.reg).Ms *
    WeakForm.damping P.G (fun k => p (t.ind k)) (fun _ => (P.prm t.reg).alpha) (fun k => v (t.ind k)) (fun k => v (t.ind k))).sum

/-- energy given to the magnetization `u` when the applied field changes by `dH`: `- mu0 ∫ M·dH` -/
noncomputable def fieldWork (P : Problem) (p : ℕ → V3) (dH : Tet → Fin P.G.n → V3) (u : ℕ → V3) : ℝ :=
  -(P.mu0 * ((magTet P.mag P.tets).map fun t => (P.prm t.reg).Ms *
    WeakForm.work P.G (fun k => p (t.ind k)) (dH t) fun k => u (t.ind k)).sum)

section
variable {n : ℕ} {ET : Type}

/-- energy lost by damping from state `j` of a run to state `j'` -/
noncomputable def heat (P : Problem) (p : ℕ → V3) (cfg : Cfg n ET) (s : ℕ → St n ET) (j j' : ℕ) : ℝ :=
  ∑ i ∈ Finset.Ico j j', ((s (i + 1)).t - (s i).t) *
    power P p cfg.gamma0 (extV (masked cfg.magNode fun a => ((s (i + 1)).nodes a).cur.v))

/-- energy given by the variation of the applied field from state `j` of a run to state `j'` -/
noncomputable def input (P : Problem) (p : ℕ → V3) (H : ℝ → Tet → Fin P.G.n → V3) (cfg : Cfg n ET) (s : ℕ → St n ET) (j j' : ℕ) : ℝ :=
  ∑ i ∈ Finset.Ico j j', fieldWork P p (fun t a => H (s (i + 1)).t t a - H (s i).t t a)
    (extV (masked cfg.magNode fun a => ((s (i + 1)).nodes a).cur.u))

end

end Verif.Balance
