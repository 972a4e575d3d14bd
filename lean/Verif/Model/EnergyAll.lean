import Verif.Model.Fl
import Verif.Model.MeshElem
import Verif.Model.SurfAniso

/-!
# The energies of the table: `Fem::energy` (src/energy.cpp) and `Fem::evolution` (src/fem.h:159-163)

Sums are exact sums of reals; only the Zeeman term can be NaN, when no applied field is defined.
-/

namespace Verif.EnergyAll

open Verif.Mesh Verif.MeshElem Verif.Llg

/-- the applied field as read by `Fem::energy`, energy.cpp:9-16; `n` is the number of Gauss points -/
inductive Applied (n : ℕ)
  /-- neither kind of field -/
  | undef
  /-- `RtoR3`: the field at time `t` -/
  | uniform (H : V3)
  /-- `R4toR3`: the amplitude at time `t` and what is read from `extSpaceField` for each tetrahedron (tetra.cpp:386) -/
  | space (amp : ℝ) (H : Tet → Fin n → V3)

/-- the array `E`, fem.h:137 -/
structure Terms where
  exchange : ℝ
  anisotropy : ℝ
  demag : ℝ
  zeeman : Fl

open Classical in
/-- body of the loop over `magTet`, energy.cpp:19-47 -/
noncomputable def tetStep (G : Tetra.Rule) (mu0 : ℝ) (p : ℕ → V3) (prm : ℕ → Tetra.Prm) (u : ℕ → V3) (phi : ℕ → ℝ)
    (a : Applied G.n) (e : Terms) (t : Tet) : Terms where
  exchange := e.exchange + Tetra.exchangeEnergy G (prm t.reg) (nod4 p t) (nod4 u t)
  demag := e.demag + Tetra.demagEnergy G mu0 (prm t.reg).Ms (nod4 p t) (nod4 u t) (nod4 phi t)
  anisotropy :=
    let x := if (prm t.reg).K ≠ 0 then e.anisotropy + Tetra.uniaxialEnergy G (prm t.reg) (nod4 p t) (nod4 u t)
      else e.anisotropy
    if (prm t.reg).K3 ≠ 0 then x + Tetra.cubicEnergy G (prm t.reg) (nod4 p t) (nod4 u t) else x
  zeeman := match a with
    | .uniform H => e.zeeman + .fin (Tetra.zeemanEnergy G mu0 (prm t.reg).Ms (nod4 p t) (nod4 u t) H)
    | .space amp H => e.zeeman + .fin (Tetra.zeemanEnergySpace G mu0 (prm t.reg).Ms amp (nod4 p t) (nod4 u t) (H t))
    | .undef => .nan

open Classical in
/-- body of the loop over `magTri`, energy.cpp:50-64 -/
noncomputable def triStep (H : TriElem.Rule) (mu0 : ℝ) (p : ℕ → V3) (sprm : ℕ → SurfPrm) (u : ℕ → V3) (phi : ℕ → ℝ)
    (e : Terms) (f : Tri × ℝ) : Terms :=
  { e with
    anisotropy := if (sprm f.1.reg).Ks ≠ 0 then
        e.anisotropy + TriElem.anisotropyEnergy H (sprm f.1.reg).Ks (sprm f.1.reg).uk (nod3 p f.1) (nod3 u f.1)
      else e.anisotropy
    demag := e.demag + TriElem.demagEnergy H mu0 f.2 (nod3 p f.1) (nod3 u f.1) (nod3 phi f.1) }

/-- the terms after `Fem::energy`, energy.cpp:7-64; `mtets`, `mtris` are `magTet`, `magTri` -/
noncomputable def terms (G : Tetra.Rule) (H : TriElem.Rule) (mu0 : ℝ) (p : ℕ → V3) (prm : ℕ → Tetra.Prm) (sprm : ℕ → SurfPrm)
    (mtets : List Tet) (mtris : List (Tri × ℝ)) (u : ℕ → V3) (phi : ℕ → ℝ) (a : Applied G.n) : Terms :=
  mtris.foldl (triStep H mu0 p sprm u phi) (mtets.foldl (tetStep G mu0 p prm u phi a) ⟨0, 0, 0, 0⟩)

/-- `Etot`, energy.cpp:65 -/
noncomputable def Terms.total (e : Terms) : Fl := .fin e.exchange + .fin e.anisotropy + .fin e.demag + e.zeeman

/-- whether the warning is printed, energy.cpp:66-67 -/
def warned (verbose : Bool) (Etot0 Etot : Fl) : Prop := verbose = true ∧ Etot.gt Etot0

/-- the warnings of successive calls of `compute_all`, fem.h:222-223: `energy`, then `evolution` which copies `Etot` into
`Etot0` (fem.h:162) -/
def warnings (verbose : Bool) : Fl → List Fl → List Prop
  | _, [] => []
  | Etot0, Etot :: l => warned verbose Etot0 Etot :: warnings verbose Etot l

/-- the warnings of a whole run: `Etot0` starts from infinity, fem.h:50 -/
def runWarnings (verbose : Bool) (l : List Fl) : List Prop := warnings verbose (.inf false) l

end Verif.EnergyAll
