import Verif.Model.TimeLoop
import Verif.Model.MeshElem

/-! The columns `dt`, `max_dm`, `<Mx>`, `<dMx/dt>` of the table, save.cpp:64-102 -/

namespace Verif.TimeLoop

variable {n : ℕ} {ET : Type}

/-- column `dt`, save.cpp:64-67 -/
def dtColumn (s : St n ET) : ℝ := s.dt

/-- column `max_dm`, save.cpp:68-71; `vmax` is the member of `Fem` set at time_integration.cpp:206 -/
def maxDmColumn (s : St n ET) : ℝ := s.vmax * s.dt

/-- a quantity at the nodes of the mesh -/
def onNodes (f : Fin n → ℝ) (i : ℕ) : ℝ := if h : i < n then f ⟨i, h⟩ else 0

/-- columns `<Mx>`, `<My>`, `<Mz>`, save.cpp:76-87; `get_u_comp` (node.h:157-158) takes `NEXT` -/
noncomputable def mColumn (G : Tetra.Rule) (p : ℕ → V3) (mag : ℕ → Bool) (nreg : ℕ) (tets : List Mesh.Tet) (region : Option ℕ) (d : Fin 3)
    (nodes : Fin n → Node) : ℝ := MeshElem.avg G p mag nreg tets (onNodes fun i => (nodes i).next.u.comp d) region

/-- columns `<dMx/dt>`, `<dMy/dt>`, `<dMz/dt>`, save.cpp:88-99; `get_v_comp` (node.h:161-162) takes `NEXT` -/
noncomputable def rateColumn (G : Tetra.Rule) (p : ℕ → V3) (mag : ℕ → Bool) (nreg : ℕ) (tets : List Mesh.Tet) (region : Option ℕ) (d : Fin 3)
    (nodes : Fin n → Node) : ℝ := MeshElem.avg G p mag nreg tets (onNodes fun i => (nodes i).next.v.comp d) region

end Verif.TimeLoop
