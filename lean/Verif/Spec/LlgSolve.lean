import Verif.Model.MeshElem

/-!
# Specification of the accuracy of a time step
-/

namespace Verif.LlgSolve

open Verif.Mesh Verif.Tetra

/-- damping lumped at a node: a quarter of alpha times volume for each magnetic element around it -/
noncomputable def lumpedDamping (G : Rule) (prm : ℕ → Prm) (mag : ℕ → Bool) (tets : List Tet) (p : ℕ → V3) (i : ℕ) : ℝ :=
  ((magTet mag tets).map fun t => ∑ k, if t.ind k = i then (prm t.reg).alpha * MeshElem.tetVol G p t / 4 else 0).sum

/-- distance between two fields on the nodes: root of the sum of the squared distances over the magnetic nodes -/
noncomputable def nodesDist {n : ℕ} (mag : Fin n → Bool) (v w : ℕ → V3) : ℝ :=
  Real.sqrt (∑ i : Fin n, if mag i = true then (v i - w i).nsq else 0)

/-- euclidean norm of a list -/
noncomputable def listNorm (b : List ℝ) : ℝ := Real.sqrt (b.map fun x => x ^ 2).sum

end Verif.LlgSolve
