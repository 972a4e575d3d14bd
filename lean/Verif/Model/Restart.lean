import Verif.Model.SolFile
import Verif.Model.TimeLoop

/-!
# Starting from a `.sol` file: `Fem::Fem` (src/fem.h:102-116)

The numbers of the `.sol` file are floating point values (`Model/SolFile.lean`), those of the nodes real numbers. Reading a file
either ends the program or stores finite numbers only, so nothing is lost in the conversion.
-/

namespace Verif.Restart

open Verif.SolFile

variable {n : ℕ}

/-- the real number of a finite value -/
def val : Fl → ℝ
  | .fin x => x
  | _ => 0

/-- what `savesol` prints of a node: `dataNode &dn = node[j].d[Nodes::NEXT]`, save.cpp:179-181 -/
def saved (d : DataNode) : ND := ⟨.fin d.u.x, .fin d.u.y, .fin d.u.z, .fin d.phi⟩

/-- the node array as read by `savesol` and written by `readSol` -/
def savedNodes (nodes : Fin n → Node) : List ND := List.ofFn fun i => saved (nodes i).next

/-- the nodes after `readSol`, which assigns `d[NEXT].u` and `d[NEXT].phi` only, read.cpp:237-238 -/
def restored (nodes : Fin n → Node) (l : List ND) : Fin n → Node := fun i =>
  match l[(i : ℕ)]? with
  | none => nodes i
  | some d => { nodes i with next := { (nodes i).next with u := ⟨val d.ux, val d.uy, val d.uz⟩, phi := val d.phi } }

/-- how the construction of `Fem` ends -/
inductive Started (n : ℕ)
  /-- initial time and nodes of the integration -/
  | ok (t : ℝ) (nodes : Fin n → Node)
  | exit
  | exception
  | undefined

/-- fem.h:102-116: `nodes` is the mesh as read, `distrib` the mesh after `init_distrib`, `restore` the `.sol` file given as
`initial_magnetization` if any, `initialTime` the setting `initial_time` if it is not NaN; `timing` starts from `t = 0`
(time_integration.h:12) -/
def start (f : Format) (nodes distrib : Fin n → Node) (nodeIndex : List ℕ) (restore : Option File) (initialTime : Option ℝ) :
    Started n :=
  match restore with
  | none => .ok (initialTime.getD 0) distrib
  | some file =>
    match readSol f (savedNodes nodes) nodeIndex file with
    | .ok t l => .ok (initialTime.getD t) (restored nodes l)
    | .exit => .exit
    | .exception => .exception
    | .undefined => .undefined

end Verif.Restart
