import Verif.Model.Geom
import Verif.Model.Text

/-!
# Reading the mesh (`mesh::readMesh`, src/read.cpp:12-196, src/meshUtils.h:9-46) and the initial magnetization
(`mesh::init_distrib`, src/mesh.h:221-277)

The file is what the gmsh library gives: the nodes with their tags, and for each geometrical entity of dimension 2 or 3 the
names of its physical groups and its elements, one block per type of element.
-/

namespace Verif.MeshRead

open Verif.Mesh Verif.Text

/-- one type of elements of an entity: `elemTypes[k]` and `elemNodeTags[k]` of `gmsh::model::mesh::getElements` -/
structure Block where
  typ : ℕ
  tags : List ℕ

/-- a geometrical entity: names of its physical groups (`getPhysicalGroupsForEntity`, `getPhysicalName`) and elements -/
structure Entity where
  groups : List Str
  blocks : List Block

/-- the content of a mesh file -/
structure File where
  /-- `gmsh::model::getDimension` -/
  dim : ℕ
  /-- `gmsh::model::mesh::getNodes`: tag and coordinates -/
  nodes : List (ℕ × V3)
  /-- entities of dimension 3 -/
  vol : List Entity
  /-- entities of dimension 2 -/
  surf : List Entity

/-- how the reading fails: the program exits with a message, or an access out of range (undefined behaviour) -/
inductive Bad where
  | exit
  | ub
  deriving DecidableEq

/-- `gmsh::model::mesh::getElementTypes(…, dim, -1)`: the types of elements present in a dimension -/
def types (l : List Entity) : List ℕ := (l.flatMap fun e => e.blocks.map (·.typ)).dedup

/-- `getPhysicalGroups` and `getPhysicalName`, meshUtils.h:24-31: the names of the groups of a dimension -/
def groupNames (l : List Entity) : List Str := l.flatMap (·.groups)

/-- `"__default__"` -/
def defaultName : Str := ['_', '_', 'd', 'e', 'f', 'a', 'u', 'l', 't', '_', '_']

/-- `checkNamedObjects`, meshUtils.h:20-46; `regs` are the names in `paramTetra` or `paramTriangle` -/
def checkNamed (regs names : List Str) : Bool := regs.all fun r => r == defaultName || names.any fun n => r == n

/-- `mesh::checkMeshFile`, read.cpp:35-71; element types: 2 triangle, 4 tetrahedron (tags.h:35-36) -/
def checkFile (f : File) (regT regS : List Str) : Except Bad Unit :=
  if f.dim ≠ 3 then .error .exit
  else if types f.vol ≠ [4] then .error .exit
  else if ¬(types f.surf = [] ∨ types f.surf = [2]) then .error .exit
  else if !(checkNamed regS (groupNames f.surf) && checkNamed regT (groupNames f.vol)) then .error .exit
  else .ok ()

/-- one turn of the loop of `mesh::readNodes`, read.cpp:82-91: a tag 0 wraps around and is too large. A position not
written is `none` (Eigen leaves it uninitialised). -/
noncomputable def readNode (scale : ℝ) (node : List (Option V3)) (n : ℕ × V3) : Except Bad (List (Option V3)) :=
  if n.1 = 0 ∨ node.length < n.1 then .error .exit else .ok (node.set (n.1 - 1) (some (scale * n.2)))

/-- `mesh::readNodes`, read.cpp:73-92 -/
noncomputable def readNodes (scale : ℝ) (nodes : List (ℕ × V3)) : Except Bad (List (Option V3)) :=
  nodes.foldlM (readNode scale) (List.replicate nodes.length none)

/-- the node tags four by four, read.cpp:122-127; a number of tags which is not a multiple of four is read past the end -/
def chunk4 : List ℕ → Except Bad (List (Fin 4 → ℕ))
  | [] => .ok []
  | a :: b :: c :: d :: l => (chunk4 l).map fun r => ![a, b, c, d] :: r
  | _ => .error .ub

/-- the node tags three by three, read.cpp:177-181 -/
def chunk3 : List ℕ → Except Bad (List (Fin 3 → ℕ))
  | [] => .ok []
  | a :: b :: c :: l => (chunk3 l).map fun r => ![a, b, c] :: r
  | _ => .error .ub

open Classical in
/-- constructor of `Tet`, element.h:32-50 and tetra.h:140-163. If an index is out of range the program prints a message and
goes on with an element that is not initialised: `ub`. -/
noncomputable def mkTet (eps : ℝ) (node : List (Option V3)) (reg : ℕ) (tags : Fin 4 → ℕ) : Except Bad Tet :=
  if ∀ k, 1 ≤ tags k ∧ ∃ p, node[tags k - 1]? = some (some p) then
    match Geom.orientate eps (fun i => ((node[i]?).getD none).getD 0) ⟨fun k => tags k - 1, reg⟩ with
    | none => .error .exit
    | some t => .ok t
  else .error .ub

open Classical in
/-- constructor of `Tri`, element.h:32-50 and triangle.h:113-127 -/
noncomputable def mkTri (node : List (Option V3)) (reg : ℕ) (tags : Fin 3 → ℕ) : Except Bad Tri :=
  if ∀ k, 1 ≤ tags k ∧ ∃ p, node[tags k - 1]? = some (some p) then .ok ⟨fun k => tags k - 1, reg⟩ else .error .ub

/-- `all_elems_are<typ>(elemTypes)`, meshUtils.h:10-14, followed by `elemNodeTags[0]` -/
def firstBlock (typ : ℕ) (blocks : List Block) : Except Bad (List ℕ) :=
  if blocks.all (fun b => b.typ == typ) then
    match blocks with
    | [] => .error .ub
    | b :: _ => .ok b.tags
  else .error .exit

/-- `mesh::readTetraedrons` for one entity and one of its groups, read.cpp:108-142; `findRegionIdx`, settings.h:214-232 -/
noncomputable def readTetGroup (eps : ℝ) (regT : List Str) (node : List (Option V3)) (e : Entity) (n : Str) :
    Except Bad (List Tet) :=
  if regT.any (· == n) then do
    let tags ← firstBlock 4 e.blocks
    (← chunk4 tags).mapM (mkTet eps node (regT.findIdx (· == n)))
  else return []

/-- `mesh::readTetraedrons`, read.cpp:94-147 -/
noncomputable def readTets (eps : ℝ) (regT : List Str) (node : List (Option V3)) (vol : List Entity) : Except Bad (List Tet) := do
  let l ← vol.mapM fun e => do
    let g ← e.groups.mapM (readTetGroup eps regT node e)
    return g.flatten
  return l.flatten

/-- `mesh::readTriangles` for one entity and one of its groups, read.cpp:163-192 -/
noncomputable def readTriGroup (regS : List Str) (node : List (Option V3)) (e : Entity) (n : Str) : Except Bad (List Tri) :=
  if regS.any (· == n) then do
    let tags ← firstBlock 2 e.blocks
    (← chunk3 tags).mapM (mkTri node (regS.findIdx (· == n)))
  else return []

/-- `mesh::readTriangles`, read.cpp:149-196 -/
noncomputable def readTris (regS : List Str) (node : List (Option V3)) (surf : List Entity) : Except Bad (List Tri) := do
  let l ← surf.mapM fun e => do
    let g ← e.groups.mapM (readTriGroup regS node e)
    return g.flatten
  return l.flatten

/-- what `readMesh` leaves in the mesh -/
structure Read where
  node : List (Option V3)
  tet : List Tet
  tri : List Tri

/-- `mesh::readMesh`, read.cpp:12-33; `eps` is `Tetra::epsilon` -/
noncomputable def readMesh (eps scale : ℝ) (regT regS : List Str) (f : File) : Except Bad Read := do
  checkFile f regT regS
  let node ← readNodes scale f.nodes
  let tet ← readTets eps regT node f.vol
  let tri ← readTris regS node f.surf
  return ⟨node, tet, tri⟩

/-! ## initial magnetization -/

/-- `volumeRegions`, mesh.h:94-98: indices of the tetrahedrons of each region -/
def volumeRegions (nreg : ℕ) (tets : List Tet) : List (List ℕ) :=
  tets.zipIdx.foldl (fun v t => v.modify t.1.reg (· ++ [t.2])) (List.replicate nreg [])

/-- `node_in_region`, mesh.h:251-263 -/
def inRegion (tets : List Tet) (idx : List ℕ) (node : ℕ) : Bool :=
  idx.any fun k => match tets[k]? with
    | some t => (List.finRange 4).any fun i => t.ind i == node
    | none => false

/-- `nodeRegions`, mesh.h:246-266: region 0 is skipped; a `std::set` is visited in increasing order -/
def nodeRegions (nreg : ℕ) (tets : List Tet) (node : ℕ) : List ℕ :=
  (List.range' 1 (nreg - 1)).filter fun r => inRegion tets ((volumeRegions nreg tets).getD r []) node

/-- the expression of the initial magnetization, settings.h:255-286 and expression_parser.cpp: a function of the position
only, or of the position and the list of region names -/
inductive Expr where
  | position (f : V3 → V3)
  | regions (f : V3 → List Str → V3)

/-- `mesh::init_distrib` for one node, mesh.h:224-276; `none` is the vector of NaN of non-magnetic nodes -/
noncomputable def initNode (names : List Str) (mag : List Bool) (tets : List Tet) (expr : Expr) (p : ℕ → V3) (node : ℕ) :
    Option V3 :=
  if mag.getD node false then
    some (match expr with
      | .position f => (f (p node)).normalize
      | .regions f => (f (p node) ((nodeRegions names.length tets node).map fun r => names.getD r [])).normalize)
  else none

end Verif.MeshRead
