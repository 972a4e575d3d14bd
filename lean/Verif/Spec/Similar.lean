import Mathlib.GroupTheory.Perm.Sign
import Verif.Spec.TimeLoop
import Verif.Model.LlgElem

/-!
# Vocabulary for C91 to C93: the same sample described in another way, or seen in a mirror

The nodes are numbered differently, the elements and the vertices of each element are listed in another order, and all
lengths are multiplied by a number; a negative number includes the inversion through the origin. Magnetization and applied
fields, which are axial vectors, are not changed by an inversion.
-/

namespace Verif

open Verif.Mesh Verif.Tetra Verif.Llg

/-- another description of a sample with `n` nodes -/
structure Similarity (n : ℕ) where
  /-- what the lengths are multiplied by -/
  ratio : ℝ
  ne : ratio ≠ 0
  /-- new number of a node -/
  num : Equiv.Perm ℕ
  range : ∀ i, num i < n ↔ i < n
  /-- vertex `k` of a tetrahedron in the new list is vertex `tet t k` of the tetrahedron `t` -/
  tet : Tet → Equiv.Perm (Fin 4)
  /-- the same for triangles -/
  tri : Tri × ℝ → Equiv.Perm (Fin 3)

namespace Similarity

variable {n : ℕ} (S : Similarity n)

/-- new number of a node of the mesh -/
def node (i : Fin n) : Fin n := ⟨S.num i, (S.range i).mpr i.2⟩

/-- the magnetization and its velocity stay; potentials are fields times lengths -/
def data (x : DataNode) : DataNode := ⟨x.u, x.v, S.ratio * x.phi, S.ratio * x.phiv⟩

/-- the exchange constant goes as the square of the lengths -/
def prm (m : Prm) : Prm := { m with A := S.ratio ^ 2 * m.A }

/-- the surface anisotropy goes as the lengths -/
def sprm (m : SurfPrm) : SurfPrm := { m with Ks := |S.ratio| * m.Ks }

/-- the sense of rotation of a relisted triangle about the outward normal: kept (1) or reversed (-1) -/
noncomputable def sense (f : Tri × ℝ) : ℝ := (SignType.sign S.ratio : ℝ) * (Equiv.Perm.sign (S.tri f) : ℤ)

/-- a tetrahedron in the new description -/
def tetOf (t : Tet) : Tet := ⟨fun k => S.num (t.ind (S.tet t k)), t.reg⟩

/-- a triangle in the new description; the program gives the jump of magnetization a sign that depends on the sense
(mesh.cpp:227-242) -/
noncomputable def triOf (f : Tri × ℝ) : Tri × ℝ := (⟨fun k => S.num (f.1.ind (S.tri f k)), f.1.reg⟩, S.sense f * f.2)

end Similarity

/-- a plane mirror: unit normal and a point of the plane -/
structure Mirror where
  normal : V3
  unit : normal.nsq = 1
  origin : V3

namespace Mirror

/-- image of a point -/
def point (R : Mirror) (p : V3) : V3 := p - (2 * V3.dot (p - R.origin) R.normal) * R.normal

/-- image of an axial vector (magnetization, magnetic field, angular velocity): the component along the normal stays, the
others change sign -/
def axial (R : Mirror) (u : V3) : V3 := (2 * u.dot R.normal) * R.normal - u

/-- the magnetic potential is a pseudoscalar: the charges of the image have the opposite sign -/
def data (R : Mirror) (x : DataNode) : DataNode := ⟨R.axial x.u, R.axial x.v, -x.phi, -x.phiv⟩

end Mirror

namespace TimeLoop

variable {n : ℕ} {ET ET' : Type}

/-- the nodes `b` are the images of the nodes `a` in a mirror, with new numbers -/
def Mirrored (R : Mirror) (S : Similarity n) (a b : Fin n → Node) : Prop :=
  ∀ i, (b (S.node i)).p = R.point (a i).p ∧ (b (S.node i)).cur = R.data (a i).cur ∧
    (b (S.node i)).next = R.data (a i).next

/-- the magnetization of the image, with new numbers -/
def MirroredU (R : Mirror) (S : Similarity n) (a b : Fin n → V3) : Prop := ∀ i, b (S.node i) = R.axial (a i)

/-- the nodes `b` are the nodes `a` in the new description; nothing is said of the bases of the tangent planes -/
def Alike (S : Similarity n) (a b : Fin n → Node) : Prop :=
  ∀ i, (b (S.node i)).p = S.ratio * (a i).p ∧ (b (S.node i)).cur = S.data (a i).cur ∧
    (b (S.node i)).next = S.data (a i).next

/-- the same magnetization with the nodes renumbered -/
def Renumbered (S : Similarity n) (a b : Fin n → V3) : Prop := ∀ i, b (S.node i) = a i

variable {n' : ℕ}

/-- the two time loops have the same settings; the meshes may have different numbers of nodes -/
structure SameSettings (cfg : Cfg n ET) (cfg' : Cfg n' ET') : Prop where
  tf : cfg'.tf = cfg.tf
  DTMIN : cfg'.DTMIN = cfg.DTMIN
  DTMAX : cfg'.DTMAX = cfg.DTMAX
  DUMAX : cfg'.DUMAX = cfg.DUMAX
  timeStep : cfg'.timeStep = cfg.timeStep
  savePeriod : cfg'.savePeriod = cfg.savePeriod
  gamma0 : cfg'.gamma0 = cfg.gamma0
  add : cfg'.add = cfg.add

/-- corresponding rows -/
structure CoupledRow (N : (Fin n → Node) → (Fin n' → Node) → Prop) (Q : ET → ET' → Prop) (a : Row n ET) (b : Row n' ET') :
    Prop where
  nt : b.nt = a.nt
  t : b.t = a.t
  dt : b.dt = a.dt
  E : Q a.E b.E
  nodes : N a.nodes b.nodes

/-- corresponding saved configurations -/
structure CoupledSol (U : (Fin n → V3) → (Fin n' → V3) → Prop) (a : SolFile n) (b : SolFile n') : Prop where
  nt : b.nt = a.nt
  t : b.t = a.t
  u : U a.u b.u

/-- the second run is at the same point as the first -/
structure Coupled (N : (Fin n → Node) → (Fin n' → Node) → Prop) (U : (Fin n → V3) → (Fin n' → V3) → Prop)
    (Q : ET → ET' → Prop) (a : St n ET) (b : St n' ET') : Prop where
  ctl : b.ctl = a.ctl
  stepNb : b.stepNb = a.stepNb
  t : b.t = a.t
  dt : b.dt = a.dt
  stepper : b.stepper = a.stepper
  nodes : N a.nodes b.nodes
  vmax : b.vmax = a.vmax
  E : Q a.E b.E
  flag : b.flag = a.flag
  nt : b.nt = a.nt
  rows : List.Forall₂ (CoupledRow N Q) a.rows b.rows
  sols : List.Forall₂ (CoupledSol U) a.sols b.sols

end TimeLoop
end Verif
