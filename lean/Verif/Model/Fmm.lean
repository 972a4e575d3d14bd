import Mathlib.Analysis.SpecialFunctions.Trigonometric.Basic
import Verif.Model.V3

/-!
# Interface to the fast multipole solver (src/fmm_demag.h)

Elements are values of types `T` (tetrahedrons) and `F` (triangles); the lists given here are those of the
magnetic elements (`magTet`, `magTri`) in the order of the code. The octree is a list of particles: the order in
which its leaves are visited plays no role, since each particle is treated on its own.
The multipole algorithm itself is a parameter: it maps the charges to a potential.
-/

namespace Verif.Fmm

/-- `FParticleType` -/
inductive Kind
  | target | source
  deriving DecidableEq

/-- what is inserted in the octree: `tree.insert(position, type, index)` -/
structure Particle where
  pos : V3
  kind : Kind
  index : ℕ

/-- `norm*(p - c)`, fmm_demag.h:79 and 143-145 -/
def scaled (norm : ℝ) (c p : V3) : V3 := norm * (p - c)

/-- insertion of the targets, fmm_demag.h:74-83 -/
def insertTargets (norm : ℝ) (c : V3) (p : ℕ → V3) (magNode : List Bool) : List Particle :=
  (List.range magNode.length).filterMap fun idxPart =>
    if magNode.getD idxPart false then some ⟨scaled norm c (p idxPart), .target, idxPart⟩ else none

/-- `insertCharges`, fmm_demag.h:131-150; the state is the running index and the tree -/
def insertCharges {E : Type} (npi : ℕ) (norm : ℝ) (c : V3) (gauss : E → ℕ → V3) (elems : List E)
    (s : ℕ × List Particle) : ℕ × List Particle :=
  elems.foldl (fun s e =>
    (List.range npi).foldl (fun s j => (s.1 + 1, s.2 ++ [⟨scaled norm c (gauss e j), .source, s.1⟩])) s) s

/-- the octree built by the constructor, fmm_demag.h:74-86; `idxPart` is `magNode.size()` after the loop of
line 75 -/
def tree {T F : Type} (npiT npiF : ℕ) (norm : ℝ) (c : V3) (p : ℕ → V3) (magNode : List Bool)
    (gaussT : T → ℕ → V3) (gaussF : F → ℕ → V3) (magTet : List T) (magTri : List F) : List Particle :=
  (insertCharges npiF norm c gaussF magTri
    (insertCharges npiT norm c gaussT magTet (magNode.length, insertTargets norm c p magNode))).2

/-- one loop of `calc_charges`, fmm_demag.h:160-168 or 170-178; the state is `nsrc` and `srcDen` -/
def fillCharges {E : Type} (npi : ℕ) (charge : E → ℕ → ℝ) (elems : List E) (s : ℕ × List ℝ) : ℕ × List ℝ :=
  elems.foldl (fun s e => (s.1 + npi, (List.range npi).foldl (fun d i => d.set (s.1 + i) (charge e i)) s.2)) s

/-- `calc_charges`, fmm_demag.h:155-179 (without the corrections); `srcDen` has the size given at line 88 -/
def calcCharges {T F : Type} (npiT npiF : ℕ) (chargeT : T → ℕ → ℝ) (chargeF : F → ℕ → ℝ) (magTet : List T)
    (magTri : List F) : List ℝ :=
  (fillCharges npiF chargeF magTri (fillCharges npiT chargeT magTet
    (0, List.replicate (magTri.length * npiF + magTet.length * npiT) 0))).2

/-- the charge given to each source particle, fmm_demag.h:192-201: `srcDen[index - nbMagNodes]`;
`none` is an access out of bounds -/
def physicalValues (nbMagNodes : ℕ) (srcDen : List ℝ) (t : List Particle) : List (V3 × Option ℝ) :=
  (t.filter (·.kind = .source)).map fun q => (q.pos, if nbMagNodes ≤ q.index then srcDen[q.index - nbMagNodes]? else none)

/-- the write-back of the potentials, fmm_demag.h:211-223: `pot` is the result of `algo.execute()`, as a function of
the position of the target; `set i v` is `msh.set(i, setter, v)`, here on a function `phi` from node to value -/
noncomputable def writeBack (norm : ℝ) (pot : V3 → ℝ) (corr : ℕ → ℝ) (t : List Particle) (phi : ℕ → ℝ) : ℕ → ℝ :=
  (t.filter (·.kind = .target)).foldl (fun phi q =>
    Function.update phi q.index ((pot q.pos * norm + corr q.index) / (4 * Real.pi))) phi

end Verif.Fmm
