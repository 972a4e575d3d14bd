import Verif.Model.Electro

/-!
# Specification of the spin diffusion problem
-/

namespace Verif.Electro

open Verif.Mesh Verif.Assembly

/-- what defines the problem besides the magnetization -/
structure SpinData where
  c : Consts
  p : ℕ → V3
  mag : ℕ → Bool
  vol : ℕ → VolPrm
  surf : ℕ → SurfPrm
  V : ℕ → ℝ
  tets : List Tet
  tris : List Tri

/-- component `d` of a nodal vector field on a tetrahedron -/
def comp4 (s : ℕ → V3) (d : Fin 3) (t : Tet) : Fin 4 → ℝ := fun i => (s (t.ind i)).comp d

/-- diffusion constant of the electrons of a material of conductivity `sigma` and density of states `N0` (Einstein relation,
two spins) -/
noncomputable def diffusivity (c : Consts) (m : VolPrm) : ℝ := 2 * m.sigma / (c.e * c.e * m.N0.val)

open Classical in
/-- spin current density leaving through a surface: `-jn μB/e uP` if the current density `jn` and its polarization `uP` are
given, else the given vector `s`, else nothing -/
noncomputable def flow (c : Consts) (m : SurfPrm) (a : Fin 3) : ℝ :=
  if m.jn.IsFin ∧ ∀ b, (m.uP b).IsFin then -m.jn.val * (c.mub / c.e) * (m.uP a).val
  else if ∀ b, (m.s b).IsFin then (m.s a).val
  else 0

/-- weak form of the spin diffusion problem for the test field `w`, the spin accumulation `s` and the magnetization `m` in the
precession term, `n` in the source term: diffusion `D0 ∇w:∇s`, relaxation `D0/lsf² w·s` and precession
`D0/lsd² w·(s × m)` with the integral of a product replaced by volume times mean over the nodes (mass lumping),
minus the source `(μB P σ / e) (∇V·∇φ_i) w_i·n_i` of the magnetic elements, plus the surface terms -/
noncomputable def spinWeak (d : SpinData) (m n w s : ℕ → V3) : ℝ :=
  (d.tets.map fun t =>
    let vol := Tetra.detJ (MeshElem.nod4 d.p t) / 6
    let D0 := diffusivity d.c (d.vol t.reg)
    let lsf := (d.vol t.reg).lsf
    let lsd := (d.vol t.reg).lsd
    D0 * vol * (∑ a : Fin 3, (Tetra.gradV (MeshElem.nod4 d.p t) (comp4 w a t)).dot
      (Tetra.gradV (MeshElem.nod4 d.p t) (comp4 s a t)))
    + D0 / (lsf * lsf) * vol * ((∑ i : Fin 4, (w (t.ind i)).dot (s (t.ind i))) / 4)
    + (if t.isMagnetic d.mag then
        D0 / (lsd * lsd) * vol * ((∑ i : Fin 4, (w (t.ind i)).dot ((s (t.ind i)).cross (m (t.ind i)))) / 4)
        - (d.c.mub * (d.vol t.reg).P.val * (d.vol t.reg).sigma / d.c.e) * vol *
          ∑ i : Fin 4, (Tetra.gradV (MeshElem.nod4 d.p t) (MeshElem.nod4 d.V t)).dot (Tetra.daRow (MeshElem.nod4 d.p t) i)
            * (w (t.ind i)).dot (n (t.ind i))
      else 0)).sum
  + (d.tris.map fun f => TriElem.surf (MeshElem.nod3 d.p f) * ∑ a : Fin 3, flow d.c (d.surf f.reg) a *
      (((w (f.ind 0)).comp a + (w (f.ind 1)).comp a + (w (f.ind 2)).comp a) / 3)).sum

/-- `s` solves the problem outside the nodes `S` -/
def SpinSolution (d : SpinData) (m n : ℕ → V3) (S : ℕ → Prop) (s : ℕ → V3) : Prop :=
  ∀ w : ℕ → V3, (∀ i, S i → w i = 0) → spinWeak d m n w s = 0

/-- unknown `3 i + a` of a nodal vector field -/
def flat (s : ℕ → V3) (r : ℕ) : ℝ := (s (r / 3)).comp (Fin.ofNat 3 (r % 3))

/-- the vector field `s` satisfies the equations of the system for the nodes outside `S` -/
def SpinSys.Solved (sys : SpinSys) (nod : ℕ) (S : ℕ → Prop) (s : ℕ → V3) : Prop :=
  ∀ r, r < 3 * nod → ¬ S (r / 3) → (sys.K.mult (flat s))[r]? = sys.L[r]?

end Verif.Electro

namespace Verif.Electro

/-- the vector field of a vector of unknowns -/
def field {n : ℕ} (x : Fin n → ℝ) (i : ℕ) : V3 :=
  let e := fun k => if h : k < n then x ⟨k, h⟩ else 0
  ⟨e (3 * i), e (3 * i + 1), e (3 * i + 2)⟩

/-- every node outside `S` belongs to a tetrahedron -/
def Covered (nod : ℕ) (tets : List Verif.Mesh.Tet) (S : ℕ → Prop) : Prop :=
  ∀ i, i < nod → ¬ S i → ∃ t ∈ tets, ∃ k, t.ind k = i

/-- the parameters of a material for which the diffusion constant and the spin flip length make sense -/
structure Material (c : Consts) (m : VolPrm) : Prop where
  e : c.e ≠ 0
  sigma : 0 < m.sigma
  N0 : 0 < m.N0.val
  lsf : m.lsf ≠ 0

/-- the surface parameters prescribe the spin vector `v`: a spin vector without current density, or a current density
without spin vector, which then carries the spin `-jn μB/e uP` -/
def Prescribes (c : Consts) (m : SurfPrm) (v : Fin 3 → ℝ) : Prop :=
  (m.jn.IsNan ∧ ∀ a, m.s a = .fin (v a)) ∨
  ((norm3 m.s).IsNan ∧ ∃ j : ℝ, m.jn = .fin j ∧ ∃ u : Fin 3 → ℝ, (∀ a, m.uP a = .fin (u a)) ∧
    ∀ a, v a = -j * (c.mub / c.e) * u a)

end Verif.Electro
