import Mathlib.Analysis.Calculus.Deriv.Mul
import Mathlib.Analysis.Calculus.Deriv.Add
import Mathlib.Analysis.Calculus.Deriv.Inv
import Mathlib.Analysis.SpecialFunctions.Sqrt
import Verif.Proofs.WeakForm

/-!
# Derivatives of the energies along a motion of the magnetization
-/

namespace Verif.Energy

open Verif.Mesh Verif.Assembly Verif.Tetra Verif.Llg Verif.WeakForm

/-- a motion of a vector with velocity `c'` at the time `t` -/
structure HasV (c : ℝ → V3) (c' : V3) (t : ℝ) : Prop where
  x : HasDerivAt (fun τ => (c τ).x) c'.x t
  y : HasDerivAt (fun τ => (c τ).y) c'.y t
  z : HasDerivAt (fun τ => (c τ).z) c'.z t

theorem HasV.sum_smul {ι : Type} [Fintype ι] {c : ℝ → ι → V3} {c' : ι → V3} {t : ℝ} (a : ι → ℝ)
    (h : ∀ i, HasV (fun τ => c τ i) (c' i) t) : HasV (fun τ => ∑ i, a i * c τ i) (∑ i, a i * c' i) t := by
  constructor
  · simp only [V3.sum_x, V3.smul_x]
    exact HasDerivAt.fun_sum fun i _ => (h i).x.const_mul (a i)
  · simp only [V3.sum_y, V3.smul_y]
    exact HasDerivAt.fun_sum fun i _ => (h i).y.const_mul (a i)
  · simp only [V3.sum_z, V3.smul_z]
    exact HasDerivAt.fun_sum fun i _ => (h i).z.const_mul (a i)

theorem HasV.dot {f g : ℝ → V3} {f' g' : V3} {t : ℝ} (hf : HasV f f' t) (hg : HasV g g' t) :
    HasDerivAt (fun τ => (f τ).dot (g τ)) (f'.dot (g t) + (f t).dot g') t := by
  have := ((hf.x.mul hg.x).add (hf.y.mul hg.y)).add (hf.z.mul hg.z)
  refine this.congr_deriv ?_
  unfold V3.dot
  ring

theorem HasV.const (b : V3) (t : ℝ) : HasV (fun _ => b) 0 t :=
  ⟨hasDerivAt_const _ _, hasDerivAt_const _ _, hasDerivAt_const _ _⟩

theorem HasV.const_dot {f : ℝ → V3} {f' : V3} {t : ℝ} (hf : HasV f f' t) (b : V3) :
    HasDerivAt (fun τ => b.dot (f τ)) (b.dot f') t := by
  refine ((HasV.const b t).dot hf).congr_deriv ?_
  simp [V3.dot]

theorem HasV.dot_const {f : ℝ → V3} {f' : V3} {t : ℝ} (hf : HasV f f' t) (b : V3) :
    HasDerivAt (fun τ => (f τ).dot b) (f'.dot b) t := by
  refine (hf.dot (HasV.const b t)).congr_deriv ?_
  simp [V3.dot]

theorem HasV.nsq {f : ℝ → V3} {f' : V3} {t : ℝ} (hf : HasV f f' t) :
    HasDerivAt (fun τ => (f τ).nsq) (2 * (f t).dot f') t := by
  have h := hf.dot hf
  have e : (fun τ => (f τ).nsq) = fun τ => (f τ).dot (f τ) := by
    funext τ
    exact V3.nsq_eq_dot _
  rw [e]
  refine h.congr_deriv ?_
  rw [V3.dot_comm]
  ring

/-- moving a unit vector in a tangent direction and normalizing it: the velocity is the direction -/
theorem HasV.normalize (u v : V3) (hu : u.nsq = 1) (huv : u.dot v = 0) :
    HasV (fun τ => (u + τ * v).normalize) v 0 := by
  have hn : ∀ τ : ℝ, (u + τ * v).nsq = 1 + τ ^ 2 * v.nsq := by
    intro τ
    have : (u + τ * v).nsq = u.nsq + 2 * τ * u.dot v + τ ^ 2 * v.nsq := by
      simp only [V3.nsq, V3.dot, V3.add_x, V3.add_y, V3.add_z, V3.smul_x, V3.smul_y, V3.smul_z]
      ring
    rw [this, hu, huv]
    ring
  have hpos : ∀ τ : ℝ, 0 < (u + τ * v).nsq := by
    intro τ
    rw [hn]
    have := nsq_nonneg v
    positivity
  have he : ∀ τ : ℝ, (u + τ * v).normalize = (1 / Real.sqrt (1 + τ ^ 2 * v.nsq)) * (u + τ * v) := by
    intro τ
    unfold V3.normalize
    rw [if_pos (hpos τ), hn]
  have hs : HasDerivAt (fun τ : ℝ => 1 + τ ^ 2 * v.nsq) 0 0 := by
    have := ((hasDerivAt_pow 2 (0 : ℝ)).mul_const v.nsq).const_add 1
    simpa using this
  have hq : HasDerivAt (fun τ : ℝ => (Real.sqrt (1 + τ ^ 2 * v.nsq))⁻¹) 0 0 := by
    have h1 := hs.sqrt (by norm_num)
    have h2 := h1.inv (by norm_num)
    refine h2.congr_deriv ?_
    simp
  have hc : ∀ a b : ℝ, HasDerivAt (fun τ : ℝ => (Real.sqrt (1 + τ ^ 2 * v.nsq))⁻¹ * (a + τ * b)) b 0 := by
    intro a b
    have h1 : HasDerivAt (fun τ : ℝ => a + τ * b) b 0 := by
      have := ((hasDerivAt_id (0 : ℝ)).mul_const b).const_add a
      simpa using this
    refine (hq.mul h1).congr_deriv ?_
    simp
  constructor
  · refine (hc u.x v.x).congr_of_eventuallyEq (Filter.Eventually.of_forall fun τ => ?_)
    simp [he]
  · refine (hc u.y v.y).congr_of_eventuallyEq (Filter.Eventually.of_forall fun τ => ?_)
    simp [he]
  · refine (hc u.z v.z).congr_of_eventuallyEq (Filter.Eventually.of_forall fun τ => ?_)
    simp [he]

variable {G : Rule} {m : Prm} {p : Fin 4 → V3} {c : ℝ → Fin 4 → V3} {w : Fin 4 → V3}

theorem exchange_deriv (h : ∀ i, HasV (fun τ => c τ i) (w i) 0) :
    HasDerivAt (fun τ => exchangeEnergy G m p (c τ)) (2 * m.A * calcVol G p * gradDot p (c 0) w) 0 := by
  have hd : ∀ d, HasDerivAt (fun τ => (Tetra.deriv p d (c τ)).nsq) (2 * (Tetra.deriv p d (c 0)).dot (Tetra.deriv p d w)) 0 :=
    fun d => (HasV.sum_smul (fun i => da p i d) h).nsq
  have := (((hd 0).add (hd 1)).add (hd 2)).const_mul (m.A * calcVol G p)
  refine (this.congr_of_eventuallyEq (Filter.Eventually.of_forall fun τ => ?_)).congr_deriv ?_
  · exact exchangeEnergy_eq G m p (c τ)
  · unfold gradDot
    ring

theorem uniaxial_deriv (h : ∀ i, HasV (fun τ => c τ i) (w i) 0) :
    HasDerivAt (fun τ => uniaxialEnergy G m p (c τ))
      (-2 * m.K * ∑ j, weight G p j * (m.uk.dot (interpV G (c 0) j) * m.uk.dot (interpV G w j))) 0 := by
  have hj : ∀ j, HasDerivAt (fun τ => m.uk.dot (interpV G (c τ) j)) (m.uk.dot (interpV G w j)) 0 :=
    fun j => (HasV.sum_smul (fun i => G.a i j) h).const_dot m.uk
  have := (HasDerivAt.fun_sum (u := Finset.univ) fun j _ => (((hj j).mul (hj j)).const_mul (weight G p j))).const_mul (-m.K)
  refine this.congr_deriv ?_
  rw [Finset.mul_sum, Finset.mul_sum]
  exact Finset.sum_congr rfl fun j _ => by ring

theorem zeeman_deriv (mu0 Ms amp : ℝ) (H : Fin G.n → V3) (h : ∀ i, HasV (fun τ => c τ i) (w i) 0) :
    HasDerivAt (fun τ => zeemanEnergySpace G mu0 Ms amp p (c τ) H)
      (-mu0 * Ms * amp * ∑ j, weight G p j * (interpV G w j).dot (H j)) 0 := by
  have hj : ∀ j, HasDerivAt (fun τ => (interpV G (c τ) j).dot (H j)) ((interpV G w j).dot (H j)) 0 :=
    fun j => (HasV.sum_smul (fun i => G.a i j) h).dot_const (H j)
  exact (HasDerivAt.fun_sum (u := Finset.univ) fun j _ => ((hj j).const_mul (weight G p j))).const_mul (-mu0 * Ms * amp)

end Verif.Energy
