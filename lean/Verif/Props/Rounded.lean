import Verif.Proofs.Rounded

/-!
# C88: rounding errors do not accumulate on the length of the magnetization

C05 shows that the magnetization has length exactly 1 in exact arithmetic. Here the arithmetic is rounded, with a relative error of at most `ε` for
each operation (`ε = 2⁻⁵³` for `double`).
-/

namespace Verif.Rounded

variable {n : ℕ} {ε gamma0 DUMAX : ℝ} {mag : Fin n → Bool}

/-- Whatever the rounding errors, the order of the sums of three terms and the use of fused operations: if the magnetization of each magnetic node is
of length 1 up to `4 ε` at the start, it is so after any number of attempts, accepted or not, with the same bound: the errors do not add up. This
holds for the magnetization the next step starts from, and for the one written to the files after each accepted step. -/
theorem C88_unit_length (hε : 0 ≤ ε) (hε1 : ε ≤ 1 / 1000) (hg : 0 ≤ gamma0) (hD : DUMAX ≤ 3 / 8) (nodes : ℕ → Fin n → Node)
    (hrun : Run ε gamma0 DUMAX mag nodes) (h0 : ∀ i, mag i = true → NearUnit (4 * ε) (nodes 0 i).cur.u) (k : ℕ) (i : Fin n)
    (hi : mag i = true) :
    NearUnit (4 * ε) (nodes k i).cur.u ∧
      (Accepted ε gamma0 DUMAX mag (nodes k) (nodes (k + 1)) → NearUnit (4 * ε) (nodes (k + 1) i).next.u) := by
  have step : ∀ a b : Fin n → Node, (∀ i, mag i = true → NearUnit (4 * ε) (a i).cur.u) → Accepted ε gamma0 DUMAX mag a b →
      (∀ i, mag i = true → NearUnit (4 * ε) (b i).cur.u) ∧ ∀ i, mag i = true → NearUnit (4 * ε) (b i).next.u := by
    intro a b ha h
    obtain ⟨r, c, d, X, dt, dumax, hc, hdt, hu, hdu, hno, hb⟩ := h
    have hd : ∀ i, mag i = true → NearUnit (4 * ε) (d i).next.u := by
      intro i hi
      have hai := (nearUnit_iff _ _).mp (ha i hi)
      obtain ⟨e, e1, e2⟩ := setBasis_le hε hε1 hai (hc i hi)
      have hui := hu i
      rw [if_pos hi] at hui
      obtain ⟨vp, vq, h1, h2, h3⟩ := hui
      rw [nearUnit_iff]
      exact makeEvol_near hε hε1 hg hdt (by rw [e]; exact hai) e1 e2 h1 h2 (duMax_le hε1 hg hdt hD hdu hno hi) h3
    refine ⟨fun i hi => ?_, fun i hi => ?_⟩
    · obtain ⟨-, j, hj, e⟩ := hb i hi
      rw [e]
      exact hd j hj
    · rw [(hb i hi).1]
      exact hd i hi
  have all : ∀ k i, mag i = true → NearUnit (4 * ε) (nodes k i).cur.u := by
    intro k
    induction k with
    | zero => exact h0
    | succ k ih =>
      rcases hrun k with h | h
      · exact (step _ _ ih h).1
      · intro i hi
        rw [rejected_cur h hi]
        exact ih i hi
  exact ⟨all k i hi, fun h => (step _ _ (all k) h).2 i hi⟩

/-- The start is so when the magnetization is given by an expression or a vector: `getMagnetization` (settings.h:264-284) normalizes. A zero
vector is the exception. -/
theorem C88_start (hε : 0 ≤ ε) (hε1 : ε ≤ 1 / 1000) (v v' : V3) (hv : v ≠ 0) (h : Normalize ε v v') : NearUnit (4 * ε) v' := by
  rw [nearUnit_iff]
  exact normalize_near hε (by linarith) (nsq_pos hv) h

/-- Consequence for what is written: no component of the magnetization exceeds 1 by more than `4 ε`. -/
theorem C88_components (δ : ℝ) (v : V3) (h : NearUnit δ v) : |v.x| ≤ 1 + δ ∧ |v.y| ≤ 1 + δ ∧ |v.z| ≤ 1 + δ := by
  have h' := (abs_le.mp h).2
  have key : ∀ x r : ℝ, 0 ≤ r → |x| ≤ Real.sqrt (x ^ 2 + r) := by
    intro x r hr
    rw [← Real.sqrt_sq_eq_abs]
    exact Real.sqrt_le_sqrt (by linarith)
  refine ⟨?_, ?_, ?_⟩
  · have := key v.x (v.y ^ 2 + v.z ^ 2) (by positivity)
    rw [← add_assoc] at this
    linarith
  · have := key v.y (v.x ^ 2 + v.z ^ 2) (by positivity)
    rw [show v.y ^ 2 + (v.x ^ 2 + v.z ^ 2) = v.x ^ 2 + v.y ^ 2 + v.z ^ 2 by ring] at this
    linarith
  · have := key v.z (v.x ^ 2 + v.y ^ 2) (by positivity)
    rw [show v.z ^ 2 + (v.x ^ 2 + v.y ^ 2) = v.x ^ 2 + v.y ^ 2 + v.z ^ 2 by ring] at this
    linarith

/-- The velocity given to a node is orthogonal to its magnetization up to rounding: the scalar product is at most `33 ε` times the sum of the
moduli of its two coordinates in the local basis. -/
theorem C88_tangent (hε : 0 ≤ ε) (hε1 : ε ≤ 1 / 1000) (r vp vq dt : ℝ) (a b c : Node) (ha : NearUnit (4 * ε) a.cur.u)
    (hb : SetBasis ε r a b) (hc : MakeEvol ε vp vq dt b c) :
    |c.next.v.x * a.cur.u.x + c.next.v.y * a.cur.u.y + c.next.v.z * a.cur.u.z| ≤ 33 * ε * (|vp| + |vq|) := by
  have ha' := (nearUnit_iff _ _).mp ha
  obtain ⟨e, e1, e2⟩ := setBasis_le hε hε1 ha' hb
  obtain ⟨t1, t2⟩ := setBasis_tangent hε hε1 ha' hb
  have := makeEvol_tangent hε hε1 (by rw [e]; exact ha') e1 e2 (by rw [e]; exact t1) (by rw [e]; exact t2) hc
  rw [e] at this
  exact this

/-- The exact operations (the model of C05 and C37) are among the rounded ones: nothing of the exact model is lost here. -/
theorem C88_exact (hε : 0 ≤ ε) (r vp vq dt : ℝ) (a : Node) :
    SetBasis ε r a (a.setBasis r) ∧ MakeEvol ε vp vq dt a (a.makeEvol vp vq dt) := ⟨SetBasis.refl hε r a, MakeEvol.refl hε vp vq dt a⟩

/-! ### examples -/

/-- a node that turns by one hundredth of a radian or so at each step -/
noncomputable def exNodes : ℕ → Fin 1 → Node
  | 0 => fun _ => ⟨0, 0, 0, ⟨⟨1, 0, 0⟩, 0, 0, 0⟩, ⟨⟨1, 0, 0⟩, 0, 0, 0⟩⟩
  | k + 1 => fun i => (((exNodes k i).setBasis 0).makeEvol (1 / 100 * 1) (0 * 1) 1).evolution

/-- the hypotheses of `C88_unit_length` hold for a run whose node does move -/
example : Run (2⁻¹ ^ 53) 1 (1 / 50) (fun _ => true) exNodes ∧ (∀ i, NearUnit (4 * 2⁻¹ ^ 53) (exNodes 0 i).cur.u) := by
  have hε : (0 : ℝ) ≤ 2⁻¹ ^ 53 := by positivity
  refine ⟨fun k => Or.inl ?_, fun i => ?_⟩
  · refine ⟨0, fun i => (exNodes k i).setBasis 0, fun i => ((exNodes k i).setBasis 0).makeEvol (1 / 100 * 1) (0 * 1) 1, fun _ => (1 / 100, 0), 1,
      1 * (1 * Real.sqrt (1 / 100 * (1 / 100) + 0 * 0)), fun i _ => SetBasis.refl hε 0 _, one_pos, fun i => ?_, ?_, ?_, fun i _ => ⟨rfl, i, rfl, rfl⟩⟩
    · rw [if_pos rfl]
      exact ⟨_, _, Rnd.refl hε _, Rnd.refl hε _, MakeEvol.refl hε _ _ _ _⟩
    · exact ⟨_, _, _, fun i _ => ⟨_, _, _, Rnd.refl hε _, Rnd.refl hε _, Rnd.refl hε _, le_refl _⟩, Rnd.refl hε _, Rnd.refl hε _, Rnd.refl hε _⟩
    · rw [mul_zero, add_zero, Real.sqrt_mul_self (by norm_num)]
      norm_num
  · unfold NearUnit exNodes
    norm_num

/-- a normalization whose result is not of length exactly 1: `4 ε` cannot be replaced by 0 -/
example : ∃ v', Normalize (1 / 1000) ⟨1, 0, 0⟩ v' ∧ ¬ NearUnit 0 v' ∧ NearUnit (4 * (1 / 1000)) v' := by
  refine ⟨⟨1.001, 0, 0⟩, ?_, ?_, ?_⟩
  · refine ⟨1, ⟨⟨1, 0, 0⟩, ?_, 1, Or.inl ⟨?_, ?_⟩⟩, Or.inl ⟨one_pos, 1, ?_, ?_⟩⟩ <;> simp [Rnd3, Rnd] <;> norm_num
  · rw [NearUnit, show ((1.001 : ℝ) ^ 2 + 0 ^ 2 + 0 ^ 2) = 1.001 ^ 2 by norm_num, Real.sqrt_sq (by norm_num)]
    norm_num
  · rw [NearUnit, show ((1.001 : ℝ) ^ 2 + 0 ^ 2 + 0 ^ 2) = 1.001 ^ 2 by norm_num, Real.sqrt_sq (by norm_num)]
    norm_num [abs_le]

end Verif.Rounded
