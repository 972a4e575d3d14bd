import Verif.Spec.Rounded
import Mathlib.Analysis.SpecialFunctions.Trigonometric.Basic

/-! Error analysis of the update of the magnetization. -/

namespace Verif.Rounded

/-! ### lengths -/

theorem nsq_nonneg (a : V3) : 0 ≤ a.nsq := by
  unfold V3.nsq
  nlinarith [mul_self_nonneg a.x, mul_self_nonneg a.y, mul_self_nonneg a.z]

theorem norm_nonneg (a : V3) : 0 ≤ a.norm := Real.sqrt_nonneg _

theorem norm_sq (a : V3) : a.norm ^ 2 = a.nsq := Real.sq_sqrt (nsq_nonneg a)

theorem norm_le {a : V3} {k : ℝ} (hk : 0 ≤ k) (h : a.nsq ≤ k ^ 2) : a.norm ≤ k := by
  rw [← Real.sqrt_sq hk]
  exact Real.sqrt_le_sqrt h

theorem dot_le (a b : V3) : a.dot b ≤ a.norm * b.norm := by
  have h : (a.dot b) ^ 2 ≤ (a.norm * b.norm) ^ 2 := by
    rw [mul_pow, norm_sq, norm_sq]
    unfold V3.dot V3.nsq
    nlinarith [sq_nonneg (a.x * b.y - a.y * b.x), sq_nonneg (a.y * b.z - a.z * b.y), sq_nonneg (a.x * b.z - a.z * b.x)]
  exact (abs_le_of_sq_le_sq' h (mul_nonneg (norm_nonneg a) (norm_nonneg b))).2

theorem norm_add_le' (a b : V3) : (a + b).norm ≤ a.norm + b.norm := by
  refine norm_le (add_nonneg (norm_nonneg a) (norm_nonneg b)) ?_
  have h := dot_le a b
  have e : (a + b).nsq = a.nsq + 2 * a.dot b + b.nsq := by
    simp only [V3.nsq, V3.dot, V3.add_x, V3.add_y, V3.add_z]; ring
  rw [e]
  nlinarith [norm_sq a, norm_sq b]

theorem norm_smul' (k : ℝ) (a : V3) : (k * a : V3).norm = |k| * a.norm := by
  unfold V3.norm
  have e : (k * a : V3).nsq = k ^ 2 * a.nsq := by
    simp only [V3.nsq, V3.smul_x, V3.smul_y, V3.smul_z]; ring
  rw [e, Real.sqrt_mul (sq_nonneg k), Real.sqrt_sq_eq_abs]

theorem norm_neg' (a : V3) : (-a).norm = a.norm := by
  unfold V3.norm V3.nsq
  simp

theorem sub_eq (a b : V3) : a - b = a + -b := by
  ext <;> simp [sub_eq_add_neg]

theorem norm_sub_le' (a b : V3) : (a - b).norm ≤ a.norm + b.norm := by
  rw [sub_eq]
  exact (norm_add_le' _ _).trans (by rw [norm_neg'])

theorem norm_lower (a b : V3) : a.norm - b.norm ≤ (a + b).norm := by
  have h := norm_sub_le' (a + b) b
  have e : a + b - b = a := by ext <;> simp
  rw [e] at h
  linarith

/-! ### one operation -/

theorem Rnd.upper {ε x y : ℝ} (h : Rnd ε x y) (hx : 0 ≤ x) : y ≤ (1 + ε) * x := by
  unfold Rnd at h
  rw [abs_of_nonneg hx] at h
  have := (abs_le.mp h).2
  linarith

theorem Rnd.lower {ε x y : ℝ} (h : Rnd ε x y) (hx : 0 ≤ x) : (1 - ε) * x ≤ y := by
  unfold Rnd at h
  rw [abs_of_nonneg hx] at h
  have := (abs_le.mp h).1
  linarith

theorem Rnd.abs {ε x y : ℝ} (h : Rnd ε x y) : |y| ≤ (1 + ε) * |x| := by
  unfold Rnd at h
  have : |y| ≤ |y - x| + |x| := by
    have := abs_add_le (y - x) x
    rwa [sub_add_cancel] at this
  linarith

theorem Rnd3.sub {ε : ℝ} {u v : V3} (hε : 0 ≤ ε) (h : Rnd3 ε u v) : (v - u).norm ≤ ε * u.norm := by
  refine norm_le (mul_nonneg hε (norm_nonneg u)) ?_
  rw [mul_pow, norm_sq]
  have key : ∀ {x y : ℝ}, Rnd ε x y → (y - x) ^ 2 ≤ ε ^ 2 * x ^ 2 := by
    intro x y h
    have := sq_le_sq' (by linarith [abs_nonneg (y - x), mul_nonneg hε (abs_nonneg x)]) h
    rw [sq_abs, mul_pow, sq_abs] at this
    exact this
  have h1 := key h.1
  have h2 := key h.2.1
  have h3 := key h.2.2
  simp only [V3.nsq, V3.sub_x, V3.sub_y, V3.sub_z]
  nlinarith

theorem Rnd3.upper {ε : ℝ} {u v : V3} (hε : 0 ≤ ε) (h : Rnd3 ε u v) : v.norm ≤ (1 + ε) * u.norm := by
  have h1 := h.sub hε
  have h2 := norm_add_le' (v - u) u
  have e : v - u + u = v := by ext <;> simp
  rw [e] at h2
  linarith

theorem Rnd3.lower {ε : ℝ} {u v : V3} (hε : 0 ≤ ε) (h : Rnd3 ε u v) : (1 - ε) * u.norm ≤ v.norm := by
  have h1 := h.sub hε
  have h2 := norm_lower u (v - u)
  have e : u + (v - u) = v := by ext <;> simp
  rw [e] at h2
  linarith

theorem Sum3.bounds {ε a b c z : ℝ} (hε : 0 ≤ ε) (h1 : ε ≤ 1) (ha : 0 ≤ a) (hb : 0 ≤ b) (hc : 0 ≤ c) (h : Sum3 ε a b c z) :
    (1 - ε) ^ 2 * (a + b + c) ≤ z ∧ z ≤ (1 + ε) ^ 2 * (a + b + c) := by
  have key : ∀ {a b c s z : ℝ}, 0 ≤ a → 0 ≤ b → 0 ≤ c → Rnd ε (a + b) s → Rnd ε (s + c) z →
      (1 - ε) ^ 2 * (a + b + c) ≤ z ∧ z ≤ (1 + ε) ^ 2 * (a + b + c) := by
    intro a b c s z ha hb hc hs hz
    have s1 := hs.lower (by linarith)
    have s2 := hs.upper (by linarith)
    have s0 : 0 ≤ s := le_trans (mul_nonneg (by linarith) (by linarith)) s1
    have z1 := hz.lower (by linarith)
    have z2 := hz.upper (by linarith)
    constructor
    · nlinarith [mul_nonneg (sub_nonneg.mpr h1) (sub_nonneg.mpr s1), mul_nonneg (mul_nonneg hε (sub_nonneg.mpr h1)) hc]
    · nlinarith [mul_nonneg (add_nonneg zero_le_one hε) (sub_nonneg.mpr s2), mul_nonneg (mul_nonneg hε (add_nonneg zero_le_one hε)) hc]
  obtain ⟨s, h | h | h⟩ := h
  · exact key ha hb hc h.1 h.2
  · have h2 := h.2
    rw [add_comm] at h2
    have := key hb hc ha h.1 h2
    rw [show b + c + a = a + b + c by ring] at this
    exact this
  · have := key ha hc hb h.1 h.2
    rw [show a + c + b = a + b + c by ring] at this
    exact this

theorem sqNorm_bounds {ε z : ℝ} {v : V3} (hε : 0 ≤ ε) (h1 : ε ≤ 1) (h : Dot ε v v z) :
    (1 - ε) ^ 3 * v.nsq ≤ z ∧ z ≤ (1 + ε) ^ 3 * v.nsq := by
  obtain ⟨p, ⟨hx, hy, hz⟩, hs⟩ := h
  have lx := hx.lower (mul_self_nonneg _)
  have ly := hy.lower (mul_self_nonneg _)
  have lz := hz.lower (mul_self_nonneg _)
  have ux := hx.upper (mul_self_nonneg _)
  have uy := hy.upper (mul_self_nonneg _)
  have uz := hz.upper (mul_self_nonneg _)
  have p0 : 0 ≤ 1 - ε := by linarith
  have px : 0 ≤ p.x := le_trans (mul_nonneg p0 (mul_self_nonneg _)) lx
  have py : 0 ≤ p.y := le_trans (mul_nonneg p0 (mul_self_nonneg _)) ly
  have pz : 0 ≤ p.z := le_trans (mul_nonneg p0 (mul_self_nonneg _)) lz
  obtain ⟨b1, b2⟩ := hs.bounds hε h1 px py pz
  have e : v.nsq = v.x * v.x + v.y * v.y + v.z * v.z := rfl
  have l : (1 - ε) * v.nsq ≤ p.x + p.y + p.z := by rw [e]; linarith
  have u : p.x + p.y + p.z ≤ (1 + ε) * v.nsq := by rw [e]; linarith
  constructor
  · calc (1 - ε) ^ 3 * v.nsq = (1 - ε) ^ 2 * ((1 - ε) * v.nsq) := by ring
      _ ≤ (1 - ε) ^ 2 * (p.x + p.y + p.z) := mul_le_mul_of_nonneg_left l (sq_nonneg _)
      _ ≤ z := b1
  · calc z ≤ (1 + ε) ^ 2 * (p.x + p.y + p.z) := b2
      _ ≤ (1 + ε) ^ 2 * ((1 + ε) * v.nsq) := mul_le_mul_of_nonneg_left u (sq_nonneg _)
      _ = (1 + ε) ^ 3 * v.nsq := by ring

/-- the result of a normalization has length 1 up to 4 rounding errors -/
theorem normalize_near {ε : ℝ} {v v' : V3} (hε : 0 ≤ ε) (h1 : ε ≤ 1 / 100) (hv : 0 < v.nsq) (h : Normalize ε v v') :
    |v'.norm - 1| ≤ 4 * ε := by
  obtain ⟨z, hz, h⟩ := h
  obtain ⟨z1, z2⟩ := sqNorm_bounds hε (by linarith) hz
  have hN : 0 < v.norm := Real.sqrt_pos.mpr hv
  have hq : v.norm ^ 2 = v.nsq := norm_sq v
  have hz0 : 0 < z := lt_of_lt_of_le (mul_pos (pow_pos (by linarith) 3) hv) z1
  rcases h with ⟨-, r, hr, hu⟩ | ⟨hn, -⟩
  · have r1 := hr.lower (Real.sqrt_nonneg _)
    have r2 := hr.upper (Real.sqrt_nonneg _)
    have s1 : (1 - 3 / 2 * ε) * v.norm ≤ Real.sqrt z := by
      apply Real.le_sqrt_of_sq_le
      refine le_trans ?_ z1
      rw [mul_pow, hq]
      refine mul_le_mul_of_nonneg_right ?_ hv.le
      nlinarith [mul_nonneg hε hε, mul_nonneg (mul_nonneg hε hε) hε]
    have s2 : Real.sqrt z ≤ (1 + 3 / 2 * ε + ε ^ 2) * v.norm := by
      apply Real.sqrt_le_iff.mpr
      refine ⟨mul_nonneg (by positivity) hN.le, le_trans z2 ?_⟩
      rw [mul_pow, hq]
      refine mul_le_mul_of_nonneg_right ?_ hv.le
      nlinarith [mul_nonneg hε hε, mul_nonneg (mul_nonneg hε hε) hε, mul_nonneg (mul_nonneg hε hε) (mul_nonneg hε hε)]
    have t1 : (1 - 5 / 2 * ε) * v.norm ≤ r := by
      refine le_trans ?_ r1
      refine le_trans ?_ (mul_le_mul_of_nonneg_left s1 (by linarith))
      nlinarith [mul_nonneg (mul_nonneg hε hε) hN.le]
    have t2 : r ≤ (1 + 5 / 2 * ε + 4 * ε ^ 2) * v.norm := by
      refine le_trans r2 ?_
      refine le_trans (mul_le_mul_of_nonneg_left s2 (by linarith)) ?_
      have : (1 + ε) * (1 + 3 / 2 * ε + ε ^ 2) ≤ 1 + 5 / 2 * ε + 4 * ε ^ 2 := by
        nlinarith [mul_nonneg hε hε, mul_nonneg (mul_nonneg hε hε) (by linarith : (0 : ℝ) ≤ 1 / 100 - ε)]
      nlinarith
    have r0 : 0 < r := lt_of_lt_of_le (mul_pos (by linarith) hN) t1
    have hw : (⟨v.x / r, v.y / r, v.z / r⟩ : V3) = (1 / r) * v := by
      ext <;> simp [div_eq_inv_mul]
    rw [hw] at hu
    have u1 := hu.lower hε
    have u2 := hu.upper hε
    rw [norm_smul', abs_of_pos (by positivity : 0 < 1 / r)] at u1 u2
    have q1 : 1 / r * v.norm ≤ 1 / (1 - 5 / 2 * ε) := by
      rw [div_mul_eq_mul_div, one_mul, div_le_div_iff₀ r0 (by linarith)]
      linarith
    have q2 : 1 / (1 + 5 / 2 * ε + 4 * ε ^ 2) ≤ 1 / r * v.norm := by
      rw [one_div_mul_eq_div, div_le_div_iff₀ (by positivity) r0]
      linarith
    rw [abs_le]
    constructor
    · have : (1 - 4 * ε) ≤ (1 - ε) * (1 / (1 + 5 / 2 * ε + 4 * ε ^ 2)) := by
        rw [mul_one_div, le_div_iff₀ (by positivity)]
        nlinarith [mul_nonneg hε hε, mul_nonneg (mul_nonneg hε hε) hε]
      have := mul_le_mul_of_nonneg_left q2 (by linarith : (0 : ℝ) ≤ 1 - ε)
      linarith
    · have : (1 + ε) * (1 / (1 - 5 / 2 * ε)) ≤ 1 + 4 * ε := by
        rw [mul_one_div, div_le_iff₀ (by linarith)]
        nlinarith [mul_nonneg hε (by linarith : (0 : ℝ) ≤ 1 / 100 - ε)]
      have := mul_le_mul_of_nonneg_left q1 (by linarith : (0 : ℝ) ≤ 1 + ε)
      linarith
  · exact absurd hz0 hn

theorem normalize_le {ε : ℝ} {v v' : V3} (hε : 0 ≤ ε) (h1 : ε ≤ 1 / 100) (h : Normalize ε v v') : v'.norm ≤ 1 + 4 * ε := by
  rcases (nsq_nonneg v).lt_or_eq with hv | hv
  · have := (abs_le.mp (normalize_near hε h1 hv h)).2
    linarith
  · obtain ⟨z, hz, h⟩ := h
    obtain ⟨-, z2⟩ := sqNorm_bounds hε (by linarith) hz
    rw [← hv, mul_zero] at z2
    rcases h with ⟨h, -⟩ | ⟨-, rfl⟩
    · linarith
    · unfold V3.norm
      rw [← hv, Real.sqrt_zero]
      linarith

theorem Comb.upper {ε a b : ℝ} {u v w : V3} (hε : 0 ≤ ε) (h : Comb ε a u b v w) :
    w.norm ≤ (1 + ε) ^ 2 * (|a| * u.norm + |b| * v.norm) := by
  obtain ⟨p, q, hp, hq, hw⟩ := h
  have p1 := hp.upper hε
  have q1 := hq.upper hε
  have w1 := hw.upper hε
  rw [norm_smul'] at p1 q1
  have t := norm_add_le' p q
  calc w.norm ≤ (1 + ε) * (p + q).norm := w1
    _ ≤ (1 + ε) * (p.norm + q.norm) := mul_le_mul_of_nonneg_left t (by linarith)
    _ ≤ (1 + ε) * ((1 + ε) * (|a| * u.norm) + (1 + ε) * (|b| * v.norm)) := mul_le_mul_of_nonneg_left (add_le_add p1 q1) (by linarith)
    _ = _ := by ring

theorem Cross.upper {ε : ℝ} {u v w : V3} (hε : 0 ≤ ε) (h : Cross ε u v w) :
    w.norm ≤ (1 + ε) * (1 + 2 * ε) * (u.norm * v.norm) := by
  obtain ⟨p, q, hp, hq, hw⟩ := h
  set P : V3 := ⟨u.y * v.z, u.z * v.x, u.x * v.y⟩ with hP
  set Q : V3 := ⟨u.z * v.y, u.x * v.z, u.y * v.x⟩ with hQ
  have huv : 0 ≤ u.norm * v.norm := mul_nonneg (norm_nonneg u) (norm_nonneg v)
  have nP : P.norm ≤ u.norm * v.norm := by
    refine norm_le huv ?_
    rw [mul_pow, norm_sq, norm_sq]
    simp only [V3.nsq, hP]
    nlinarith [sq_nonneg (u.x * v.x), sq_nonneg (u.x * v.y), sq_nonneg (u.x * v.z), sq_nonneg (u.y * v.x), sq_nonneg (u.y * v.y),
      sq_nonneg (u.y * v.z), sq_nonneg (u.z * v.x), sq_nonneg (u.z * v.y), sq_nonneg (u.z * v.z)]
  have nQ : Q.norm ≤ u.norm * v.norm := by
    refine norm_le huv ?_
    rw [mul_pow, norm_sq, norm_sq]
    simp only [V3.nsq, hQ]
    nlinarith [sq_nonneg (u.x * v.x), sq_nonneg (u.x * v.y), sq_nonneg (u.x * v.z), sq_nonneg (u.y * v.x), sq_nonneg (u.y * v.y),
      sq_nonneg (u.y * v.z), sq_nonneg (u.z * v.x), sq_nonneg (u.z * v.y), sq_nonneg (u.z * v.z)]
  have nPQ : (P - Q).norm ≤ u.norm * v.norm := by
    refine norm_le huv ?_
    rw [mul_pow, norm_sq, norm_sq]
    simp only [V3.nsq, hP, hQ, V3.sub_x, V3.sub_y, V3.sub_z]
    nlinarith [sq_nonneg (u.x * v.x + u.y * v.y + u.z * v.z)]
  have p1 := hp.sub hε
  have q1 := hq.sub hε
  have e : p - q = (P - Q) + ((p - P) - (q - Q)) := by
    ext <;> simp only [V3.sub_x, V3.sub_y, V3.sub_z, V3.add_x, V3.add_y, V3.add_z] <;> ring
  have t : (p - q).norm ≤ (1 + 2 * ε) * (u.norm * v.norm) := by
    rw [e]
    have t1 := norm_add_le' (P - Q) ((p - P) - (q - Q))
    have t2 := norm_sub_le' (p - P) (q - Q)
    have := mul_le_mul_of_nonneg_left nP hε
    have := mul_le_mul_of_nonneg_left nQ hε
    linarith
  calc w.norm ≤ (1 + ε) * (p - q).norm := hw.upper hε
    _ ≤ (1 + ε) * ((1 + 2 * ε) * (u.norm * v.norm)) := mul_le_mul_of_nonneg_left t (by linarith)
    _ = _ := by ring

theorem cos_sin_le (r : ℝ) : |Real.cos r| + |Real.sin r| ≤ 1.4143 := by
  have h := Real.sin_sq_add_cos_sq r
  have h2 : (|Real.cos r| + |Real.sin r|) ^ 2 ≤ 2 := by
    have := sq_nonneg (|Real.cos r| - |Real.sin r|)
    nlinarith [sq_abs (Real.cos r), sq_abs (Real.sin r)]
  exact (abs_le_of_sq_le_sq' (le_trans h2 (by norm_num)) (by norm_num)).2

/-- the vectors of the basis are not longer than 1.44 (a crude bound) -/
theorem setBasis_le {ε r : ℝ} {a b : Node} (hε : 0 ≤ ε) (h1 : ε ≤ 1 / 1000) (hu : |a.cur.u.norm - 1| ≤ 4 * ε) (h : SetBasis ε r a b) :
    b.cur = a.cur ∧ b.ep.norm ≤ 1.44 ∧ b.eq.norm ≤ 1.44 := by
  obtain ⟨d, p, t, ep, eq, c, s, ep', eq', -, -, -, hn, hx, hc, hs, h3, h4, rfl⟩ := h
  have n1 := normalize_le hε (by linarith) hn
  have n2 := hx.upper hε
  have u1 : a.cur.u.norm ≤ 1.004 := by have := (abs_le.mp hu).2; linarith
  have e1 : ep.norm ≤ 1.004 := by linarith
  have e2 : eq.norm ≤ 1.0121 := by
    refine le_trans n2 ?_
    have k1 : (1 + ε) * (1 + 2 * ε) ≤ 1.00301 := by nlinarith
    have k2 : a.cur.u.norm * ep.norm ≤ 1.008016 := by
      calc a.cur.u.norm * ep.norm ≤ 1.004 * 1.004 := mul_le_mul u1 e1 (norm_nonneg _) (by norm_num)
        _ = 1.008016 := by norm_num
    calc (1 + ε) * (1 + 2 * ε) * (a.cur.u.norm * ep.norm) ≤ 1.00301 * 1.008016 :=
          mul_le_mul k1 k2 (mul_nonneg (norm_nonneg _) (norm_nonneg _)) (by norm_num)
      _ ≤ 1.0121 := by norm_num
  have c1 := hc.abs
  have s1 := hs.abs
  have cs := cos_sin_le r
  have hcs : |c| + |s| ≤ 1.41572 := by
    have : |c| + |s| ≤ (1 + ε) * (|Real.cos r| + |Real.sin r|) := by linarith
    refine le_trans this ?_
    calc (1 + ε) * (|Real.cos r| + |Real.sin r|) ≤ 1.001 * 1.4143 :=
          mul_le_mul (by linarith) cs (add_nonneg (abs_nonneg _) (abs_nonneg _)) (by norm_num)
      _ ≤ 1.41572 := by norm_num
  have k : (1 + ε) ^ 2 ≤ 1.002002 := by nlinarith
  have fin : ∀ {x y : ℝ} {w : V3}, Comb ε x ep y eq w → |x| + |y| ≤ 1.41572 → w.norm ≤ 1.44 := by
    intro x y w hw hxy
    refine le_trans (hw.upper hε) ?_
    have g : |x| * ep.norm + |y| * eq.norm ≤ 1.41572 * 1.0121 := by
      have g1 := mul_le_mul_of_nonneg_left (le_trans e1 (by norm_num : (1.004 : ℝ) ≤ 1.0121)) (abs_nonneg x)
      have g2 := mul_le_mul_of_nonneg_left e2 (abs_nonneg y)
      nlinarith [abs_nonneg x, abs_nonneg y]
    calc (1 + ε) ^ 2 * (|x| * ep.norm + |y| * eq.norm) ≤ 1.002002 * (1.41572 * 1.0121) :=
          mul_le_mul k g (add_nonneg (mul_nonneg (abs_nonneg _) (norm_nonneg _)) (mul_nonneg (abs_nonneg _) (norm_nonneg _))) (by norm_num)
      _ ≤ 1.44 := by norm_num
  refine ⟨rfl, fin h3 (by rwa [abs_neg]), fin h4 (by linarith)⟩

/-- the velocity of an accepted step is small -/
theorem duMax_le {n : ℕ} {ε gamma0 DUMAX dt dumax : ℝ} {mag : Fin n → Bool} {X : Fin n → ℝ × ℝ} (h1 : ε ≤ 1 / 1000)
    (hg : 0 ≤ gamma0) (hdt : 0 < dt) (hD : DUMAX ≤ 3 / 8) (h : DuMax ε gamma0 mag X dt dumax) (hd : ¬ DUMAX < dumax) {i : Fin n}
    (hi : mag i = true) : dt * (gamma0 * Real.sqrt ((X i).1 ^ 2 + (X i).2 ^ 2)) ≤ 0.378 := by
  obtain ⟨v2max, root, vmax, hv, hr, hm, hdu⟩ := h
  obtain ⟨p, q, v2, hp, hq, h2, hle⟩ := hv i hi
  have p1 := hp.lower (mul_self_nonneg _)
  have q1 := hq.lower (mul_self_nonneg _)
  have pp : 0 ≤ p := le_trans (mul_nonneg (by linarith) (mul_self_nonneg _)) p1
  have qq : 0 ≤ q := le_trans (mul_nonneg (by linarith) (mul_self_nonneg _)) q1
  have s1 := h2.lower (by linarith)
  set S := (X i).1 ^ 2 + (X i).2 ^ 2 with hS
  have S0 : 0 ≤ S := by positivity
  have s2 : (1 - ε) ^ 2 * S ≤ v2max := by
    have : (1 - ε) * S ≤ p + q := by rw [hS]; nlinarith
    have := mul_le_mul_of_nonneg_left this (by linarith : (0 : ℝ) ≤ 1 - ε)
    nlinarith
  have r0 : (1 - ε) * Real.sqrt S ≤ Real.sqrt v2max := by
    apply Real.le_sqrt_of_sq_le
    rw [mul_pow, Real.sq_sqrt S0]
    exact s2
  have r1 := hr.lower (Real.sqrt_nonneg _)
  have root0 : 0 ≤ root := le_trans (mul_nonneg (by linarith) (Real.sqrt_nonneg _)) r1
  have m1 := hm.lower (mul_nonneg hg root0)
  have vm0 : 0 ≤ vmax := le_trans (mul_nonneg (by linarith) (mul_nonneg hg root0)) m1
  have d1 := hdu.lower (mul_nonneg hdt.le vm0)
  have a1 : (1 - ε) ^ 2 * Real.sqrt S ≤ root := by
    have := mul_le_mul_of_nonneg_left r0 (by linarith : (0 : ℝ) ≤ 1 - ε)
    nlinarith
  have a2 : (1 - ε) ^ 3 * (gamma0 * Real.sqrt S) ≤ vmax := by
    have e1 := mul_le_mul_of_nonneg_left a1 hg
    have e2 := mul_le_mul_of_nonneg_left e1 (by linarith : (0 : ℝ) ≤ 1 - ε)
    calc (1 - ε) ^ 3 * (gamma0 * Real.sqrt S) = (1 - ε) * (gamma0 * ((1 - ε) ^ 2 * Real.sqrt S)) := by ring
      _ ≤ (1 - ε) * (gamma0 * root) := e2
      _ ≤ vmax := m1
  have a3 : (1 - ε) ^ 4 * (dt * (gamma0 * Real.sqrt S)) ≤ dumax := by
    have e1 := mul_le_mul_of_nonneg_left a2 hdt.le
    have e2 := mul_le_mul_of_nonneg_left e1 (by linarith : (0 : ℝ) ≤ 1 - ε)
    calc (1 - ε) ^ 4 * (dt * (gamma0 * Real.sqrt S)) = (1 - ε) * (dt * ((1 - ε) ^ 3 * (gamma0 * Real.sqrt S))) := by ring
      _ ≤ (1 - ε) * (dt * vmax) := e2
      _ ≤ dumax := d1
  have hk : (0.996 : ℝ) ≤ (1 - ε) ^ 4 := by
    have h0 : (0.999 : ℝ) ≤ 1 - ε := by linarith
    calc (0.996 : ℝ) ≤ 0.999 ^ 4 := by norm_num
      _ ≤ (1 - ε) ^ 4 := pow_le_pow_left₀ (by norm_num) h0 4
  have hx0 : 0 ≤ dt * (gamma0 * Real.sqrt S) := mul_nonneg hdt.le (mul_nonneg hg (Real.sqrt_nonneg _))
  have := mul_le_mul_of_nonneg_right hk hx0
  have hd' := not_lt.mp hd
  linarith

/-- the step of one node -/
theorem makeEvol_near {ε gamma0 x y vp vq dt : ℝ} {a b : Node} (hε : 0 ≤ ε) (h1 : ε ≤ 1 / 1000) (hg : 0 ≤ gamma0) (hdt : 0 < dt)
    (hu : |a.cur.u.norm - 1| ≤ 4 * ε) (hp : a.ep.norm ≤ 1.44) (hq : a.eq.norm ≤ 1.44) (hvp : Rnd ε (x * gamma0) vp)
    (hvq : Rnd ε (y * gamma0) vq) (hdu : dt * (gamma0 * Real.sqrt (x ^ 2 + y ^ 2)) ≤ 0.378) (h : MakeEvol ε vp vq dt a b) :
    |b.next.u.norm - 1| ≤ 4 * ε := by
  obtain ⟨v, w, m, u, hv, hw, hm, hn, rfl⟩ := h
  refine normalize_near hε (by linarith) ?_ hn
  set S := Real.sqrt (x ^ 2 + y ^ 2) with hS
  have S2 : S ^ 2 = x ^ 2 + y ^ 2 := Real.sq_sqrt (by positivity)
  have S0 : 0 ≤ S := Real.sqrt_nonneg _
  have xy : |x| + |y| ≤ 1.4143 * S := by
    have : (|x| + |y|) ^ 2 ≤ (1.4143 * S) ^ 2 := by
      rw [mul_pow, S2]
      nlinarith [sq_nonneg (|x| - |y|), sq_abs x, sq_abs y, sq_nonneg x, sq_nonneg y]
    exact (abs_le_of_sq_le_sq' this (by positivity)).2
  have b1 := hvp.abs
  have b2 := hvq.abs
  rw [abs_mul, abs_of_nonneg hg] at b1 b2
  have hvv : |vp| + |vq| ≤ 1.001 * (1.4143 * (gamma0 * S)) := by
    have : |vp| + |vq| ≤ (1 + ε) * ((|x| + |y|) * gamma0) := by linarith
    refine le_trans this ?_
    have g := mul_le_mul_of_nonneg_right xy hg
    calc (1 + ε) * ((|x| + |y|) * gamma0) ≤ 1.001 * (1.4143 * S * gamma0) :=
          mul_le_mul (by linarith) g (mul_nonneg (add_nonneg (abs_nonneg _) (abs_nonneg _)) hg) (by norm_num)
      _ = _ := by ring
  have nv : v.norm ≤ 2.05 * (gamma0 * S) := by
    refine le_trans (hv.upper hε) ?_
    have k : (1 + ε) ^ 2 ≤ 1.002002 := by nlinarith
    have g : |vp| * a.ep.norm + |vq| * a.eq.norm ≤ 1.44 * (|vp| + |vq|) := by
      have g1 := mul_le_mul_of_nonneg_left hp (abs_nonneg vp)
      have g2 := mul_le_mul_of_nonneg_left hq (abs_nonneg vq)
      linarith
    have gS : 0 ≤ gamma0 * S := mul_nonneg hg S0
    calc (1 + ε) ^ 2 * (|vp| * a.ep.norm + |vq| * a.eq.norm) ≤ 1.002002 * (1.44 * (1.001 * (1.4143 * (gamma0 * S)))) :=
          mul_le_mul k (le_trans g (mul_le_mul_of_nonneg_left hvv (by norm_num)))
            (add_nonneg (mul_nonneg (abs_nonneg _) (norm_nonneg _)) (mul_nonneg (abs_nonneg _) (norm_nonneg _))) (by norm_num)
      _ ≤ 2.05 * (gamma0 * S) := by nlinarith
  have nw : w.norm ≤ 0.78 := by
    have w1 := hw.upper hε
    rw [norm_smul', abs_of_pos hdt] at w1
    have g := mul_le_mul_of_nonneg_left nv hdt.le
    have g2 : dt * v.norm ≤ 0.7749 := by nlinarith
    have g0 : 0 ≤ dt * v.norm := mul_nonneg hdt.le (norm_nonneg _)
    nlinarith
  have nm := norm_lower a.cur.u w
  have nu := (abs_le.mp hu).1
  have m1 := hm.lower hε
  have : 0 < m.norm := by nlinarith
  rw [← norm_sq m]
  positivity

theorem nearUnit_iff (δ : ℝ) (v : V3) : NearUnit δ v ↔ |v.norm - 1| ≤ δ := by
  unfold NearUnit V3.norm V3.nsq
  rw [show v.x ^ 2 + v.y ^ 2 + v.z ^ 2 = v.x * v.x + v.y * v.y + v.z * v.z by ring]

theorem nsq_pos {v : V3} (h : v ≠ 0) : 0 < v.nsq := by
  rcases (nsq_nonneg v).lt_or_eq with h' | h'
  · exact h'
  · exfalso
    apply h
    have e : v.x * v.x + v.y * v.y + v.z * v.z = 0 := h'.symm
    have hx := mul_self_nonneg v.x
    have hy := mul_self_nonneg v.y
    have hz := mul_self_nonneg v.z
    ext
    · exact mul_self_eq_zero.mp (by linarith)
    · exact mul_self_eq_zero.mp (by linarith)
    · exact mul_self_eq_zero.mp (by linarith)

theorem rejected_cur {n : ℕ} {ε gamma0 : ℝ} {mag : Fin n → Bool} {a b : Fin n → Node} (h : Rejected ε gamma0 mag a b) {i : Fin n}
    (hi : mag i = true) : (b i).cur = (a i).cur := by
  obtain ⟨r, c, hc, h⟩ := h
  have e : (c i).cur = (a i).cur := by
    obtain ⟨d, p, t, ep, eq, cc, s, ep', eq', -, -, -, -, -, -, -, -, -, hh⟩ := hc i hi
    rw [hh]
  rcases h with rfl | ⟨X, dt, hu⟩
  · exact e
  · have hui := hu i
    rw [if_pos hi] at hui
    obtain ⟨vp, vq, -, -, v, w, m, u, -, -, -, -, hh⟩ := hui
    rw [hh]
    exact e

/-! ### the exact operations are among the rounded ones -/

theorem Rnd.refl {ε : ℝ} (hε : 0 ≤ ε) (x : ℝ) : Rnd ε x x := by
  unfold Rnd
  rw [sub_self, abs_zero]
  exact mul_nonneg hε (abs_nonneg _)

theorem Rnd3.refl {ε : ℝ} (hε : 0 ≤ ε) (v : V3) : Rnd3 ε v v := ⟨Rnd.refl hε _, Rnd.refl hε _, Rnd.refl hε _⟩

theorem Dot.refl {ε : ℝ} (hε : 0 ≤ ε) (u v : V3) : Dot ε u v (u.dot v) :=
  ⟨_, Rnd3.refl hε _, _, Or.inl ⟨Rnd.refl hε _, Rnd.refl hε _⟩⟩

theorem Comb.refl {ε : ℝ} (hε : 0 ≤ ε) (a : ℝ) (u : V3) (b : ℝ) (v : V3) : Comb ε a u b v (a * u + b * v) :=
  ⟨_, _, Rnd3.refl hε _, Rnd3.refl hε _, Rnd3.refl hε _⟩

theorem Cross.refl {ε : ℝ} (hε : 0 ≤ ε) (u v : V3) : Cross ε u v (u.cross v) :=
  ⟨_, _, Rnd3.refl hε _, Rnd3.refl hε _, Rnd3.refl hε _⟩

theorem Normalize.refl {ε : ℝ} (hε : 0 ≤ ε) (v : V3) : Normalize ε v v.normalize := by
  refine ⟨_, Dot.refl hε v v, ?_⟩
  by_cases h : 0 < v.nsq
  · refine Or.inl ⟨h, _, Rnd.refl hε _, ?_⟩
    have : v.normalize = ⟨v.x / Real.sqrt (v.dot v), v.y / Real.sqrt (v.dot v), v.z / Real.sqrt (v.dot v)⟩ := by
      unfold V3.normalize
      rw [if_pos h]
      ext <;> simp [V3.nsq, V3.dot, div_eq_inv_mul]
    rw [this]
    exact Rnd3.refl hε _
  · refine Or.inr ⟨h, ?_⟩
    unfold V3.normalize
    rw [if_neg h]

theorem SetBasis.refl {ε : ℝ} (hε : 0 ≤ ε) (r : ℝ) (a : Node) : SetBasis ε r a (a.setBasis r) := by
  have e : ∀ (x y : ℝ) (u v : V3), x * u - y * v = x * u + (-y) * v := by
    intro x y u v
    ext <;> simp [sub_eq_add_neg]
  have h := Comb.refl hε (Real.cos r) (Node.basisEp a.cur.u) (-Real.sin r) (a.cur.u.cross (Node.basisEp a.cur.u))
  rw [← e] at h
  exact ⟨_, _, _, _, _, _, _, _, _, Dot.refl hε _ _, Rnd3.refl hε _, Rnd3.refl hε _, Normalize.refl hε _, Cross.refl hε _ _,
    Rnd.refl hε _, Rnd.refl hε _, h, Comb.refl hε _ _ _ _, rfl⟩

theorem MakeEvol.refl {ε : ℝ} (hε : 0 ≤ ε) (vp vq dt : ℝ) (a : Node) : MakeEvol ε vp vq dt a (a.makeEvol vp vq dt) :=
  ⟨_, _, _, _, Comb.refl hε _ _ _ _, Rnd3.refl hε _, Rnd3.refl hε _, Normalize.refl hε _, rfl⟩

/-! ### the velocity is tangent -/

theorem abs_dot_le (a b : V3) : |a.dot b| ≤ a.norm * b.norm := by
  rw [abs_le]
  refine ⟨?_, dot_le a b⟩
  have h := dot_le (-a) b
  rw [norm_neg'] at h
  have e : (-a).dot b = -(a.dot b) := by simp only [V3.dot, V3.neg_x, V3.neg_y, V3.neg_z]; ring
  rw [e] at h
  linarith

theorem dot_add (a b u : V3) : (a + b).dot u = a.dot u + b.dot u := by
  simp only [V3.dot, V3.add_x, V3.add_y, V3.add_z]; ring

theorem dot_sub (a b u : V3) : (a - b).dot u = a.dot u - b.dot u := by
  simp only [V3.dot, V3.sub_x, V3.sub_y, V3.sub_z]; ring

theorem dot_smul (k : ℝ) (a u : V3) : (k * a : V3).dot u = k * a.dot u := by
  simp only [V3.dot, V3.smul_x, V3.smul_y, V3.smul_z]; ring

/-- what is added to the scalar product with `u` by an error -/
theorem near_dot {a b u : V3} {k U : ℝ} (h : (b - a).norm ≤ k) (hu : u.norm ≤ U) (hk : 0 ≤ k) : |b.dot u - a.dot u| ≤ k * U := by
  rw [← dot_sub]
  exact (abs_dot_le _ _).trans (mul_le_mul h hu (norm_nonneg _) hk)

theorem Sum3.near {ε a b c z : ℝ} (hε : 0 ≤ ε) (h : Sum3 ε a b c z) :
    |z - (a + b + c)| ≤ (2 * ε + ε ^ 2) * (|a| + |b| + |c|) := by
  have key : ∀ {a b c s z : ℝ}, Rnd ε (a + b) s → Rnd ε (s + c) z → |z - (a + b + c)| ≤ (2 * ε + ε ^ 2) * (|a| + |b| + |c|) := by
    intro a b c s z hs hz
    have s2 := hs.abs
    unfold Rnd at hs hz
    have ab := abs_add_le a b
    have sc := abs_add_le s c
    have e : z - (a + b + c) = (z - (s + c)) + (s - (a + b)) := by ring
    rw [e]
    refine (abs_add_le _ _).trans ?_
    have t1 := mul_le_mul_of_nonneg_left sc hε
    have t2 := mul_le_mul_of_nonneg_left ab hε
    have t3 := mul_le_mul_of_nonneg_left (s2.trans (mul_le_mul_of_nonneg_left ab (by linarith))) hε
    nlinarith [mul_nonneg hε (abs_nonneg c), mul_nonneg (sq_nonneg ε) (abs_nonneg c)]
  obtain ⟨s, h | h | h⟩ := h
  · exact key h.1 h.2
  · have h2 := h.2
    rw [add_comm] at h2
    have := key h.1 h2
    rw [show b + c + a = a + b + c by ring, show |b| + |c| + |a| = |a| + |b| + |c| by ring] at this
    exact this
  · have := key h.1 h.2
    rw [show a + c + b = a + b + c by ring, show |a| + |c| + |b| = |a| + |b| + |c| by ring] at this
    exact this

theorem Dot.near {ε z : ℝ} {u v : V3} (hε : 0 ≤ ε) (h1 : ε ≤ 1 / 1000) (h : Dot ε u v z) :
    |z - u.dot v| ≤ 3.01 * ε * (|u.x * v.x| + |u.y * v.y| + |u.z * v.z|) := by
  obtain ⟨p, ⟨hx, hy, hz⟩, hs⟩ := h
  have n := hs.near hε
  have ax := hx.abs
  have ay := hy.abs
  have az := hz.abs
  unfold Rnd at hx hy hz
  dsimp only at hx hy hz ax ay az
  set M := |u.x * v.x| + |u.y * v.y| + |u.z * v.z| with hM
  have M0 : 0 ≤ M := by positivity
  have e : z - u.dot v = (z - (p.x + p.y + p.z)) + ((p.x - u.x * v.x) + (p.y - u.y * v.y) + (p.z - u.z * v.z)) := by
    simp only [V3.dot]; ring
  rw [e]
  refine (abs_add_le _ _).trans ?_
  have t1 : |(p.x - u.x * v.x) + (p.y - u.y * v.y) + (p.z - u.z * v.z)| ≤ ε * M := by
    refine (abs_add_three _ _ _).trans ?_
    rw [hM]; linarith
  have t2 : |p.x| + |p.y| + |p.z| ≤ (1 + ε) * M := by rw [hM]; linarith
  have t3 : (2 * ε + ε ^ 2) * (|p.x| + |p.y| + |p.z|) ≤ (2 * ε + ε ^ 2) * ((1 + ε) * M) := mul_le_mul_of_nonneg_left t2 (by positivity)
  have t4 : (2 * ε + ε ^ 2) * (1 + ε) + ε ≤ 3.01 * ε := by nlinarith [mul_nonneg hε hε, mul_nonneg (mul_nonneg hε hε) (sub_nonneg.mpr h1)]
  nlinarith [mul_le_mul_of_nonneg_right t4 M0]

theorem Comb.near {ε a b : ℝ} {u v w : V3} (hε : 0 ≤ ε) (h : Comb ε a u b v w) :
    (w - (a * u + b * v)).norm ≤ (2 * ε + ε ^ 2) * (|a| * u.norm + |b| * v.norm) := by
  obtain ⟨p, q, hp, hq, hw⟩ := h
  have p1 := hp.sub hε
  have q1 := hq.sub hε
  have w1 := hw.sub hε
  have p2 := hp.upper hε
  have q2 := hq.upper hε
  rw [norm_smul'] at p1 q1 p2 q2
  have t := norm_add_le' p q
  have e : w - (a * u + b * v) = (w - (p + q)) + ((p - a * u) + (q - b * v)) := by
    ext <;> simp only [V3.sub_x, V3.sub_y, V3.sub_z, V3.add_x, V3.add_y, V3.add_z] <;> ring
  rw [e]
  have t1 := norm_add_le' (w - (p + q)) ((p - a * u) + (q - b * v))
  have t2 := norm_add_le' (p - a * u) (q - b * v)
  have t3 := mul_le_mul_of_nonneg_left (t.trans (add_le_add p2 q2)) hε
  nlinarith

theorem Cross.near {ε : ℝ} {u v w : V3} (hε : 0 ≤ ε) (h : Cross ε u v w) :
    (w - u.cross v).norm ≤ (3 * ε + 2 * ε ^ 2) * (u.norm * v.norm) := by
  obtain ⟨p, q, hp, hq, hw⟩ := h
  set P : V3 := ⟨u.y * v.z, u.z * v.x, u.x * v.y⟩ with hP
  set Q : V3 := ⟨u.z * v.y, u.x * v.z, u.y * v.x⟩ with hQ
  have huv : 0 ≤ u.norm * v.norm := mul_nonneg (norm_nonneg u) (norm_nonneg v)
  have nP : P.norm ≤ u.norm * v.norm := by
    refine norm_le huv ?_
    rw [mul_pow, norm_sq, norm_sq]
    simp only [V3.nsq, hP]
    nlinarith [sq_nonneg (u.x * v.x), sq_nonneg (u.x * v.y), sq_nonneg (u.x * v.z), sq_nonneg (u.y * v.x), sq_nonneg (u.y * v.y),
      sq_nonneg (u.y * v.z), sq_nonneg (u.z * v.x), sq_nonneg (u.z * v.y), sq_nonneg (u.z * v.z)]
  have nQ : Q.norm ≤ u.norm * v.norm := by
    refine norm_le huv ?_
    rw [mul_pow, norm_sq, norm_sq]
    simp only [V3.nsq, hQ]
    nlinarith [sq_nonneg (u.x * v.x), sq_nonneg (u.x * v.y), sq_nonneg (u.x * v.z), sq_nonneg (u.y * v.x), sq_nonneg (u.y * v.y),
      sq_nonneg (u.y * v.z), sq_nonneg (u.z * v.x), sq_nonneg (u.z * v.y), sq_nonneg (u.z * v.z)]
  have nPQ : (P - Q).norm ≤ u.norm * v.norm := by
    refine norm_le huv ?_
    rw [mul_pow, norm_sq, norm_sq]
    simp only [V3.nsq, hP, hQ, V3.sub_x, V3.sub_y, V3.sub_z]
    nlinarith [sq_nonneg (u.x * v.x + u.y * v.y + u.z * v.z)]
  have eX : u.cross v = P - Q := by
    ext <;> simp only [V3.cross, hP, hQ, V3.sub_x, V3.sub_y, V3.sub_z]
  have p1 := (hp.sub hε).trans (mul_le_mul_of_nonneg_left nP hε)
  have q1 := (hq.sub hε).trans (mul_le_mul_of_nonneg_left nQ hε)
  have t2 := norm_sub_le' (p - P) (q - Q)
  have e : p - q = (P - Q) + ((p - P) - (q - Q)) := by
    ext <;> simp only [V3.sub_x, V3.sub_y, V3.sub_z, V3.add_x, V3.add_y, V3.add_z] <;> ring
  have t1 := norm_add_le' (P - Q) ((p - P) - (q - Q))
  rw [← e] at t1
  have w1 := hw.sub hε
  have e2 : w - (P - Q) = (w - (p - q)) + ((p - P) - (q - Q)) := by
    ext <;> simp only [V3.sub_x, V3.sub_y, V3.sub_z, V3.add_x, V3.add_y, V3.add_z] <;> ring
  have t3 := norm_add_le' (w - (p - q)) ((p - P) - (q - Q))
  rw [eX, e2]
  have t4 := mul_le_mul_of_nonneg_left (t1.trans (add_le_add nPQ (t2.trans (add_le_add p1 q1)))) hε
  nlinarith

/-- the component of smallest modulus -/
theorem minIdx_sq (u : V3) : 3 * ((V3.unit (Node.minIdx u)).dot u) ^ 2 ≤ u.nsq := by
  unfold Node.minIdx V3.nsq
  split_ifs with h h'
  · have h1 := sq_le_sq.mpr h.1
    have h2 := sq_le_sq.mpr h.2
    simp only [V3.unit, V3.dot]
    norm_num
    nlinarith
  · have h2 := sq_le_sq.mpr h'
    have h1 : u.y ^ 2 ≤ u.x ^ 2 := by
      apply sq_le_sq.mpr
      by_contra hc
      exact h ⟨(not_le.mp hc).le, (not_le.mp hc).le.trans h'⟩
    simp only [V3.unit, V3.dot]
    norm_num
    nlinarith
  · have h2 := sq_le_sq.mpr (not_le.mp h').le
    have h1 : u.z ^ 2 ≤ u.x ^ 2 := by
      apply sq_le_sq.mpr
      by_contra hc
      exact h ⟨((not_le.mp hc).trans (not_le.mp h')).le, (not_le.mp hc).le⟩
    simp only [V3.unit, V3.dot]
    norm_num
    nlinarith

theorem unit_terms (i : Fin 3) (u : V3) :
    |(V3.unit i).x * u.x| + |(V3.unit i).y * u.y| + |(V3.unit i).z * u.z| = |(V3.unit i).dot u| ∧ (V3.unit i).dot (V3.unit i) = 1 ∧
      (V3.unit i).norm = 1 := by
  fin_cases i <;> simp [V3.unit, V3.dot, V3.norm, V3.nsq]

theorem dot_comm (a b : V3) : a.dot b = b.dot a := by simp only [V3.dot]; ring

theorem normalize_tangent {ε k : ℝ} {t v u : V3} (hε : 0 ≤ ε) (h1 : ε ≤ 1 / 1000) (hu : u.norm ≤ 1.004) (ht : 0.65 ≤ t.norm)
    (hk : |t.dot u| ≤ k * ε) (h : Normalize ε t v) : |v.dot u| ≤ (1.55 * k + 1.01) * ε := by
  obtain ⟨z, hz, h⟩ := h
  obtain ⟨z1, z2⟩ := sqNorm_bounds hε (by linarith) hz
  have hN : 0 < t.norm := by linarith
  have hq : t.norm ^ 2 = t.nsq := norm_sq t
  have hv : 0 < t.nsq := by rw [← hq]; positivity
  have hz0 : 0 < z := lt_of_lt_of_le (mul_pos (pow_pos (by linarith) 3) hv) z1
  rcases h with ⟨-, r, hr, hw⟩ | ⟨hn, -⟩
  · have r1 := hr.lower (Real.sqrt_nonneg _)
    have s1 : (1 - 3 / 2 * ε) * t.norm ≤ Real.sqrt z := by
      apply Real.le_sqrt_of_sq_le
      refine le_trans ?_ z1
      rw [mul_pow, hq]
      refine mul_le_mul_of_nonneg_right ?_ hv.le
      nlinarith [mul_nonneg hε hε, mul_nonneg (mul_nonneg hε hε) hε]
    have t1 : (1 - 5 / 2 * ε) * t.norm ≤ r := by
      refine le_trans ?_ r1
      refine le_trans ?_ (mul_le_mul_of_nonneg_left s1 (by linarith))
      nlinarith [mul_nonneg (mul_nonneg hε hε) hN.le]
    have t2 : 0.997 * t.norm ≤ r := le_trans (mul_le_mul_of_nonneg_right (by linarith) hN.le) t1
    have r0 : 0 < r := by linarith
    have hwe : (⟨t.x / r, t.y / r, t.z / r⟩ : V3) = (1 / r) * t := by
      ext <;> simp [div_eq_inv_mul]
    rw [hwe] at hw
    have w1 := hw.sub hε
    rw [norm_smul', abs_of_pos (by positivity : 0 < 1 / r)] at w1
    have q1 : 1 / r * t.norm ≤ 1.0031 := by
      rw [one_div_mul_eq_div, div_le_iff₀ r0]
      linarith
    have w2 : (v - 1 / r * t).norm ≤ 1.0031 * ε := by
      have := mul_le_mul_of_nonneg_left q1 hε
      linarith
    have d1 := near_dot w2 hu (by positivity)
    rw [dot_smul] at d1
    have d2 : |1 / r * t.dot u| ≤ 1.55 * (k * ε) := by
      rw [abs_mul, abs_of_pos (by positivity : 0 < 1 / r)]
      refine mul_le_mul ?_ hk (abs_nonneg _) (by norm_num)
      rw [div_le_iff₀ r0]
      linarith
    have := abs_add_le (v.dot u - 1 / r * t.dot u) (1 / r * t.dot u)
    rw [sub_add_cancel] at this
    linarith
  · exact absurd hz0 hn

theorem ep_tangent {ε d : ℝ} {u p t ep : V3} (hε : 0 ≤ ε) (h1 : ε ≤ 1 / 1000) (hu : |u.norm - 1| ≤ 4 * ε)
    (hd : Dot ε (V3.unit (Node.minIdx u)) u d) (hp : Rnd3 ε (d * u) p) (ht : Rnd3 ε (V3.unit (Node.minIdx u) - p) t)
    (hn : Normalize ε t ep) : |ep.dot u| ≤ 14.5 * ε := by
  set e := V3.unit (Node.minIdx u) with he
  have U1 : u.norm ≤ 1.004 := by have := (abs_le.mp hu).2; linarith
  have U0 : 0.996 ≤ u.norm := by have := (abs_le.mp hu).1; linarith
  obtain ⟨ue1, ue2, ue3⟩ := unit_terms (Node.minIdx u) u
  rw [← he] at ue1 ue2 ue3
  have hm := minIdx_sq u
  rw [← he, ← norm_sq u] at hm
  set m := e.dot u with hmdef
  have m2 : m ^ 2 ≤ 0.337 := by nlinarith [norm_nonneg u]
  have m1 : |m| ≤ 0.581 := abs_le_of_sq_le_sq (by nlinarith) (by norm_num)
  have m0 := abs_nonneg m
  -- the scalar product
  have d1 := hd.near hε h1
  rw [ue1] at d1
  have d2 : |d - m| ≤ 1.75 * ε := by
    have := mul_le_mul_of_nonneg_left m1 (by positivity : 0 ≤ 3.01 * ε)
    linarith
  have d3 : |d| ≤ 0.583 := by
    have := abs_add_le (d - m) m
    rw [sub_add_cancel] at this
    linarith
  -- the projection
  have p1 := hp.sub hε
  rw [norm_smul'] at p1
  have du : |d| * u.norm ≤ 0.586 := by
    calc |d| * u.norm ≤ 0.583 * 1.004 := mul_le_mul d3 U1 (norm_nonneg _) (by norm_num)
      _ ≤ 0.586 := by norm_num
  have p2 : (p - d * u).norm ≤ 0.586 * ε := by
    have := mul_le_mul_of_nonneg_left du hε
    linarith
  have p3 : p.norm ≤ 0.587 := by
    have := norm_add_le' (p - d * u) (d * u)
    rw [norm_smul', show p - d * u + d * u = p by ext <;> simp] at this
    linarith
  have t1 := ht.sub hε
  have t2 : (e - p).norm ≤ 1.587 := by
    have := norm_sub_le' e p
    linarith
  have t3 : (t - (e - p)).norm ≤ 1.587 * ε := by
    have := mul_le_mul_of_nonneg_left t2 hε
    linarith
  have t4 : (t - (e - d * u)).norm ≤ 2.173 * ε := by
    have h := norm_sub_le' (t - (e - p)) (p - d * u)
    have e0 : t - (e - d * u) = (t - (e - p)) - (p - d * u) := by
      ext <;> simp only [V3.sub_x, V3.sub_y, V3.sub_z] <;> ring
    rw [← e0] at h
    linarith
  have uu : u.dot u = u.norm ^ 2 := by rw [norm_sq]; rfl
  have nuu : |1 - u.norm ^ 2| ≤ 8.02 * ε := by
    have e0 : 1 - u.norm ^ 2 = -((u.norm - 1) * (u.norm + 1)) := by ring
    rw [e0, abs_neg, abs_mul, abs_of_nonneg (by linarith : (0 : ℝ) ≤ u.norm + 1)]
    calc |u.norm - 1| * (u.norm + 1) ≤ 4 * ε * 2.004 := mul_le_mul hu (by linarith) (by linarith) (by positivity)
      _ ≤ 8.02 * ε := by linarith
  -- t is tangent
  have tu : |t.dot u| ≤ 8.7 * ε := by
    have n1 := near_dot t4 U1 (by positivity)
    rw [dot_sub, dot_smul, uu, ← hmdef] at n1
    have e0 : m - d * u.norm ^ 2 = m * (1 - u.norm ^ 2) + (m - d) * u.norm ^ 2 := by ring
    have n2 : |m * (1 - u.norm ^ 2)| ≤ 4.67 * ε := by
      rw [abs_mul]
      calc |m| * |1 - u.norm ^ 2| ≤ 0.581 * (8.02 * ε) := mul_le_mul m1 nuu (abs_nonneg _) (by norm_num)
        _ ≤ 4.67 * ε := by linarith
    have n3 : |(m - d) * u.norm ^ 2| ≤ 1.77 * ε := by
      rw [abs_mul, abs_sub_comm, abs_of_nonneg (sq_nonneg u.norm)]
      calc |d - m| * u.norm ^ 2 ≤ 1.75 * ε * 1.0081 := mul_le_mul d2 (by nlinarith) (sq_nonneg _) (by positivity)
        _ ≤ 1.77 * ε := by linarith
    have n4 := abs_add_le (m * (1 - u.norm ^ 2)) ((m - d) * u.norm ^ 2)
    rw [← e0] at n4
    have n5 := abs_add_le (t.dot u - (m - d * u.norm ^ 2)) (m - d * u.norm ^ 2)
    rw [sub_add_cancel] at n5
    linarith
  -- t is not short
  have tn : 0.65 ≤ t.norm := by
    have k1 := dot_le (e - d * u) e
    rw [ue3, mul_one, dot_sub, ue2, dot_smul, dot_comm u e, ← hmdef] at k1
    have k2 : d * m ≤ 0.34 := by
      have := abs_mul d m
      have k3 : |d| * |m| ≤ 0.583 * 0.581 := mul_le_mul d3 m1 m0 (by norm_num)
      linarith [le_abs_self (d * m)]
    have k3 := norm_lower (e - d * u) (t - (e - d * u))
    rw [show e - d * u + (t - (e - d * u)) = t by ext <;> simp] at k3
    linarith
  have q1 := normalize_tangent hε h1 U1 tn tu hn
  linarith

theorem comb_tangent {ε x y : ℝ} {u ep eq w : V3} (hε : 0 ≤ ε) (h1 : ε ≤ 1 / 1000) (U1 : u.norm ≤ 1.004) (e1 : ep.norm ≤ 1.004)
    (e2 : eq.norm ≤ 1.0121) (q1' : |ep.dot u| ≤ 14.5 * ε) (q2 : |eq.dot u| ≤ 3.1 * ε) (hw : Comb ε x ep y eq w) (hx : |x| ≤ 1.001)
    (hy : |y| ≤ 1.001) : |w.dot u| ≤ 30 * ε := by
  have g : |x| * ep.norm + |y| * eq.norm ≤ 2.03 := by
    have g1 : |x| * ep.norm ≤ 1.001 * 1.004 := mul_le_mul hx e1 (norm_nonneg _) (by norm_num)
    have g2 : |y| * eq.norm ≤ 1.001 * 1.0121 := mul_le_mul hy e2 (norm_nonneg _) (by norm_num)
    linarith
  have n0 : (w - (x * ep + y * eq)).norm ≤ 4.1 * ε := by
    refine (hw.near hε).trans ?_
    have k1 : 2 * ε + ε ^ 2 ≤ 2.001 * ε := by nlinarith
    calc (2 * ε + ε ^ 2) * (|x| * ep.norm + |y| * eq.norm) ≤ 2.001 * ε * 2.03 :=
          mul_le_mul k1 g (add_nonneg (mul_nonneg (abs_nonneg _) (norm_nonneg _)) (mul_nonneg (abs_nonneg _) (norm_nonneg _)))
            (by positivity)
      _ ≤ 4.1 * ε := by linarith
  have n1 := near_dot n0 U1 (by positivity)
  rw [dot_add, dot_smul, dot_smul] at n1
  have n2 : |x * ep.dot u| ≤ 1.001 * (14.5 * ε) := by
    rw [abs_mul]; exact mul_le_mul hx q1' (abs_nonneg _) (by norm_num)
  have n3 : |y * eq.dot u| ≤ 1.001 * (3.1 * ε) := by
    rw [abs_mul]; exact mul_le_mul hy q2 (abs_nonneg _) (by norm_num)
  have n4 := abs_add_le (x * ep.dot u) (y * eq.dot u)
  have n5 := abs_add_le (w.dot u - (x * ep.dot u + y * eq.dot u)) (x * ep.dot u + y * eq.dot u)
  rw [sub_add_cancel] at n5
  linarith

theorem setBasis_tangent {ε r : ℝ} {a b : Node} (hε : 0 ≤ ε) (h1 : ε ≤ 1 / 1000) (hu : |a.cur.u.norm - 1| ≤ 4 * ε)
    (h : SetBasis ε r a b) : |b.ep.dot a.cur.u| ≤ 30 * ε ∧ |b.eq.dot a.cur.u| ≤ 30 * ε := by
  obtain ⟨d, p, t, ep, eq, c, s, ep', eq', hd, hp, ht, hn, hx, hc, hs, h3, h4, rfl⟩ := h
  have q1' := ep_tangent hε h1 hu hd hp ht hn
  clear hd hp ht
  set u := a.cur.u with hudef
  have U1 : u.norm ≤ 1.004 := by have := (abs_le.mp hu).2; linarith
  have e1 : ep.norm ≤ 1.004 := by have := normalize_le hε (by linarith) hn; linarith
  have x1 := hx.near hε
  have x2 : (eq - u.cross ep).norm ≤ 3.05 * ε := by
    refine x1.trans ?_
    have k2 : u.norm * ep.norm ≤ 1.008016 := by
      calc u.norm * ep.norm ≤ 1.004 * 1.004 := mul_le_mul U1 e1 (norm_nonneg _) (by norm_num)
        _ = 1.008016 := by norm_num
    have k1 : 3 * ε + 2 * ε ^ 2 ≤ 3.002 * ε := by nlinarith
    calc (3 * ε + 2 * ε ^ 2) * (u.norm * ep.norm) ≤ 3.002 * ε * 1.008016 :=
          mul_le_mul k1 k2 (mul_nonneg (norm_nonneg _) (norm_nonneg _)) (by positivity)
      _ ≤ 3.05 * ε := by linarith
  have q2 : |eq.dot u| ≤ 3.1 * ε := by
    have n1 := near_dot x2 U1 (by positivity)
    have e0 : (u.cross ep).dot u = 0 := by simp only [V3.cross, V3.dot]; ring
    rw [e0, sub_zero] at n1
    linarith
  have e2 : eq.norm ≤ 1.0121 := by
    refine le_trans (hx.upper hε) ?_
    have k1 : (1 + ε) * (1 + 2 * ε) ≤ 1.00301 := by nlinarith
    have k2 : u.norm * ep.norm ≤ 1.008016 := by
      calc u.norm * ep.norm ≤ 1.004 * 1.004 := mul_le_mul U1 e1 (norm_nonneg _) (by norm_num)
        _ = 1.008016 := by norm_num
    calc (1 + ε) * (1 + 2 * ε) * (u.norm * ep.norm) ≤ 1.00301 * 1.008016 :=
          mul_le_mul k1 k2 (mul_nonneg (norm_nonneg _) (norm_nonneg _)) (by norm_num)
      _ ≤ 1.0121 := by norm_num
  have c1 : |c| ≤ 1.001 := by
    have := hc.abs
    have := Real.abs_cos_le_one r
    nlinarith [abs_nonneg (Real.cos r)]
  have s1 : |s| ≤ 1.001 := by
    have := hs.abs
    have := Real.abs_sin_le_one r
    nlinarith [abs_nonneg (Real.sin r)]
  exact ⟨comb_tangent hε h1 U1 e1 e2 q1' q2 h3 c1 (by rwa [abs_neg]), comb_tangent hε h1 U1 e1 e2 q1' q2 h4 s1 c1⟩

theorem makeEvol_tangent {ε vp vq dt : ℝ} {a b : Node} (hε : 0 ≤ ε) (h1 : ε ≤ 1 / 1000) (hu : |a.cur.u.norm - 1| ≤ 4 * ε)
    (hp : a.ep.norm ≤ 1.44) (hq : a.eq.norm ≤ 1.44) (tp : |a.ep.dot a.cur.u| ≤ 30 * ε) (tq : |a.eq.dot a.cur.u| ≤ 30 * ε)
    (h : MakeEvol ε vp vq dt a b) : |b.next.v.dot a.cur.u| ≤ 33 * ε * (|vp| + |vq|) := by
  obtain ⟨v, w, m, u, hv, -, -, -, rfl⟩ := h
  have U1 : a.cur.u.norm ≤ 1.004 := by have := (abs_le.mp hu).2; linarith
  have V0 : 0 ≤ |vp| + |vq| := by positivity
  have n0 : (v - (vp * a.ep + vq * a.eq)).norm ≤ 2.9 * ε * (|vp| + |vq|) := by
    refine (hv.near hε).trans ?_
    have k1 : 2 * ε + ε ^ 2 ≤ 2.001 * ε := by nlinarith
    have g : |vp| * a.ep.norm + |vq| * a.eq.norm ≤ 1.44 * (|vp| + |vq|) := by
      have g1 := mul_le_mul_of_nonneg_left hp (abs_nonneg vp)
      have g2 := mul_le_mul_of_nonneg_left hq (abs_nonneg vq)
      linarith
    calc (2 * ε + ε ^ 2) * (|vp| * a.ep.norm + |vq| * a.eq.norm) ≤ 2.001 * ε * (1.44 * (|vp| + |vq|)) :=
          mul_le_mul k1 g (add_nonneg (mul_nonneg (abs_nonneg _) (norm_nonneg _)) (mul_nonneg (abs_nonneg _) (norm_nonneg _)))
            (by positivity)
      _ ≤ 2.9 * ε * (|vp| + |vq|) := by nlinarith [mul_nonneg hε V0]
  have n1 := near_dot n0 U1 (by positivity)
  rw [dot_add, dot_smul, dot_smul] at n1
  have n2 : |vp * a.ep.dot a.cur.u| ≤ |vp| * (30 * ε) := by
    rw [abs_mul]; exact mul_le_mul_of_nonneg_left tp (abs_nonneg _)
  have n3 : |vq * a.eq.dot a.cur.u| ≤ |vq| * (30 * ε) := by
    rw [abs_mul]; exact mul_le_mul_of_nonneg_left tq (abs_nonneg _)
  have n4 := abs_add_le (vp * a.ep.dot a.cur.u) (vq * a.eq.dot a.cur.u)
  have n5 := abs_add_le (v.dot a.cur.u - (vp * a.ep.dot a.cur.u + vq * a.eq.dot a.cur.u)) (vp * a.ep.dot a.cur.u + vq * a.eq.dot a.cur.u)
  rw [sub_add_cancel] at n5
  show |v.dot a.cur.u| ≤ _
  nlinarith [mul_nonneg hε V0]

end Verif.Rounded
