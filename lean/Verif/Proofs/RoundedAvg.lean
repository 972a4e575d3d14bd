import Verif.Model.RoundedAvg
import Verif.Spec.RoundedAvg
import Verif.Proofs.Rounded
import Verif.Props.MeshElem

/-! Error analysis of a parallel sum and of the averages. -/

namespace Verif.Rounded

open Verif.Mesh Verif.MeshElem

/-- `k` successive rounding errors -/
def gam (ε : ℝ) (k : ℕ) : ℝ := (1 + ε) ^ k - 1

theorem gam_mono {ε : ℝ} (hε : 0 ≤ ε) {j k : ℕ} (h : j ≤ k) : gam ε j ≤ gam ε k := by
  unfold gam
  have := pow_le_pow_right₀ (by linarith : 1 ≤ 1 + ε) h
  linarith

theorem gam_nonneg {ε : ℝ} (hε : 0 ≤ ε) (k : ℕ) : 0 ≤ gam ε k := by
  have := gam_mono hε (Nat.zero_le k)
  simpa [gam] using this

theorem gam_succ (ε : ℝ) (k : ℕ) : gam ε k + ε * (1 + ε) ^ k = gam ε (k + 1) := by
  unfold gam
  rw [pow_succ]
  ring

theorem gam_add (ε : ℝ) (j k : ℕ) : gam ε j * (1 + ε) ^ k + gam ε k = gam ε (j + k) := by
  unfold gam
  rw [pow_add]
  ring

/-- an error of `gam ε k` bounds the modulus -/
theorem abs_of_near {ε x y B : ℝ} {k : ℕ} (h : |y - x| ≤ gam ε k * B) (hx : |x| ≤ B) : |y| ≤ (1 + ε) ^ k * B := by
  have := abs_add_le (y - x) x
  rw [sub_add_cancel] at this
  unfold gam at h
  linarith

theorem abs_sum_le (A : Multiset ℝ) : |A.sum| ≤ (A.map fun x => |x|).sum := by
  induction A using Multiset.induction with
  | empty => simp
  | cons a s ih =>
    rw [Multiset.sum_cons, Multiset.map_cons, Multiset.sum_cons]
    exact (abs_add_le _ _).trans (by linarith)

theorem abs_map_nonneg (A : Multiset ℝ) : 0 ≤ (A.map fun x => |x|).sum := (abs_nonneg _).trans (abs_sum_le A)

theorem RSum.card_pos {ε : ℝ} {A : Multiset ℝ} {z : ℝ} (h : RSum ε A z) : 1 ≤ A.card := by
  induction h with
  | leaf => simp
  | node _ _ _ ha hb => rw [Multiset.card_add]; omega

theorem RSum.near {ε : ℝ} (hε : 0 ≤ ε) {A : Multiset ℝ} {z : ℝ} (h : RSum ε A z) :
    |z - A.sum| ≤ gam ε A.card * (A.map fun x => |x|).sum := by
  induction h with
  | leaf x =>
    simp only [Multiset.sum_singleton, sub_self, abs_zero]
    exact mul_nonneg (gam_nonneg hε _) (abs_map_nonneg _)
  | @node A B a b c hA hB hc ha hb =>
    have cA := hA.card_pos
    have cB := hB.card_pos
    rw [Multiset.sum_add, Multiset.map_add, Multiset.sum_add, Multiset.card_add]
    set SA := (A.map fun x => |x|).sum with hSA
    set SB := (B.map fun x => |x|).sum with hSB
    have a1 := abs_of_near ha (abs_sum_le A)
    have b1 := abs_of_near hb (abs_sum_le B)
    unfold Rnd at hc
    have e : c - (A.sum + B.sum) = (c - (a + b)) + ((a - A.sum) + (b - B.sum)) := by ring
    rw [e]
    have t1 := abs_add_le (c - (a + b)) ((a - A.sum) + (b - B.sum))
    have t2 := abs_add_le (a - A.sum) (b - B.sum)
    have t3 := mul_le_mul_of_nonneg_left ((abs_add_le a b).trans (add_le_add a1 b1)) hε
    have g1 : gam ε A.card * SA + ε * ((1 + ε) ^ A.card * SA) ≤ gam ε (A.card + B.card) * SA := by
      have : gam ε A.card * SA + ε * ((1 + ε) ^ A.card * SA) = gam ε (A.card + 1) * SA := by rw [← gam_succ]; ring
      rw [this]
      exact mul_le_mul_of_nonneg_right (gam_mono hε (by omega)) (abs_map_nonneg A)
    have g2 : gam ε B.card * SB + ε * ((1 + ε) ^ B.card * SB) ≤ gam ε (A.card + B.card) * SB := by
      have : gam ε B.card * SB + ε * ((1 + ε) ^ B.card * SB) = gam ε (B.card + 1) * SB := by rw [← gam_succ]; ring
      rw [this]
      exact mul_le_mul_of_nonneg_right (gam_mono hε (by omega)) (abs_map_nonneg B)
    calc |(c - (a + b)) + ((a - A.sum) + (b - B.sum))| ≤ ε * ((1 + ε) ^ A.card * SA + (1 + ε) ^ B.card * SB) + (gam ε A.card * SA + gam ε B.card * SB) := by
          linarith
      _ ≤ gam ε (A.card + B.card) * (SA + SB) := by rw [mul_add, mul_add]; linarith

theorem RDot.near {m : ℕ} {ε : ℝ} (hε : 0 ≤ ε) {a b : Fin m → ℝ} {z : ℝ} (h : RDot ε a b z) :
    |z - ∑ i, a i * b i| ≤ gam ε (m + 1) * ∑ i, |a i| * |b i| := by
  obtain ⟨p, hp, hs⟩ := h
  have n := hs.near hε
  rw [Multiset.card_map, Multiset.map_map] at n
  change |z - ∑ i, p i| ≤ gam ε (Finset.univ : Finset (Fin m)).card * ∑ i, |p i| at n
  rw [Finset.card_univ, Fintype.card_fin] at n
  set S := ∑ i, |a i| * |b i| with hS
  have p1 : ∑ i, |p i| ≤ (1 + ε) ^ 1 * S := by
    rw [pow_one, hS, Finset.mul_sum]
    refine Finset.sum_le_sum fun i _ => ?_
    have := (hp i).abs
    rwa [abs_mul] at this
  have p2 : |∑ i, p i - ∑ i, a i * b i| ≤ gam ε 1 * S := by
    rw [← Finset.sum_sub_distrib, hS, Finset.mul_sum]
    refine (Finset.abs_sum_le_sum_abs _ _).trans (Finset.sum_le_sum fun i _ => ?_)
    have := hp i
    unfold Rnd at this
    rw [abs_mul] at this
    simpa [gam] using this
  have e : z - ∑ i, a i * b i = (z - ∑ i, p i) + (∑ i, p i - ∑ i, a i * b i) := by ring
  rw [e]
  have t := abs_add_le (z - ∑ i, p i) (∑ i, p i - ∑ i, a i * b i)
  have q := mul_le_mul_of_nonneg_left p1 (gam_nonneg hε m)
  rw [← gam_add]
  linarith

/-- one element -/
theorem elem_near {ε : ℝ} (hε : 0 ≤ ε) {n : ℕ} {w val : Fin n → ℝ} {a : Fin 4 → Fin n → ℝ} {f : Fin 4 → ℝ} {M x : ℝ}
    (ha : ∀ i j, 0 ≤ a i j) (ha1 : ∀ j, ∑ i, a i j = 1) (hf : ∀ i, |f i| ≤ M) (hv : ∀ j, RDot ε f (fun i => a i j) (val j))
    (hx : RDot ε w val x) :
    |x - ∑ j, w j * ∑ i, a i j * f i| ≤ gam ε (n + 6) * (∑ j, |w j| * M) ∧ |∑ j, w j * ∑ i, a i j * f i| ≤ ∑ j, |w j| * M := by
  have M0 : 0 ≤ M := (abs_nonneg _).trans (hf 0)
  have B : ∀ j, ∑ i, |f i| * |a i j| ≤ M := by
    intro j
    calc ∑ i, |f i| * |a i j| ≤ ∑ i, M * a i j := Finset.sum_le_sum fun i _ => by
          rw [abs_of_nonneg (ha i j)]; exact mul_le_mul_of_nonneg_right (hf i) (ha i j)
      _ = M := by rw [← Finset.mul_sum, ha1, mul_one]
  have hv1 : ∀ j, |val j - ∑ i, a i j * f i| ≤ gam ε 5 * M := by
    intro j
    have h := (hv j).near hε
    rw [show ∑ i, f i * a i j = ∑ i, a i j * f i from Finset.sum_congr rfl fun i _ => mul_comm _ _] at h
    exact h.trans (mul_le_mul_of_nonneg_left (B j) (gam_nonneg hε 5))
  have hT : ∀ j, |∑ i, a i j * f i| ≤ M := by
    intro j
    refine (Finset.abs_sum_le_sum_abs _ _).trans (le_trans (Finset.sum_le_sum fun i _ => ?_) (B j))
    rw [abs_mul, mul_comm]
  have hv2 : ∀ j, |val j| ≤ (1 + ε) ^ 5 * M := fun j => abs_of_near (hv1 j) (hT j)
  set W := ∑ j, |w j| * M with hW
  have h := hx.near hε
  have q1 : ∑ j, |w j| * |val j| ≤ (1 + ε) ^ 5 * W := by
    rw [hW, Finset.mul_sum]
    refine Finset.sum_le_sum fun j _ => ?_
    have := mul_le_mul_of_nonneg_left (hv2 j) (abs_nonneg (w j))
    linarith
  have q2 : |∑ j, w j * val j - ∑ j, w j * ∑ i, a i j * f i| ≤ gam ε 5 * W := by
    rw [← Finset.sum_sub_distrib, hW, Finset.mul_sum]
    refine (Finset.abs_sum_le_sum_abs _ _).trans (Finset.sum_le_sum fun j _ => ?_)
    rw [← mul_sub, abs_mul]
    have := mul_le_mul_of_nonneg_left (hv1 j) (abs_nonneg (w j))
    linarith
  refine ⟨?_, ?_⟩
  · have e : x - ∑ j, w j * ∑ i, a i j * f i = (x - ∑ j, w j * val j) + (∑ j, w j * val j - ∑ j, w j * ∑ i, a i j * f i) := by ring
    rw [e]
    have t := abs_add_le (x - ∑ j, w j * val j) (∑ j, w j * val j - ∑ j, w j * ∑ i, a i j * f i)
    have q := mul_le_mul_of_nonneg_left q1 (gam_nonneg hε (n + 1))
    have g := gam_add ε (n + 1) 5
    have : gam ε (n + 6) * W = gam ε (n + 1) * ((1 + ε) ^ 5 * W) + gam ε 5 * W := by
      rw [show n + 6 = n + 1 + 5 by ring, ← g]; ring
    linarith
  · refine (Finset.abs_sum_le_sum_abs _ _).trans (Finset.sum_le_sum fun j _ => ?_)
    rw [abs_mul]
    exact mul_le_mul_of_nonneg_left (hT j) (abs_nonneg _)

/-- a list of terms, each with its error -/
theorem list_near {α : Type} {ε : ℝ} {k : ℕ} {R : α → ℝ → Prop} {X B : α → ℝ} (hR : ∀ t x, R t x → |x - X t| ≤ gam ε k * B t ∧ |X t| ≤ B t) :
    ∀ {l : List α} {xs : List ℝ}, List.Forall₂ R l xs →
      |xs.sum - (l.map X).sum| ≤ gam ε k * (l.map B).sum ∧ (xs.map fun x => |x|).sum ≤ (1 + ε) ^ k * (l.map B).sum ∧ xs.length = l.length ∧
        |(l.map X).sum| ≤ (l.map B).sum := by
  intro l xs h
  induction h with
  | nil => simp
  | @cons t x l xs h _ ih =>
    obtain ⟨i1, i2, i3, i4⟩ := ih
    obtain ⟨h1, h2⟩ := hR t x h
    have h3 := abs_of_near h1 h2
    simp only [List.sum_cons, List.map_cons, List.length_cons]
    refine ⟨?_, ?_, by omega, ?_⟩
    · have e : x + xs.sum - (X t + (l.map X).sum) = (x - X t) + (xs.sum - (l.map X).sum) := by ring
      rw [e]
      refine (abs_add_le _ _).trans ?_
      linarith
    · linarith
    · refine (abs_add_le _ _).trans ?_
      linarith

theorem compiled_a {G : Tetra.Rule} (hG : Tetra.Compiled G) : (∀ i j, 0 ≤ G.a i j) ∧ (∀ j, ∑ i, G.a i j = 1) ∧ G.n ≤ 5 := by
  rcases hG with rfl | rfl
  · refine ⟨?_, ?_, by decide⟩
    · intro i j
      fin_cases i <;> fin_cases j <;> simp [Tetra.Rule.a, Tetra.rule1] <;> norm_num
    · intro j
      fin_cases j <;> simp [Fin.sum_univ_four, Tetra.Rule.a, Tetra.rule1]
  · refine ⟨?_, ?_, by decide⟩
    · intro i j
      fin_cases i <;> fin_cases j <;> simp [Tetra.Rule.a, Tetra.rule5] <;> norm_num
    · intro j
      simp only [Fin.sum_univ_four, Tetra.Rule.a]
      simp
      ring

open Classical in
/-- sums over the magnetic elements -/
theorem sum_magTet {mag : ℕ → Bool} {tets : List Tet} {region : Option ℕ} (g : Tet → ℝ) :
    (tets.map fun t => if Counts mag region t then g t else 0).sum =
      ((magTet mag tets).map fun t => if Counts mag region t then g t else 0).sum := by
  induction tets with
  | nil => rfl
  | cons t ts ih =>
    by_cases hm : mag t.reg = true
    · rw [show magTet mag (t :: ts) = t :: magTet mag ts from List.filter_cons_of_pos hm]
      simp only [List.map_cons, List.sum_cons, ih]
    · rw [show magTet mag (t :: ts) = magTet mag ts from List.filter_cons_of_neg hm]
      simp only [List.map_cons, List.sum_cons, ih]
      rw [if_neg (fun hc => hm hc.1), zero_add]

open Classical in
/-- the average -/
theorem avg_near {ε : ℝ} (hε : 0 ≤ ε) {G : Tetra.Rule} (hG : Tetra.Compiled G) {wt : Tet → Fin G.n → ℝ} {V : ℝ} (hV : 0 < V) {mag : ℕ → Bool}
    {tets : List Tet} {f : ℕ → ℝ} {region : Option ℕ} {M r : ℝ} (hM : 0 ≤ M) (hf : ∀ t ∈ tets, Counts mag region t → ∀ i, |f (t.ind i)| ≤ M)
    (h : RAvg ε G wt V mag tets f region r) :
    |r - TrueAvg G wt V mag tets f region| ≤ gam ε ((magTet mag tets).length + 13) * (AbsWeight G wt mag tets region * M / V) := by
  obtain ⟨xs, s, hxs, hs, hr⟩ := h
  obtain ⟨a0, a1, n5⟩ := compiled_a hG
  have cv := sum_magTet (mag := mag) (tets := tets) (region := region)
  set X : Tet → ℝ := fun t => if Counts mag region t then ∑ j, wt t j * ∑ i, G.a i j * f (t.ind i) else 0 with hX
  set B : Tet → ℝ := fun t => if Counts mag region t then ∑ j, |wt t j| * M else 0 with hB
  have hR : ∀ t x, (t ∈ magTet mag tets ∧ RElem ε G wt f region t x) → |x - X t| ≤ gam ε 11 * B t ∧ |X t| ≤ B t := by
    rintro t x ⟨ht, h⟩
    obtain ⟨ht1, ht2⟩ := List.mem_filter.mp ht
    unfold RElem at h
    by_cases hc : Counts mag region t
    · have hn : ¬ (region ≠ some t.reg ∧ region ≠ none) := by
        rintro ⟨h1, h2⟩
        rcases hc.2 with h | h
        · exact h2 h
        · exact h1 h
      rw [if_neg hn] at h
      obtain ⟨val, hv, hx⟩ := h
      have := elem_near hε a0 a1 (f := fun i => f (t.ind i)) (hf t ht1 hc) hv hx
      rw [hX, hB]
      simp only [if_pos hc]
      refine ⟨this.1.trans (mul_le_mul_of_nonneg_right (gam_mono hε (by omega)) ?_), this.2⟩
      exact Finset.sum_nonneg fun j _ => mul_nonneg (abs_nonneg _) hM
    · have hn : region ≠ some t.reg ∧ region ≠ none := ⟨fun e => hc ⟨ht2, Or.inr e⟩, fun e => hc ⟨ht2, Or.inl e⟩⟩
      rw [if_pos hn] at h
      rw [hX, hB, h]
      simp [hc]
  have hxs' : List.Forall₂ (fun t x => t ∈ magTet mag tets ∧ RElem ε G wt f region t x) (magTet mag tets) xs := by
    have : ∀ {l : List Tet} {xs : List ℝ}, (∀ t ∈ l, t ∈ magTet mag tets) → List.Forall₂ (RElem ε G wt f region) l xs →
        List.Forall₂ (fun t x => t ∈ magTet mag tets ∧ RElem ε G wt f region t x) l xs := by
      intro l xs hl h
      induction h with
      | nil => exact .nil
      | cons h _ ih => exact .cons ⟨hl _ (by simp), h⟩ (ih fun t ht => hl t (by simp [ht]))
    exact this (fun t ht => ht) hxs
  obtain ⟨l1, l2, l3, l4⟩ := list_near hR hxs'
  set N := (magTet mag tets).length with hN
  set SB := ((magTet mag tets).map B).sum with hSB
  set SX := ((magTet mag tets).map X).sum with hSX
  have SB0 : 0 ≤ SB := (abs_nonneg _).trans l4
  have s1 := hs.near hε
  simp only [Multiset.sum_add, Multiset.sum_singleton, zero_add, Multiset.card_add, Multiset.card_singleton, Multiset.coe_card,
    Multiset.map_add, Multiset.map_singleton, abs_zero, Multiset.map_coe, Multiset.sum_coe] at s1
  rw [l3] at s1
  have s2 : |s - SX| ≤ gam ε (N + 12) * SB := by
    have e : s - SX = (s - xs.sum) + (xs.sum - SX) := by ring
    rw [e]
    have t := abs_add_le (s - xs.sum) (xs.sum - SX)
    have q := mul_le_mul_of_nonneg_left l2 (gam_nonneg hε (1 + N))
    have g := gam_add ε (1 + N) 11
    rw [show 1 + N + 11 = N + 12 by ring] at g
    rw [← g]
    linarith
  have s3 := abs_of_near s2 l4
  have eT : TrueAvg G wt V mag tets f region = SX / V := by
    unfold TrueAvg
    rw [cv]
  have eW : AbsWeight G wt mag tets region * M = SB := by
    unfold AbsWeight
    rw [cv, hSB, ← List.sum_map_mul_right]
    congr 2
    funext t
    rw [hB]
    dsimp only
    split_ifs
    · rw [Finset.sum_mul]
    · rw [zero_mul]
  rw [eT, eW]
  unfold Rnd at hr
  rw [abs_div, abs_of_pos hV] at hr
  have e : r - SX / V = (r - s / V) + (s - SX) / V := by rw [sub_div]; ring
  rw [e]
  have t := abs_add_le (r - s / V) ((s - SX) / V)
  rw [abs_div, abs_of_pos hV] at t
  have d1 : |s| / V ≤ (1 + ε) ^ (N + 12) * SB / V := div_le_div_of_nonneg_right s3 hV.le
  have d2 : |s - SX| / V ≤ gam ε (N + 12) * SB / V := div_le_div_of_nonneg_right s2 hV.le
  have d3 := mul_le_mul_of_nonneg_left d1 hε
  have g := gam_succ ε (N + 12)
  rw [show N + 13 = N + 12 + 1 by ring, ← g]
  have : (gam ε (N + 12) + ε * (1 + ε) ^ (N + 12)) * (SB / V) = gam ε (N + 12) * SB / V + ε * ((1 + ε) ^ (N + 12) * SB / V) := by ring
  linarith

theorem gam_le {ε : ℝ} (hε : 0 ≤ ε) {k : ℕ} (h : k * ε ≤ 1 / 100) : gam ε k ≤ 1.02 * (k * ε) := by
  have h1 : (1 + ε) ^ k ≤ Real.exp (k * ε) := by
    have := Real.add_one_le_exp ε
    calc (1 + ε) ^ k ≤ Real.exp ε ^ k := pow_le_pow_left₀ (by linarith) (by linarith) k
      _ = Real.exp (k * ε) := (Real.exp_nat_mul ε k).symm
  set x := (k : ℝ) * ε with hx
  have x0 : 0 ≤ x := by positivity
  have h2 : Real.exp x ≤ 1 / (1 - x) := by
    rw [le_div_iff₀ (by linarith)]
    have := Real.one_sub_le_exp_neg x
    calc Real.exp x * (1 - x) ≤ Real.exp x * Real.exp (-x) := mul_le_mul_of_nonneg_left this (Real.exp_pos _).le
      _ = 1 := by rw [← Real.exp_add, add_neg_cancel, Real.exp_zero]
  have h3 : 1 / (1 - x) ≤ 1 + 1.02 * x := by
    rw [div_le_iff₀ (by linarith)]
    nlinarith
  unfold gam
  linarith

/-- the weights of an element that is not turned inside out -/
theorem absWeight_elem {G : Tetra.Rule} (hG : Tetra.Compiled G) (p : Fin 4 → V3) (hp : 0 < Tetra.detJ p) :
    ∑ j, |Tetra.weight G p j| ≤ 13 / 5 * Tetra.calcVol G p := by
  unfold Tetra.calcVol Tetra.weight
  simp only [abs_mul, abs_of_pos hp]
  rw [← Finset.mul_sum, ← Finset.mul_sum]
  rcases hG with rfl | rfl
  · have e1 : ∑ j, |Tetra.rule1.pds j| = 1 / 6 := by
      change ∑ j : Fin 1, |(![1 / 6] : Fin 1 → ℝ) j| = 1 / 6
      simp
    have e2 : ∑ j, Tetra.rule1.pds j = 1 / 6 := by
      change ∑ j : Fin 1, (![1 / 6] : Fin 1 → ℝ) j = 1 / 6
      simp
    rw [e1, e2]
    linarith
  · have e1 : ∑ j, |Tetra.rule5.pds j| = 13 / 30 := by
      change ∑ j : Fin 5, |(![-2 / 15, 3 / 40, 3 / 40, 3 / 40, 3 / 40] : Fin 5 → ℝ) j| = 13 / 30
      simp [Fin.sum_univ_five, abs_div]
      norm_num
    have e2 : ∑ j, Tetra.rule5.pds j = 1 / 6 := by
      change ∑ j : Fin 5, (![-2 / 15, 3 / 40, 3 / 40, 3 / 40, 3 / 40] : Fin 5 → ℝ) j = 1 / 6
      simp [Fin.sum_univ_five]
      norm_num
    rw [e1, e2]
    linarith

/-- the volume of the region is positive, and the weights are not larger than `13/5` of it -/
theorem volume_weight (G : Tetra.Rule) (hG : Tetra.Compiled G) (p : ℕ → V3) (mag : ℕ → Bool) (nreg : ℕ) (tets : List Tet) (region : Option ℕ)
    (hreg : ∀ r, region = some r → r < nreg ∧ mag r = true) (hpos : ∀ t ∈ tets, 0 < Tetra.detJ (nod4 p t))
    (hne : ∃ t ∈ tets, Counts mag region t) :
    0 < volumeOf G p mag nreg tets region ∧
      AbsWeight G (fun t => Tetra.weight G (nod4 p t)) mag tets region ≤ 13 / 5 * volumeOf G p mag nreg tets region := by
  have eV : volumeOf G p mag nreg tets region = ((selected mag tets region).map (tetVol G p)).sum := by
    cases region with
    | none =>
      show (volumes G p mag nreg tets).2 = _
      rw [magVol_eq]
      congr 2
      unfold magTet selected
      apply List.filter_congr
      intro t _
      simp [Tet.isMagnetic]
    | some r =>
      show (volumes G p mag nreg tets).1.getD r 0 = _
      rw [C55_region _ _ _ _ _ _ (hreg r rfl).1]
      congr 2
      unfold selected
      apply List.filter_congr
      intro t _
      by_cases h : t.reg = r
      · simp [h, (hreg r rfl).2]
      · have h1 : (t.reg == r) = false := by simpa using h
        have h2 : (r == t.reg) = false := by simpa using Ne.symm h
        simp [h1, h2]
  have hmem : ∀ t, t ∈ selected mag tets region ↔ t ∈ tets ∧ Counts mag region t := by
    intro t
    unfold selected Counts
    rw [List.mem_filter]
    simp
  rw [eV]
  refine ⟨?_, ?_⟩
  · obtain ⟨t, h1, h2⟩ := hne
    apply List.sum_pos
    · intro x hx
      obtain ⟨t, ht, rfl⟩ := List.mem_map.mp hx
      exact C55_positive G hG p t (hpos t ((hmem t).mp ht).1)
    · intro e
      have : t ∈ selected mag tets region := (hmem t).mpr ⟨h1, h2⟩
      rw [List.map_eq_nil_iff.mp e] at this
      simp at this
  · clear eV hne hmem
    unfold AbsWeight
    induction tets with
    | nil => simp [selected]
    | cons t ts ih =>
      have ih' := ih (fun t ht => hpos t (by simp [ht]))
      rw [List.map_cons, List.sum_cons]
      by_cases hc : Counts mag region t
      · have e : selected mag (t :: ts) region = t :: selected mag ts region := by
          unfold selected
          exact List.filter_cons_of_pos (by simpa [Counts] using hc)
        rw [if_pos hc, e, List.map_cons, List.sum_cons]
        have := absWeight_elem hG (nod4 p t) (hpos t (by simp))
        unfold tetVol
        unfold tetVol at ih'
        linarith
      · have e : selected mag (t :: ts) region = selected mag ts region := by
          unfold selected
          refine List.filter_cons_of_neg ?_
          simpa [Counts] using hc
        rw [if_neg hc, e, zero_add]
        exact ih'

theorem RSum.exact {ε : ℝ} (hε : 0 ≤ ε) (A : Multiset ℝ) (x : ℝ) : RSum ε ({x} + A) (x + A.sum) := by
  induction A using Multiset.induction generalizing x with
  | empty => simpa using RSum.leaf x
  | cons a s ih =>
    have h := RSum.node (RSum.leaf (ε := ε) x) (ih a) (Rnd.refl hε _)
    rw [Multiset.sum_cons, ← Multiset.singleton_add]
    exact h

theorem RSum.exact' {ε : ℝ} (hε : 0 ≤ ε) {A : Multiset ℝ} (hA : 0 < A.card) : RSum ε A A.sum := by
  obtain ⟨x, hx⟩ := Multiset.card_pos_iff_exists_mem.mp hA
  obtain ⟨B, rfl⟩ := Multiset.exists_cons_of_mem hx
  have := RSum.exact hε B x
  rw [Multiset.sum_cons, ← Multiset.singleton_add]
  exact this

theorem RDot.exact {m : ℕ} (hm : 0 < m) {ε : ℝ} (hε : 0 ≤ ε) (a b : Fin m → ℝ) : RDot ε a b (∑ i, a i * b i) := by
  refine ⟨fun i => a i * b i, fun i => Rnd.refl hε _, ?_⟩
  refine RSum.exact' hε ?_
  rw [Multiset.card_map]
  change 0 < (Finset.univ : Finset (Fin m)).card
  rw [Finset.card_univ, Fintype.card_fin]
  exact hm

end Verif.Rounded
