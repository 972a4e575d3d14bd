import Verif.Proofs.Bicg
import Verif.Props.Krylov
import Verif.Model.LlgSolve
import Verif.Spec.Rescale

/-!
# The iterative solver on a right hand side multiplied by a positive number
-/

namespace Verif.Rescale

open Verif.Krylov

/-- `c` times a number; infinities and NaN stay -/
def sc (c : ℝ) : Fl → Fl
  | .nan => .nan
  | .inf s => .inf s
  | .fin x => .fin (c * x)

section fl
variable {c d : ℝ}

theorem fl_add_def (x y : Fl) : x + y = Fl.add x y := rfl
theorem fl_mul_def (x y : Fl) : x * y = Fl.mul x y := rfl
theorem fl_div_def (x y : Fl) : x / y = Fl.div x y := rfl
theorem fl_neg_def (x : Fl) : -x = Fl.neg x := rfl
theorem fl_sub_def (x y : Fl) : x - y = x + -y := rfl

theorem sc_zero (c : ℝ) : sc c 0 = 0 := by
  show Fl.fin (c * 0) = Fl.fin 0
  rw [mul_zero]

theorem sc_one (x : Fl) : sc 1 x = x := by
  cases x <;> simp [sc]

theorem sc_sc (x : Fl) : sc c (sc d x) = sc (c * d) x := by
  cases x <;> simp [sc, mul_assoc]

theorem sc_add (x y : Fl) : sc c x + sc c y = sc c (x + y) := by
  rcases x with _ | s | x <;> rcases y with _ | t | y <;> simp only [fl_add_def, sc, Fl.add]
  · split_ifs <;> rfl
  · rw [mul_add]

theorem sc_neg (x : Fl) : -(sc c x) = sc c (-x) := by
  rcases x with _ | s | x <;> simp only [fl_neg_def, sc, Fl.neg]
  rw [mul_neg]

theorem sc_sub (x y : Fl) : sc c x - sc c y = sc c (x - y) := by
  rw [fl_sub_def, fl_sub_def, sc_neg, sc_add]

theorem sc_mul (hc : 0 < c) (x y : Fl) : sc c x * y = sc c (x * y) := by
  have z : ∀ x : ℝ, c * x = 0 ↔ x = 0 := fun x => by simp [hc.ne']
  have n : ∀ x : ℝ, c * x < 0 ↔ x < 0 := fun x => by
    constructor
    · intro h
      by_contra h'
      exact absurd (mul_nonneg hc.le (not_lt.mp h')) (not_le.mpr h)
    · exact fun h => mul_neg_of_pos_of_neg hc h
  rcases x with _ | s | x <;> rcases y with _ | t | y <;> simp only [fl_mul_def, sc, Fl.mul, z, n]
  · split_ifs <;> rfl
  · split_ifs <;> rfl
  · rw [mul_assoc]

theorem mul_sc (hc : 0 < c) (x y : Fl) : x * sc c y = sc c (x * y) := by
  have z : ∀ x : ℝ, c * x = 0 ↔ x = 0 := fun x => by simp [hc.ne']
  have n : ∀ x : ℝ, c * x < 0 ↔ x < 0 := fun x => by
    constructor
    · intro h
      by_contra h'
      exact absurd (mul_nonneg hc.le (not_lt.mp h')) (not_le.mpr h)
    · exact fun h => mul_neg_of_pos_of_neg hc h
  rcases x with _ | s | x <;> rcases y with _ | t | y <;> simp only [fl_mul_def, sc, Fl.mul, z, n]
  · split_ifs <;> rfl
  · split_ifs <;> rfl
  · congr 1
    ring

/-- a quotient of two numbers multiplied alike -/
theorem sc_div (hc : 0 < c) (x y : Fl) : sc c x / sc c y = x / y := by
  have z : ∀ x : ℝ, c * x = 0 ↔ x = 0 := fun x => by simp [hc.ne']
  have n : ∀ x : ℝ, c * x < 0 ↔ x < 0 := fun x => by
    constructor
    · intro h
      by_contra h'
      exact absurd (mul_nonneg hc.le (not_lt.mp h')) (not_le.mpr h)
    · exact fun h => mul_neg_of_pos_of_neg hc h
  rcases x with _ | s | x <;> rcases y with _ | t | y <;> simp only [fl_div_def, sc, Fl.div, z, n]
  split_ifs
  · rfl
  · rfl
  · rw [mul_div_mul_left _ _ hc.ne']

theorem sc_abs (hc : 0 < c) (x : Fl) : (sc c x).abs = sc c x.abs := by
  rcases x with _ | s | x <;> simp only [sc, Fl.abs]
  rw [abs_mul, abs_of_pos hc]

theorem sc_sqrt (hc : 0 < c) (x : Fl) : (sc (c ^ 2) x).sqrt = sc c x.sqrt := by
  rcases x with _ | s | x <;> simp only [sc, Fl.sqrt]
  · split_ifs <;> rfl
  · have n : c ^ 2 * x < 0 ↔ x < 0 := by
      have h2 : 0 < c ^ 2 := pow_pos hc 2
      constructor
      · intro h
        by_contra h'
        exact absurd (mul_nonneg h2.le (not_lt.mp h')) (not_le.mpr h)
      · exact fun h => mul_neg_of_pos_of_neg h2 h
    simp only [n]
    split_ifs
    · rfl
    · rw [Real.sqrt_mul (sq_nonneg c), Real.sqrt_sq hc.le]

theorem sc_le (hc : 0 < c) (x y : Fl) : (sc c x).le (sc c y) ↔ x.le y := by
  rcases x with _ | s | x <;> rcases y with _ | t | y <;> simp only [sc, Fl.le]
  exact mul_le_mul_iff_right₀ hc

theorem sc_isZero (hc : 0 < c) (x : Fl) : (sc c x).isZero ↔ x.isZero := by
  rcases x with _ | s | x <;> simp only [sc, Fl.isZero]
  simp [hc.ne']

theorem sc_isNan (x : Fl) : (sc c x).IsNan ↔ x.IsNan := by
  rcases x with _ | s | x <;> simp only [sc, Fl.IsNan]

end fl

section vec
variable {n : ℕ} {c : ℝ}

/-- `c` times a vector -/
def vsc (c : ℝ) (X : Vec n) : Vec n := fun i => sc c (X i)

theorem foldl_sc (f : Fin n → Fl) (l : List (Fin n)) : ∀ a : Fl,
    l.foldl (fun acc i => acc + sc c (f i)) (sc c a) = sc c (l.foldl (fun acc i => acc + f i) a) := by
  induction l with
  | nil => intro a; rfl
  | cons i l ih =>
    intro a
    rw [List.foldl_cons, List.foldl_cons, sc_add, ih]

theorem dot_vsc (hc : 0 < c) (X Y : Vec n) : Krylov.dot (vsc c X) (vsc c Y) = sc (c ^ 2) (Krylov.dot X Y) := by
  unfold Krylov.dot
  have e : ∀ i, vsc c X i * vsc c Y i = sc (c ^ 2) (X i * Y i) := fun i => by
    show sc c (X i) * sc c (Y i) = _
    rw [sc_mul hc, mul_sc hc, sc_sc, pow_two]
  simp only [e]
  have := foldl_sc (c := c ^ 2) (fun i => X i * Y i) (List.finRange n) 0
  rw [sc_zero] at this
  exact this

theorem norm_vsc (hc : 0 < c) (X : Vec n) : Krylov.norm (vsc c X) = sc c (Krylov.norm X) := by
  unfold Krylov.norm
  rw [dot_vsc hc, sc_abs (pow_pos hc 2), sc_sqrt hc]

theorem scaled_vsc (hc : 0 < c) (a : Fl) (Y : Vec n) : scaled a (vsc c Y) = vsc c (scaled a Y) := funext fun _ => sc_mul hc _ _

theorem pDirect_vsc (hc : 0 < c) (X Y : Vec n) : pDirect X (vsc c Y) = vsc c (pDirect X Y) := funext fun _ => mul_sc hc _ _

theorem add_vsc (X Y : Vec n) : Krylov.add (vsc c X) (vsc c Y) = vsc c (Krylov.add X Y) := funext fun _ => sc_add _ _

theorem sub_vsc (X Y : Vec n) : Krylov.sub (vsc c X) (vsc c Y) = vsc c (Krylov.sub X Y) := funext fun _ => sc_sub _ _

theorem scaledAdd_vsc (hc : 0 < c) (X : Vec n) (a : Fl) (Y : Vec n) : scaledAdd (vsc c X) a (vsc c Y) = vsc c (scaledAdd X a Y) :=
  funext fun i => by
    show sc c (Y i) + a * sc c (X i) = sc c (Y i + a * X i)
    rw [mul_sc hc, sc_add]

theorem applyMask_vsc (ld : List (Fin n)) (X : Vec n) : applyMask ld (vsc c X) = vsc c (applyMask ld X) := funext fun i => by
  unfold applyMask vsc
  dsimp only
  split_ifs
  · exact (sc_zero c).symm
  · rfl

theorem mult_vsc (hc : 0 < c) (A : Mat n) (X : Vec n) : mult A (vsc c X) = vsc c (mult A X) := funext fun i => by
  show (A i).foldl (fun val e => val + e.2 * sc c (X e.1)) 0 = sc c ((A i).foldl (fun val e => val + e.2 * X e.1) 0)
  have h : ∀ (l : List (Fin n × Fl)) (a : Fl), l.foldl (fun val e => val + e.2 * sc c (X e.1)) (sc c a) =
      sc c (l.foldl (fun val e => val + e.2 * X e.1) a) := by
    intro l
    induction l with
    | nil => intro a; rfl
    | cons e l ih =>
      intro a
      rw [List.foldl_cons, List.foldl_cons, mul_sc hc, sc_add, ih]
  have := h (A i) 0
  rwa [sc_zero] at this

/-- the monitor of the multiplied system -/
def itsc (c : ℝ) (it : Iter) : Iter := { it with rhsn := sc c it.rhsn, res := sc c it.res }

theorem converged_itsc (hc : 0 < c) (it : Iter) (nr : Fl) :
    (itsc c it).converged (sc c nr) = ((it.converged nr).1, itsc c (it.converged nr).2) := by
  have c1 : ∀ i : Iter, i.res.IsNan → i.converged0 = (false, { i with status := .CANNOT_CONVERGE }) := fun i h => if_pos h
  have c2 : ∀ i : Iter, ¬ i.res.IsNan → i.res.le (i.rhsn * i.resmax) → i.converged0 = (true, { i with status := .CONVERGED }) :=
    fun i h h2 => (if_neg h).trans (if_pos h2)
  have c3 : ∀ i : Iter, ¬ i.res.IsNan → ¬ i.res.le (i.rhsn * i.resmax) → i.converged0 = (false, i) :=
    fun i h h2 => (if_neg h).trans (if_neg h2)
  have e0 : (itsc c it).converged (sc c nr) = (itsc c { it with res := nr.abs }).converged0 := by
    unfold Iter.converged
    rw [sc_abs hc]
    rfl
  have e1 : it.converged nr = Iter.converged0 { it with res := nr.abs } := rfl
  rw [e0, e1]
  generalize ({ it with res := nr.abs } : Iter) = i
  have e : (itsc c i).res.le ((itsc c i).rhsn * (itsc c i).resmax) ↔ i.res.le (i.rhsn * i.resmax) := by
    show (sc c i.res).le (sc c i.rhsn * i.resmax) ↔ _
    rw [sc_mul hc, sc_le hc]
  by_cases h : i.res.IsNan
  · rw [c1 i h, c1 _ ((sc_isNan _).mpr h)]
    rfl
  · by_cases h2 : i.res.le (i.rhsn * i.resmax)
    · rw [c2 i h h2, c2 _ (mt (sc_isNan _).mp h) (e.mpr h2)]
      rfl
    · rw [c3 i h h2, c3 _ (mt (sc_isNan _).mp h) (mt e.mp h2)]

theorem finished_itsc (hc : 0 < c) (it : Iter) (nr : Fl) :
    (itsc c it).finished (sc c nr) = ((it.finished nr).1, itsc c (it.finished nr).2) := by
  unfold Iter.finished
  by_cases h : (it.noise && !it.written) = true
  · rw [if_pos h, if_pos (show ((itsc c it).noise && !(itsc c it).written) = true from h), converged_itsc hc]
    exact converged_itsc hc { (it.converged nr).2 with written := true } nr
  · rw [if_neg h, if_neg (show ¬ ((itsc c it).noise && !(itsc c it).written) = true from h), converged_itsc hc]

/-- the residual kept from before is not used -/
theorem finished_res (it : Iter) (nr y : Fl) : ({ it with res := y } : Iter).finished nr = it.finished nr := rfl

theorem incr_itsc (it : Iter) : (itsc c it).incr = itsc c it.incr := by
  unfold Iter.incr itsc
  dsimp only
  split_ifs <;> rfl

/-- the variables of the solver on the multiplied system -/
def bsc (c : ℝ) (st : BState n) : BState n :=
  { iter := itsc c st.iter, x := vsc c st.x, r := vsc c st.r, rt := vsc c st.rt, p := vsc c st.p, v := vsc c st.v
    rho2 := sc (c ^ 2) st.rho2, alpha := st.alpha, omega := st.omega }

variable (A : Mat n) (D : Vec n) (ld : List (Fin n)) (st : BState n)

open Classical in
theorem body_eq : bicgBody A D ld st =
    if (st.iter.finished (Krylov.norm st.r)).1 = true then (true, { st with iter := bIt1 st })
    else if 0 < (bIt1 st).nit ∧ (st.rho2.isZero ∨ st.omega.isZero) then
      (true, { st with iter := { bIt1 st with status := .CANNOT_CONVERGE } })
    else if ((bIt1 st).finished (Krylov.norm (bS A D ld st))).1 = true then
      (true, { st with iter := bIt2 A D ld st, x := bX1 A D ld st, p := bP st, v := bV A D ld st, alpha := bAlpha A D ld st })
    else if (bIt2 A D ld st).status = .ITER_OVERFLOW ∨ (bIt2 A D ld st).status = .CANNOT_CONVERGE then
      (true, { st with iter := bIt2 A D ld st, p := bP st, v := bV A D ld st, alpha := bAlpha A D ld st })
    else (false, bNext A D ld st) := rfl

variable (hc : 0 < c)
include hc

theorem bIt1_bsc : bIt1 (bsc c st) = itsc c (bIt1 st) := by
  show ((itsc c st.iter).finished (Krylov.norm (vsc c st.r))).2 = _
  rw [norm_vsc hc, finished_itsc hc]
  rfl

theorem fin1_bsc : ((bsc c st).iter.finished (Krylov.norm (bsc c st).r)).1 = (st.iter.finished (Krylov.norm st.r)).1 := by
  show ((itsc c st.iter).finished (Krylov.norm (vsc c st.r))).1 = _
  rw [norm_vsc hc, finished_itsc hc]

theorem bRho1_bsc : bRho1 (bsc c st) = sc (c ^ 2) (bRho1 st) := dot_vsc hc _ _

theorem bBeta_bsc : bBeta (bsc c st) = bBeta st := by
  unfold bBeta
  rw [bRho1_bsc st hc]
  show sc (c ^ 2) (bRho1 st) / sc (c ^ 2) st.rho2 * _ = _
  rw [sc_div (pow_pos hc 2)]
  rfl

theorem bP_bsc : bP (bsc c st) = vsc c (bP st) := by
  unfold bP
  rw [bIt1_bsc st hc, bBeta_bsc st hc]
  show (if 0 < (bIt1 st).nit then Krylov.add (vsc c st.r) (scaled (bBeta st) (Krylov.sub (scaled st.omega (vsc c st.v)) (vsc c st.p)))
    else vsc c st.p) = _
  rw [scaled_vsc hc, sub_vsc, scaled_vsc hc, add_vsc]
  split_ifs <;> rfl

theorem bPhat_bsc : bPhat D (bsc c st) = vsc c (bPhat D st) := by
  unfold bPhat
  rw [bP_bsc st hc, pDirect_vsc hc]

theorem bV_bsc : bV A D ld (bsc c st) = vsc c (bV A D ld st) := by
  unfold bV
  rw [bPhat_bsc D st hc, mult_vsc hc, applyMask_vsc]

theorem bAlpha_bsc : bAlpha A D ld (bsc c st) = bAlpha A D ld st := by
  unfold bAlpha
  rw [bRho1_bsc st hc, bV_bsc A D ld st hc]
  show sc (c ^ 2) (bRho1 st) / Krylov.dot (vsc c _) (vsc c st.rt) = _
  rw [dot_vsc hc, sc_div (pow_pos hc 2)]

theorem bS_bsc : bS A D ld (bsc c st) = vsc c (bS A D ld st) := by
  unfold bS
  rw [bAlpha_bsc A D ld st hc, bV_bsc A D ld st hc]
  exact scaledAdd_vsc hc _ _ _

theorem bIt2_bsc : bIt2 A D ld (bsc c st) = itsc c (bIt2 A D ld st) := by
  unfold bIt2
  rw [bIt1_bsc st hc, bS_bsc A D ld st hc, norm_vsc hc, finished_itsc hc]

theorem fin2_bsc : ((bIt1 (bsc c st)).finished (Krylov.norm (bS A D ld (bsc c st)))).1 = ((bIt1 st).finished (Krylov.norm (bS A D ld st))).1 := by
  rw [bIt1_bsc st hc, bS_bsc A D ld st hc, norm_vsc hc, finished_itsc hc]

theorem bShat_bsc : bShat A D ld (bsc c st) = vsc c (bShat A D ld st) := by
  unfold bShat
  rw [bS_bsc A D ld st hc, pDirect_vsc hc]

theorem bT_bsc : bT A D ld (bsc c st) = vsc c (bT A D ld st) := by
  unfold bT
  rw [bShat_bsc A D ld st hc, mult_vsc hc, applyMask_vsc]

theorem bOmega_bsc : bOmega A D ld (bsc c st) = bOmega A D ld st := by
  unfold bOmega
  rw [bT_bsc A D ld st hc, bS_bsc A D ld st hc, dot_vsc hc, dot_vsc hc, sc_div (pow_pos hc 2)]

theorem bX1_bsc : bX1 A D ld (bsc c st) = vsc c (bX1 A D ld st) := by
  unfold bX1
  rw [bPhat_bsc D st hc, bAlpha_bsc A D ld st hc]
  exact scaledAdd_vsc hc _ _ _

theorem bNext_bsc : bNext A D ld (bsc c st) = bsc c (bNext A D ld st) := by
  unfold bNext bX2 bR
  rw [bIt2_bsc A D ld st hc, incr_itsc, bX1_bsc A D ld st hc, bShat_bsc A D ld st hc, bOmega_bsc A D ld st hc, scaledAdd_vsc hc,
    bT_bsc A D ld st hc, scaled_vsc hc, bS_bsc A D ld st hc, sub_vsc, bP_bsc st hc, bV_bsc A D ld st hc, bRho1_bsc st hc,
    bAlpha_bsc A D ld st hc]
  rfl

/-- one iteration -/
theorem body_bsc : bicgBody A D ld (bsc c st) = ((bicgBody A D ld st).1, bsc c (bicgBody A D ld st).2) := by
  rw [body_eq, body_eq]
  have f1 := fin1_bsc st hc
  have i1 := bIt1_bsc st hc
  by_cases h1 : (st.iter.finished (Krylov.norm st.r)).1 = true
  · rw [if_pos h1, if_pos (f1.trans h1), i1]
    rfl
  · rw [if_neg h1, if_neg (by rw [f1]; exact h1)]
    have zc : (0 < (bIt1 (bsc c st)).nit ∧ ((bsc c st).rho2.isZero ∨ (bsc c st).omega.isZero)) ↔
        (0 < (bIt1 st).nit ∧ (st.rho2.isZero ∨ st.omega.isZero)) := by
      rw [i1]
      show (0 < (bIt1 st).nit ∧ ((sc (c ^ 2) st.rho2).isZero ∨ st.omega.isZero)) ↔ _
      rw [sc_isZero (pow_pos hc 2)]
    by_cases h2 : 0 < (bIt1 st).nit ∧ (st.rho2.isZero ∨ st.omega.isZero)
    · rw [if_pos h2, if_pos (zc.mpr h2), i1]
      rfl
    · rw [if_neg h2, if_neg (mt zc.mp h2)]
      have f2 := fin2_bsc A D ld st hc
      have i2 := bIt2_bsc A D ld st hc
      by_cases h3 : ((bIt1 st).finished (Krylov.norm (bS A D ld st))).1 = true
      · rw [if_pos h3, if_pos (f2.trans h3), i2, bX1_bsc A D ld st hc, bP_bsc st hc, bV_bsc A D ld st hc, bAlpha_bsc A D ld st hc]
        rfl
      · rw [if_neg h3, if_neg (by rw [f2]; exact h3), i2]
        by_cases h4 : (bIt2 A D ld st).status = .ITER_OVERFLOW ∨ (bIt2 A D ld st).status = .CANNOT_CONVERGE
        · rw [if_pos h4, if_pos (show (itsc c (bIt2 A D ld st)).status = _ ∨ (itsc c (bIt2 A D ld st)).status = _ from h4),
            bP_bsc st hc, bV_bsc A D ld st hc, bAlpha_bsc A D ld st hc]
          rfl
        · rw [if_neg h4, if_neg (show ¬ ((itsc c (bIt2 A D ld st)).status = _ ∨ (itsc c (bIt2 A D ld st)).status = _) from h4),
            bNext_bsc A D ld st hc]

omit hc in
theorem body_res (y : Fl) : bicgBody A D ld { st with iter := { st.iter with res := y } } = bicgBody A D ld st := rfl

omit hc in
theorem loop_res (y : Fl) (k : ℕ) : loop (bicgBody A D ld) k { st with iter := { st.iter with res := y } } =
    loop (bicgBody A D ld) k st := by
  cases k with
  | zero => rfl
  | succ k => rfl

theorem loop_bsc (k : ℕ) : ∀ st, loop (bicgBody A D ld) k (bsc c st) = (loop (bicgBody A D ld) k st).map (bsc c) := by
  induction k with
  | zero => intro st; rfl
  | succ k ih =>
    intro st
    unfold loop
    dsimp only
    rw [body_bsc A D ld st hc]
    dsimp only
    by_cases h : (bicgBody A D ld st).1 = true
    · rw [if_pos h, if_pos h]
      rfl
    · rw [if_neg h, if_neg h, ih]

/-- the solver on a multiplied right hand side and start -/
theorem bicgMask_vsc (it : Iter) (x rhs : Vec n) :
    bicgMask it A (vsc c x) (vsc c rhs) ld = (bicgMask it A x rhs ld).map (bsc c) := by
  unfold bicgMask
  dsimp only
  rw [applyMask_vsc, ← loop_bsc A _ ld hc]
  have : bicgInit it A ld (vsc c x) (vsc c (applyMask ld rhs)) =
      { bsc c (bicgInit it A ld x (applyMask ld rhs)) with
        iter := { (bsc c (bicgInit it A ld x (applyMask ld rhs))).iter with res := it.res } } := by
    unfold bicgInit bsc itsc
    dsimp only
    rw [mult_vsc hc, sub_vsc, applyMask_vsc, norm_vsc hc, sc_zero]
  rw [this]
  exact loop_res _ _ _ _ _ _

omit hc in
/-- at the end of the solver: the constants of the monitor, and what convergence means -/
theorem bicgMask_end (it : Iter) (h0 : it.status = .UNDEFINED) (x rhs : Vec n) {out : BState n} (h : bicgMask it A x rhs ld = some out) :
    out.iter.resmax = it.resmax ∧ out.iter.rhsn = Krylov.norm (applyMask ld rhs) ∧
      (out.iter.status = .CONVERGED → out.iter.res.le (out.iter.rhsn * out.iter.resmax)) := by
  refine loop_inv (bicgBody A (applyMask ld (diagPrecond A)) ld)
    (fun s => s.iter.resmax = it.resmax ∧ s.iter.rhsn = Krylov.norm (applyMask ld rhs) ∧ s.iter.status ≠ .CONVERGED)
    (fun s => s.iter.resmax = it.resmax ∧ s.iter.rhsn = Krylov.norm (applyMask ld rhs) ∧
      (s.iter.status = .CONVERGED → s.iter.res.le (s.iter.rhsn * s.iter.resmax))) ?_ ?_ _ _ out
    ⟨rfl, rfl, by show it.status ≠ _; rw [h0]; decide⟩ h
  · intro s hs hb
    have hk := bicgBody_kind A (applyMask ld (diagPrecond A)) ld s
    generalize he : bicgBody A (applyMask ld (diagPrecond A)) ld s = r at hk hb
    cases hk with
    | conv1 => cases hb
    | zero => cases hb
    | conv2 => cases hb
    | stop => cases hb
    | next g1 g2 g3 =>
      have s1 := finished_spec s.iter (Krylov.norm s.r)
      have s2 := finished_spec (bIt1 s) (Krylov.norm (bS A (applyMask ld (diagPrecond A)) ld s))
      have r1 : (bIt2 A (applyMask ld (diagPrecond A)) ld s).resmax = it.resmax := (s2.resmax.trans s1.resmax).trans hs.1
      have r2 : (bIt2 A (applyMask ld (diagPrecond A)) ld s).rhsn = Krylov.norm (applyMask ld rhs) :=
        (s2.rhsn.trans s1.rhsn).trans hs.2.1
      have r3 : (bIt2 A (applyMask ld (diagPrecond A)) ld s).status ≠ .CONVERGED := by
        have q1 : (bIt1 s).status ≠ .CONVERGED := by
          rcases s1.cases with g | g | g
          · show (s.iter.finished (Krylov.norm s.r)).2.status ≠ _
            rw [g.2.2]; decide
          · rw [g1] at g; exact absurd g.2.1 (by decide)
          · show (s.iter.finished (Krylov.norm s.r)).2.status ≠ _
            rw [g.2.2.2]; exact hs.2.2
        rcases s2.cases with g | g | g
        · show ((bIt1 s).finished _).2.status ≠ _
          rw [g.2.2]; decide
        · rw [g2] at g; exact absurd g.2.1 (by decide)
        · show ((bIt1 s).finished _).2.status ≠ _
          rw [g.2.2.2]; exact q1
      show (bIt2 A (applyMask ld (diagPrecond A)) ld s).incr.resmax = _ ∧ (bIt2 A (applyMask ld (diagPrecond A)) ld s).incr.rhsn = _ ∧
        (bIt2 A (applyMask ld (diagPrecond A)) ld s).incr.status ≠ _
      unfold Iter.incr
      dsimp only
      split_ifs
      · exact ⟨r1, r2, by show Status.ITER_OVERFLOW ≠ _; decide⟩
      · exact ⟨r1, r2, r3⟩
  · intro s hs hb
    have hk := bicgBody_kind A (applyMask ld (diagPrecond A)) ld s
    generalize he : bicgBody A (applyMask ld (diagPrecond A)) ld s = r at hk hb
    have s1 := finished_spec s.iter (Krylov.norm s.r)
    have s2 := finished_spec (bIt1 s) (Krylov.norm (bS A (applyMask ld (diagPrecond A)) ld s))
    have r1 : (bIt2 A (applyMask ld (diagPrecond A)) ld s).resmax = it.resmax := (s2.resmax.trans s1.resmax).trans hs.1
    have r2 : (bIt2 A (applyMask ld (diagPrecond A)) ld s).rhsn = Krylov.norm (applyMask ld rhs) :=
      (s2.rhsn.trans s1.rhsn).trans hs.2.1
    cases hk with
    | conv1 g =>
      refine ⟨s1.resmax.trans hs.1, s1.rhsn.trans hs.2.1, fun _ => ?_⟩
      show (bIt1 s).res.le ((bIt1 s).rhsn * (bIt1 s).resmax)
      rcases s1.cases with q | q | q
      · rw [g] at q; exact absurd q.2.1 (by decide)
      · rw [show (bIt1 s).res = _ from s1.res, show (bIt1 s).rhsn = _ from s1.rhsn, show (bIt1 s).resmax = _ from s1.resmax]
        exact q.1
      · rw [g] at q; exact absurd q.2.2.1 (by decide)
    | zero g => exact ⟨s1.resmax.trans hs.1, s1.rhsn.trans hs.2.1, fun e => by cases e⟩
    | conv2 g g' =>
      refine ⟨r1, r2, fun _ => ?_⟩
      show (bIt2 A (applyMask ld (diagPrecond A)) ld s).res.le _
      rcases s2.cases with q | q | q
      · rw [g'] at q; exact absurd q.2.1 (by decide)
      · rw [show (bIt2 A (applyMask ld (diagPrecond A)) ld s).res = _ from s2.res]
        show Fl.le _ ((bIt2 A (applyMask ld (diagPrecond A)) ld s).rhsn * (bIt2 A (applyMask ld (diagPrecond A)) ld s).resmax)
        rw [show (bIt2 A (applyMask ld (diagPrecond A)) ld s).rhsn = _ from s2.rhsn, show (bIt2 A (applyMask ld (diagPrecond A)) ld s).resmax = _ from s2.resmax]
        exact q.1
      · rw [g'] at q; exact absurd q.2.2.1 (by decide)
    | stop g g' g'' =>
      refine ⟨r1, r2, fun e => ?_⟩
      rcases g'' with q | q
      · exact absurd (q.symm.trans e) (by decide)
      · exact absurd (q.symm.trans e) (by decide)
    | next => cases hb

/-- the decision of the solve is the same when the absolute test has no say -/
theorem llgSolve_vsc (it : Iter) {tol : ℝ} (ht : it.resmax = .fin tol) (h0 : 0 ≤ tol) (x rhs : Vec n) {R : ℝ}
    (hR : Krylov.norm (applyMask ld rhs) = .fin R) (h1 : R ≤ 1) (h2 : c * R ≤ 1) :
    llgSolve it A (vsc c x) (vsc c rhs) ld = (llgSolve it A x rhs ld).map (vsc c) := by
  unfold llgSolve
  rw [bicgMask_vsc A ld hc]
  cases h : bicgMask it.reset A x rhs ld with
  | none => rfl
  | some st =>
    obtain ⟨e1, e2, e3⟩ := bicgMask_end A ld it.reset rfl x rhs h
    dsimp only [Option.map_some]
    obtain ⟨st', hst', hd, _⟩ := C14_bicg_mask it.reset rfl A x rhs ld
    rw [h] at hst'
    obtain rfl : st = st' := Option.some.inj hst'
    have e1' : st.iter.resmax = .fin tol := e1.trans ht
    rcases hd with q | q | q
    · have hle := e3 q
      rw [e2, hR, e1'] at hle
      have g1 : ¬ st.iter.res.gt st.iter.resmax := by
        rw [e1']
        generalize st.iter.res = y at hle
        rcases y with _ | s | y
        · exact fun h => h
        · have hs : s = true := hle
          subst hs
          exact fun h => h rfl
        · have hs : y ≤ R * tol := hle
          exact fun h => h (show y ≤ tol by nlinarith)
      have g2 : ¬ (sc c st.iter.res).gt st.iter.resmax := by
        rw [e1']
        generalize st.iter.res = y at hle
        rcases y with _ | s | y
        · exact fun h => h
        · have hs : s = true := hle
          subst hs
          exact fun h => h rfl
        · have hs : y ≤ R * tol := hle
          refine fun h => h (show c * y ≤ tol from ?_)
          have := mul_le_mul_of_nonneg_left hs hc.le
          nlinarith
      rw [if_neg, if_neg]
      · rfl
      · rintro (g | g | g)
        · rw [q] at g; cases g
        · rw [q] at g; cases g
        · exact g1 g
      · rintro (g | g | g)
        · exact absurd (q.symm.trans g) (by decide)
        · exact absurd (q.symm.trans g) (by decide)
        · exact g2 g
    · rw [if_pos (Or.inl q), if_pos (Or.inl (show (bsc c st).iter.status = _ from q))]
      rfl
    · rw [if_pos (Or.inr (Or.inl q)), if_pos (Or.inr (Or.inl (show (bsc c st).iter.status = _ from q)))]
      rfl

/-- for a smaller system no condition on the norms is needed where the solver succeeds -/
theorem llgSolve_weaker (h1 : c ≤ 1) (it : Iter) {tol : ℝ} (ht : it.resmax = .fin tol) (h0 : 0 ≤ tol) (x rhs y : Vec n)
    (h : llgSolve it A x rhs ld = some y) : llgSolve it A (vsc c x) (vsc c rhs) ld = some (vsc c y) := by
  unfold llgSolve at h ⊢
  rw [bicgMask_vsc A ld hc]
  cases hm : bicgMask it.reset A x rhs ld with
  | none => rw [hm] at h; cases h
  | some st =>
    rw [hm] at h
    dsimp only at h
    obtain ⟨e1, -, -⟩ := bicgMask_end A ld it.reset rfl x rhs hm
    have e1' : st.iter.resmax = .fin tol := e1.trans ht
    dsimp only [Option.map_some]
    split_ifs at h with hcond
    injection h with h
    subst h
    rw [if_neg]
    · rfl
    · rintro (g | g | g)
      · exact hcond (Or.inl g)
      · exact hcond (Or.inr (Or.inl g))
      · refine hcond (Or.inr (Or.inr ?_))
        change (sc c st.iter.res).gt st.iter.resmax at g
        rw [e1'] at g ⊢
        generalize st.iter.res = z at g
        rcases z with _ | s | z
        · exact g
        · exact g
        · refine fun hz => g (show c * z ≤ tol from ?_)
          have hz : z ≤ tol := hz
          rcases le_total 0 z with q | q
          · nlinarith
          · nlinarith

omit hc in
theorem lift_vsc (y : Fin n → ℝ) : (lift fun i => c * y i) = vsc c (lift y) := rfl

omit hc in
/-- the guess is made of the velocities -/
theorem initGuess_nodes {m : ℕ} (gamma0 : ℝ) (magN : List Bool) (nd : Fin m → Node) :
    LlgSolve.initGuess gamma0 magN (nodes c nd) = fun r => c * LlgSolve.initGuess gamma0 magN nd r := by
  funext r
  unfold LlgSolve.initGuess
  dsimp only
  have e1 : ∀ i, (nodes c nd i).projEp = c * (nd i).projEp := fun i => by
    unfold Node.projEp
    show (c * (nd i).next.v : V3).dot (nd i).ep = _
    simp only [V3.dot, V3.smul_x, V3.smul_y, V3.smul_z]
    ring
  have e2 : ∀ i, (nodes c nd i).projEq = c * (nd i).projEq := fun i => by
    unfold Node.projEq
    show (c * (nd i).next.v : V3).dot (nd i).eq = _
    simp only [V3.dot, V3.smul_x, V3.smul_y, V3.smul_z]
    ring
  rw [e1, e2]
  split_ifs
  · ring
  · ring
  · rw [mul_zero]

/-- the size of the right hand side, over the unknowns that are solved for -/
noncomputable def rhsNorm (m : ℕ) (magN : List Bool) (b : List ℝ) : ℝ := freeNorm (LlgSolve.lvd m magN) fun r => b.getD r 0

omit hc in
theorem lift_rhs {m : ℕ} (L : List ℝ) :
    (lift fun r : Fin (2 * m) => (L.map (c * ·)).getD r 0) = vsc c (lift fun r : Fin (2 * m) => L.getD r 0) := by
  funext r
  show Fl.fin ((L.map (c * ·)).getD r 0) = Fl.fin (c * L.getD r 0)
  rw [List.getD_eq_getElem?_getD, List.getElem?_map, List.getD_eq_getElem?_getD]
  cases L[(r : ℕ)]? with
  | none => simp
  | some y => rfl

theorem solve_weaker (h1 : c ≤ 1) {m : ℕ} (it : Iter) {tol : ℝ} (ht : it.resmax = .fin tol) (h0 : 0 ≤ tol) (gamma0 : ℝ) (magN : List Bool)
    (nd : Fin m → Node) (K : SparseMat.Sp ℝ) (L : List ℝ) {y : Vec (2 * m)} (h : LlgSolve.solve it gamma0 magN nd K L = some y) :
    LlgSolve.solve it gamma0 magN (nodes c nd) K (L.map (c * ·)) = some (vsc c y) := by
  unfold LlgSolve.solve at h ⊢
  rw [initGuess_nodes, lift_vsc, lift_rhs]
  exact llgSolve_weaker _ _ hc h1 it ht h0 _ _ _ h

theorem solve_scale {m : ℕ} (it : Iter) {tol : ℝ} (ht : it.resmax = .fin tol) (h0 : 0 ≤ tol) (gamma0 : ℝ) (magN : List Bool)
    (nd : Fin m → Node) (K : SparseMat.Sp ℝ) (L : List ℝ) (h1 : rhsNorm m magN L ≤ 1) (h2 : c * rhsNorm m magN L ≤ 1) :
    LlgSolve.solve it gamma0 magN (nodes c nd) K (L.map (c * ·)) = (LlgSolve.solve it gamma0 magN nd K L).map (vsc c) := by
  unfold LlgSolve.solve
  rw [initGuess_nodes, lift_vsc, lift_rhs]
  refine llgSolve_vsc _ _ hc it ht h0 _ _ (R := rhsNorm m magN L) ?_ h1 h2
  rw [applyMask_lift, norm_lift]
  unfold rhsNorm freeNorm
  congr 2
  refine Finset.sum_congr rfl fun i _ => ?_
  unfold maskR
  split_ifs <;> simp

end vec

end Verif.Rescale
