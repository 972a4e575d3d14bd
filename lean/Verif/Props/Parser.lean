import Verif.Spec.Parser
import Mathlib.Tactic.IntervalCases

/-!
# C54: evaluation of user functions
-/

namespace Verif.Parser

open Verif.Text

variable {W V : Type} {α β : Type}

/-- the stack that goes with a current function -/
def onStack (o : Outcome (α × W × Option V)) : Outcome (α × W × List V) :=
  match o with
  | .val (a, w, cur) => .val (a, w, cur.toList)
  | .exit => .exit
  | .fatal => .fatal

theorem bind_val {m : Act W V α} {f : α → Act W V β} {s : W × List V} {a : α} {w : W} {st : List V}
    (h : m s = .val (a, w, st)) : (m >>= f) s = f a (w, st) := by
  show Act.bind m f s = _
  unfold Act.bind
  rw [h]

theorem bind_exit {m : Act W V α} {f : α → Act W V β} {s : W × List V} (h : m s = .exit) : (m >>= f) s = .exit := by
  show Act.bind m f s = _
  unfold Act.bind
  rw [h]

theorem bind_fatal {m : Act W V α} {f : α → Act W V β} {s : W × List V} (h : m s = .fatal) : (m >>= f) s = .fatal := by
  show Act.bind m f s = _
  unfold Act.bind
  rw [h]

theorem push_val {v : V} {w : W} {st : List V} (h : st.length < reserve) : push v (w, st) = .val ((), w, v :: st) :=
  if_pos h

/-- a component is read without changing the stack -/
theorem component_eq (E : Engine W V) (i : ℕ) (w : W) (v : V) (st : List V) (h : (v :: st).length < reserve) :
    getVectorComponent E i (w, v :: st) = match component E w v i with
      | .exit => .exit
      | .fatal => .fatal
      | .val (x, w) => .val (x, w, v :: st) := by
  unfold getVectorComponent component
  cases hp : E.getProp w v i with
  | mk w' r =>
    cases r with
    | none =>
      refine bind_fatal ?_
      show (match E.getProp w v i with | (_, none) => _ | (w, some none) => _ | (w, some (some x)) => _) = _
      rw [hp]
    | some r =>
      cases r with
      | none =>
        have e : getPropIdx E i (w, v :: st) = .val (false, w', E.undef :: v :: st) := by
          show (match E.getProp w v i with | (_, none) => _ | (w, some none) => _ | (w, some (some x)) => _) = _
          rw [hp]
          exact bind_val (push_val h)
        rw [bind_val e]
        rfl
      | some x =>
        have e : getPropIdx E i (w, v :: st) = .val (true, w', x :: v :: st) := by
          show (match E.getProp w v i with | (_, none) => _ | (w, some none) => _ | (w, some (some x)) => _) = _
          rw [hp]
          exact bind_val (push_val h)
        rw [bind_val e]
        rfl

/-- with the function and its arguments on the stack, the vector is computed and all of them are removed -/
theorem computeVector_eq (E : Engine W V) (w : W) (f : V) (args st : List V) (h : st.length + 1 < reserve) :
    computeVector E args.length (w, args.reverse ++ f :: st) = match E.call w f args with
      | (_, .inr _) => .exit
      | (w, .inl v) => match components E w v with
        | .exit => .exit
        | .fatal => .fatal
        | .val (xyz, w) => .val (xyz, w, st) := by
  unfold computeVector
  have hd : (args.reverse ++ f :: st).drop args.length = f :: st := by
    rw [← List.length_reverse, List.drop_left]
  have ht : ((args.reverse ++ f :: st).take args.length).reverse = args := by
    rw [← List.length_reverse, List.take_left, List.reverse_reverse]
  have hcall : pcall E args.length (w, args.reverse ++ f :: st) = match E.call w f args with
      | (w, .inl v) => .val (true, w, v :: st)
      | (w, .inr e) => .val (false, w, e :: st) := by
    unfold pcall
    simp only [hd, ht]
    rfl
  cases hc : E.call w f args with
  | mk w' r =>
    rw [hc] at hcall
    cases r with
    | inr e =>
      rw [bind_val hcall]
      rfl
    | inl v =>
      rw [bind_val hcall]
      dsimp only
      rw [bind_val (show dieIfError true (w', v :: st) = .val ((), w', v :: st) from rfl)]
      have hl : (v :: st).length < reserve := by simpa using h
      unfold components
      have c0 := component_eq E 0 w' v st hl
      cases h0 : component E w' v 0 with
      | exit => rw [h0] at c0; exact bind_exit c0
      | fatal => rw [h0] at c0; exact bind_fatal c0
      | val p0 =>
        obtain ⟨x, w1⟩ := p0
        rw [h0] at c0
        rw [bind_val c0]
        dsimp only
        have c1 := component_eq E 1 w1 v st hl
        cases h1 : component E w1 v 1 with
        | exit => rw [h1] at c1; exact bind_exit c1
        | fatal => rw [h1] at c1; exact bind_fatal c1
        | val p1 =>
          obtain ⟨y, w2⟩ := p1
          rw [h1] at c1
          rw [bind_val c1]
          dsimp only
          have c2 := component_eq E 2 w2 v st hl
          cases h2 : component E w2 v 2 with
          | exit => rw [h2] at c2; exact bind_exit c2
          | fatal => rw [h2] at c2; exact bind_fatal c2
          | val p2 =>
            obtain ⟨z, w3⟩ := p2
            rw [h2] at c2
            rw [bind_val c2]
            rfl

/-- the loop over the regions writes the names into the array and leaves the stack -/
theorem pushRegions_eq (E : Engine W V) (rs : List Str) : ∀ (i : ℕ) (w : W) (a : V) (st : List V),
    (a :: st).length < reserve →
    pushRegions E i rs (w, a :: st) = .val ((), (rs.zipIdx i).foldl (fun w r => E.putIdx w a r.2 (E.str r.1)) w, a :: st) := by
  induction rs with
  | nil => intro i w a st _; rfl
  | cons r rs ih =>
    intro i w a st h
    unfold pushRegions
    rw [bind_val (push_val h), bind_val (show putPropIndex E i (w, E.str r :: a :: st) =
      .val ((), E.putIdx w a i (E.str r), a :: st) from rfl), ih _ _ _ _ h, List.zipIdx_cons, List.foldl_cons]

/-- one call on a stack that holds exactly the current function -/
theorem call_eq (E : Engine W V) (c : Call) (w : W) (cur : Option V) :
    c.exec E (w, cur.toList) = onStack (c.spec E w cur) := by
  have hdef : ∀ js : Str, ((do setFunction E js; pure Ret.unit) : Act W V Ret) (w, cur.toList) =
      onStack (define E w js) := by
    intro js
    have e : setFunction E js (w, cur.toList) = match E.compile w js with
        | (_, .inr _) => .exit
        | (w, .inl f) => .val ((), w, [f]) := by
      unfold setFunction
      rw [bind_val (show (clear : Act W V Unit) (w, cur.toList) = .val ((), w, []) from rfl)]
      have hp : pcompile E js (w, []) = match E.compile w js with
        | (w, .inr e) => .val (false, w, [e])
        | (w, .inl f) => .val (true, w, [f]) := by
        unfold pcompile
        dsimp only
        cases E.compile w js with
        | mk w' r =>
          cases r with
          | inl f => exact bind_val (push_val (show 0 < reserve by decide))
          | inr e => exact bind_val (push_val (show 0 < reserve by decide))
      cases hc : E.compile w js with
      | mk w' r =>
        rw [hc] at hp
        cases r with
        | inr e => rw [bind_val hp]; rfl
        | inl f => rw [bind_val hp]; rfl
    unfold define
    cases hc : E.compile w js with
    | mk w' r =>
      rw [hc] at e
      cases r with
      | inr e' => exact bind_exit e
      | inl f => exact bind_val e
  have happ : ∀ (m : Act W V (Fl × Fl × Fl)) (w' : W) (args : List V),
      (∀ f, m (w, [f]) = computeVector E args.length (w', args.reverse ++ f :: [f])) →
      (m (w, []) = .fatal) →
      (m >>= fun v => pure (Ret.vector v)) (w, cur.toList) = onStack (applyVector E w' cur args) := by
    intro m w' args h1 h2
    cases cur with
    | none => exact bind_fatal h2
    | some f =>
      have e := h1 f
      rw [computeVector_eq E w' f args [f] (show 2 < reserve by decide)] at e
      unfold applyVector
      dsimp only
      cases hc : E.call w' f args with
      | mk w1 r =>
        rw [hc] at e
        cases r with
        | inr e' => exact bind_exit e
        | inl v =>
          dsimp only at e ⊢
          cases hk : components E w1 v with
          | exit => rw [hk] at e; exact bind_exit e
          | fatal => rw [hk] at e; exact bind_fatal e
          | val p =>
            obtain ⟨xyz, w2⟩ := p
            rw [hk] at e
            exact bind_val e
  cases c with
  | setFunction js => exact hdef js
  | setExpressions p x y z => exact hdef _
  | parameterCount => cases cur <;> rfl
  | scalar a =>
    cases cur with
    | none => exact bind_fatal (bind_fatal rfl)
    | some f =>
      show (getScalar E a >>= fun x => pure (Ret.scalar x)) (w, [f]) = _
      have e : getScalar E a (w, [f]) = match E.call w f [E.num a] with
          | (_, .inr _) => .exit
          | (w, .inl v) => .val (E.toNum v, w, [f]) := by
        unfold getScalar
        rw [bind_val (show dupTop (w, [f]) = .val ((), w, [f, f]) from rfl),
          bind_val (show push (E.num a) (w, [f, f]) = .val ((), w, [E.num a, f, f]) from rfl)]
        have hcall : pcall E 1 (w, [E.num a, f, f]) = match E.call w f [E.num a] with
          | (w, .inl v) => .val (true, w, [v, f])
          | (w, .inr e) => .val (false, w, [e, f]) := rfl
        cases hc : E.call w f [E.num a] with
        | mk w' r =>
          rw [hc] at hcall
          cases r with
          | inr e => rw [bind_val hcall]; rfl
          | inl v => rw [bind_val hcall]; rfl
      show _ = onStack (match E.call w f [E.num a] with
          | (_, .inr _) => .exit
          | (w, .inl v) => .val (Ret.scalar (E.toNum v), w, some f))
      cases hc : E.call w f [E.num a] with
      | mk w' r =>
        rw [hc] at e
        cases r with
        | inr e' => exact bind_exit e
        | inl v => exact bind_val e
  | vectorT a =>
    exact happ (getVectorT E a) w [E.num a] (fun f => by
      unfold getVectorT
      rw [bind_val (show dupTop (w, [f]) = .val ((), w, [f, f]) from rfl),
        bind_val (show push (E.num a) (w, [f, f]) = .val ((), w, [E.num a, f, f]) from rfl)]
      rfl) (bind_fatal rfl)
  | vectorP x y z =>
    exact happ (getVectorP E x y z) w [E.num x, E.num y, E.num z] (fun f => by
      unfold getVectorP
      rw [bind_val (show dupTop (w, [f]) = .val ((), w, [f, f]) from rfl),
        bind_val (show push (E.num x) (w, [f, f]) = .val ((), w, [E.num x, f, f]) from rfl),
        bind_val (show push (E.num y) (w, [E.num x, f, f]) = .val ((), w, [E.num y, E.num x, f, f]) from rfl),
        bind_val (show push (E.num z) (w, [E.num y, E.num x, f, f]) =
          .val ((), w, [E.num z, E.num y, E.num x, f, f]) from rfl)]
      rfl) (bind_fatal rfl)
  | vectorR x y z rs =>
    exact happ (getVectorR E x y z rs) (arrayOf E w rs).1 [E.num x, E.num y, E.num z, (arrayOf E w rs).2] (fun f => by
      unfold getVectorR
      rw [bind_val (show dupTop (w, [f]) = .val ((), w, [f, f]) from rfl),
        bind_val (show push (E.num x) (w, [f, f]) = .val ((), w, [E.num x, f, f]) from rfl),
        bind_val (show push (E.num y) (w, [E.num x, f, f]) = .val ((), w, [E.num y, E.num x, f, f]) from rfl),
        bind_val (show push (E.num z) (w, [E.num y, E.num x, f, f]) =
          .val ((), w, [E.num z, E.num y, E.num x, f, f]) from rfl),
        bind_val (show pushArray E (w, [E.num z, E.num y, E.num x, f, f]) =
          .val ((), (E.newArray w).1, [(E.newArray w).2, E.num z, E.num y, E.num x, f, f]) from rfl),
        bind_val (pushRegions_eq E rs 0 (E.newArray w).1 (E.newArray w).2 [E.num z, E.num y, E.num x, f, f] (by
          simp [reserve]))]
      rfl) (bind_fatal rfl)

/-- **C54** Whatever the interpreter does with the programs, any sequence of calls of the expression parser behaves as if
there were only a current function applied to its arguments: same values returned, same end; and as long as no call
fails, the stack then holds exactly the last function given. -/
theorem C54_refines (E : Engine W V) (calls : List Call) (w : W) (cur : Option V) :
    runCalls E calls (w, cur.toList) = onStack (specCalls E w cur calls) := by
  induction calls generalizing w cur with
  | nil => rfl
  | cons c cs ih =>
    unfold runCalls specCalls
    have e := call_eq E c w cur
    cases hc : c.spec E w cur with
    | exit => rw [hc] at e; exact bind_exit e
    | fatal => rw [hc] at e; exact bind_fatal e
    | val p =>
      obtain ⟨r, w1, cur1⟩ := p
      rw [hc] at e
      rw [bind_val e]
      dsimp only
      have e1 := ih w1 cur1
      cases h1 : specCalls E w1 cur1 cs with
      | exit => rw [h1] at e1; exact bind_exit e1
      | fatal => rw [h1] at e1; exact bind_fatal e1
      | val p =>
        obtain ⟨rs, w2, cur2⟩ := p
        rw [h1] at e1
        exact bind_val e1

/-- the current function after a sequence of calls that did not fail is the one compiled by the last definition -/
theorem spec_current (E : Engine W V) (c : Call) (w w' : W) (f : V) (cur' : Option V) (r : Ret)
    (h : c.spec E w (some f) = .val (r, w', cur')) :
    (∃ js, (c = .setFunction js ∨ ∃ p x y z, c = .setExpressions p x y z ∧ js = expressions p x y z) ∧
      ∃ w1 g, E.compile w js = (w1, .inl g) ∧ cur' = some g) ∨ cur' = some f := by
  have hdef : ∀ js, define E w js = .val (r, w', cur') → ∃ w1 g, E.compile w js = (w1, .inl g) ∧ cur' = some g := by
    intro js hd
    unfold define at hd
    cases hc : E.compile w js with
    | mk w1 x =>
      rw [hc] at hd
      cases x with
      | inr e => cases hd
      | inl g =>
        injection hd with hd
        have := congrArg (fun p => p.2.2) hd
        exact ⟨w1, g, rfl, this.symm⟩
  have happ : ∀ (w0 : W) (args : List V), applyVector E w0 (some f) args = .val (r, w', cur') → cur' = some f := by
    intro w0 args hd
    unfold applyVector at hd
    dsimp only at hd
    cases hc : E.call w0 f args with
    | mk w1 x =>
      rw [hc] at hd
      cases x with
      | inr e => cases hd
      | inl v =>
        dsimp only at hd
        cases hk : components E w1 v with
        | exit => rw [hk] at hd; cases hd
        | fatal => rw [hk] at hd; cases hd
        | val p =>
          rw [hk] at hd
          injection hd with hd
          exact (congrArg (fun p => p.2.2) hd).symm
  cases c with
  | setFunction js => exact Or.inl ⟨js, Or.inl rfl, hdef js h⟩
  | setExpressions p x y z => exact Or.inl ⟨_, Or.inr ⟨p, x, y, z, rfl, rfl⟩, hdef _ h⟩
  | parameterCount =>
    injection h with h
    exact Or.inr (congrArg (fun p => p.2.2) h).symm
  | scalar a =>
    right
    have h : (match E.call w f [E.num a] with
      | (_, .inr _) => Outcome.exit
      | (w, .inl v) => .val (Ret.scalar (E.toNum v), w, some f)) = .val (r, w', cur') := h
    cases hc : E.call w f [E.num a] with
    | mk w1 x =>
      rw [hc] at h
      cases x with
      | inr e => cases h
      | inl v =>
        injection h with h
        exact (congrArg (fun p => p.2.2) h).symm
  | vectorT a => exact Or.inr (happ _ _ h)
  | vectorP x y z => exact Or.inr (happ _ _ h)
  | vectorR x y z rs => exact Or.inr (happ _ _ h)

/-- calls that do not define a function -/
def Call.IsEval : Call → Prop
  | .setFunction _ | .setExpressions _ _ _ _ => False
  | _ => True

/-- **C54** After any number of successful evaluations the stack holds exactly the function, nothing else. -/
theorem C54_stack (E : Engine W V) (w : W) (f : V) (calls : List Call) (he : ∀ c ∈ calls, c.IsEval) (rs : List Ret)
    (w' : W) (st : List V) (h : runCalls E calls (w, [f]) = .val (rs, w', st)) :
    st = [f] ∧ rs.length = calls.length := by
  have hspec : ∀ (calls : List Call) (w w' : W) (rs : List Ret) (cur' : Option V), (∀ c ∈ calls, c.IsEval) →
      specCalls E w (some f) calls = .val (rs, w', cur') → cur' = some f ∧ rs.length = calls.length := by
    intro calls
    induction calls with
    | nil =>
      intro w w' rs cur' _ h
      injection h with h
      refine ⟨(congrArg (fun p => p.2.2) h).symm, ?_⟩
      have := congrArg (fun p => p.1) h
      dsimp only at this
      rw [← this]
      rfl
    | cons c cs ih =>
      intro w w' rs cur' he h
      unfold specCalls at h
      cases hc : c.spec E w (some f) with
      | exit => rw [hc] at h; cases h
      | fatal => rw [hc] at h; cases h
      | val p =>
        obtain ⟨r, w1, cur1⟩ := p
        rw [hc] at h
        dsimp only at h
        have hcur : cur1 = some f := by
          rcases spec_current E c w w1 f cur1 r hc with ⟨js, h1 | ⟨p, x, y, z, h1, -⟩, -⟩ | h1
          · exact absurd (he c List.mem_cons_self) (by rw [h1]; exact id)
          · exact absurd (he c List.mem_cons_self) (by rw [h1]; exact id)
          · exact h1
        subst hcur
        cases h1 : specCalls E w1 (some f) cs with
        | exit => rw [h1] at h; cases h
        | fatal => rw [h1] at h; cases h
        | val p =>
          obtain ⟨rs', w2, cur2⟩ := p
          rw [h1] at h
          obtain ⟨k1, k2⟩ := ih w1 w2 rs' cur2 (fun c hc => he c (List.mem_cons_of_mem _ hc)) h1
          injection h with h
          have a1 := congrArg (fun p => p.1) h
          have a2 := congrArg (fun p => p.2.2) h
          dsimp only at a1 a2
          rw [← a1, ← a2]
          exact ⟨k1, by simp [k2]⟩
  have e := C54_refines E calls w (some f)
  have e : runCalls E calls (w, [f]) = _ := e
  rw [h] at e
  cases hs : specCalls E w (some f) calls with
  | exit => rw [hs] at e; cases e
  | fatal => rw [hs] at e; cases e
  | val p =>
    obtain ⟨rs', w2, cur2⟩ := p
    rw [hs] at e
    obtain ⟨k1, k2⟩ := hspec calls w w2 rs' cur2 he hs
    injection e with e
    have a1 := congrArg (fun p => p.1) e
    have a2 := congrArg (fun p => p.2.2) e
    dsimp only [onStack] at a1 a2
    rw [a1, a2, k1]
    exact ⟨rfl, k2⟩

/-- Evaluating before any function was given is fatal. -/
theorem C54_no_function (E : Engine W V) (w : W) (a x y z : Fl) (rs : List Str) :
    runCalls E [.scalar a] (w, []) = .fatal ∧ runCalls E [.vectorT a] (w, []) = .fatal ∧
    runCalls E [.vectorP x y z] (w, []) = .fatal ∧ runCalls E [.vectorR x y z rs] (w, []) = .fatal := by
  refine ⟨?_, ?_, ?_, ?_⟩ <;> exact (C54_refines E _ w none).trans rfl

/-! ### three expressions, three components -/

/-- the change of the depth of brackets at a character -/
def bracket (c : Char) : ℤ := if c ∈ ['(', '[', '{'] then 1 else if c ∈ [')', ']', '}'] then -1 else 0

/-- the brackets of a text are closed in the text: no prefix closes more than it opens, and the text closes all -/
def Balanced (s : Str) : Prop := (∀ a b, s = a ++ b → 0 ≤ (a.map bracket).sum) ∧ (s.map bracket).sum = 0

/-- the items of a list: the text is cut at the commas which are in no bracket; `d` is the depth reached -/
def cutAt : ℤ → Str → List Str
  | _, [] => [[]]
  | d, c :: s =>
    if c = ',' ∧ d = 0 then [] :: cutAt d s
    else match cutAt (d + bracket c) s with
      | [] => [[c]]
      | item :: l => (c :: item) :: l

theorem cutAt_ne_nil (s : Str) (d : ℤ) : cutAt d s ≠ [] := by
  cases s with
  | nil => simp [cutAt]
  | cons c s =>
    unfold cutAt
    split_ifs
    · simp
    · split <;> simp

/-- a text inside a bracket is not cut -/
theorem cutAt_inside (s t : Str) : ∀ d : ℤ, 0 < d → (∀ a b, s = a ++ b → 0 ≤ (a.map bracket).sum) →
    ∀ item l, cutAt (d + (s.map bracket).sum) t = item :: l → cutAt d (s ++ t) = (s ++ item) :: l := by
  -- the depth stays positive along the text
  suffices H : ∀ d : ℤ, (∀ a b, s = a ++ b → 0 < d + (a.map bracket).sum) →
      ∀ item l, cutAt (d + (s.map bracket).sum) t = item :: l → cutAt d (s ++ t) = (s ++ item) :: l from
    fun d hd hp => H d fun a b e => by have := hp a b e; omega
  induction s with
  | nil => intro d _ item l h; simpa using h
  | cons c s ih =>
    intro d hp item l h
    have h0 : 0 < d := by simpa using hp [] (c :: s) rfl
    have h1 := ih (d + bracket c) (fun a b e => by
      have := hp (c :: a) b (by rw [e]; rfl)
      simp only [List.map_cons, List.sum_cons] at this
      omega) item l (by
        simp only [List.map_cons, List.sum_cons] at h
        rw [show d + bracket c + (s.map bracket).sum = d + (bracket c + (s.map bracket).sum) by omega]
        exact h)
    simp only [List.cons_append, cutAt]
    rw [if_neg (by omega), h1]

theorem cutAt_cons (c : Char) (s : Str) (d : ℤ) (h : ¬ (c = ',' ∧ d = 0)) (item : Str) (l : List Str)
    (e : cutAt (d + bracket c) s = item :: l) : cutAt d (c :: s) = (c :: item) :: l := by
  conv_lhs => unfold cutAt
  rw [if_neg h, e]

/-- **C54** Three expressions make a function of their parameters which returns an array of exactly three items, the
expressions themselves: commas in an expression do not make more items. -/
theorem C54_three_components (params x y z : Str) (hx : Balanced x) (hy : Balanced y) (hz : Balanced z) :
    ∃ items, expressions params x y z = "function(".toList ++ params ++ ") { return [".toList ++ items ++ "]; }".toList ∧
      cutAt 0 items = ["(".toList ++ x ++ ")".toList, " (".toList ++ y ++ ")".toList, " (".toList ++ z ++ ")".toList] := by
  refine ⟨"(".toList ++ x ++ "), (".toList ++ y ++ "), (".toList ++ z ++ ")".toList, ?_, ?_⟩
  · unfold expressions
    simp
  · have b1 : bracket '(' = 1 := rfl
    have b2 : bracket ')' = -1 := rfl
    have b3 : bracket ' ' = 0 := rfl
    have inside : ∀ (s t : Str), Balanced s → ∀ item l, cutAt 0 t = item :: l →
        cutAt 0 ('(' :: (s ++ ')' :: t)) = ('(' :: (s ++ ')' :: item)) :: l := by
      intro s t hs item l e
      refine cutAt_cons _ _ _ (by simp) _ _ ?_
      rw [b1]
      refine cutAt_inside s _ (0 + 1) (by norm_num) hs.1 _ _ ?_
      rw [hs.2]
      refine cutAt_cons _ _ _ (by simp) _ _ ?_
      rw [b2]
      exact e
    have comma : ∀ t : Str, cutAt 0 (',' :: t) = [] :: cutAt 0 t := fun t => by
      conv_lhs => unfold cutAt
      rw [if_pos ⟨rfl, rfl⟩]
    have space : ∀ (t item : Str) (l : List Str), cutAt 0 t = item :: l → cutAt 0 (' ' :: t) = (' ' :: item) :: l :=
      fun t item l e => cutAt_cons _ _ _ (by simp) _ _ (by rw [b3]; exact e)
    have e3 : cutAt 0 ('(' :: (z ++ [')'])) = [('(' :: (z ++ [')']))] := inside z [] hz [] [] rfl
    have e2 := inside y (',' :: ' ' :: '(' :: (z ++ [')'])) hy [] _ (by rw [comma, space _ _ _ e3])
    have e1 := inside x (',' :: ' ' :: '(' :: (y ++ ')' :: ',' :: ' ' :: '(' :: (z ++ [')']))) hx [] _
      (by rw [comma, space _ _ _ e2])
    simpa using e1

/-- the expressions of a field that turns, one of them with a comma -/
example : Balanced "cos(t)".toList ∧ Balanced "Math.atan2(t,1)".toList ∧ Balanced "1,0".toList := by
  refine ⟨?_, ?_, ?_⟩ <;>
  · refine ⟨fun a b h => ?_, by decide⟩
    have : a = (a ++ b).take a.length := by simp
    rw [← h] at this
    rw [this]
    generalize a.length = k
    have hk : k < 16 ∨ 16 ≤ k := by omega
    rcases hk with hk | hk
    · interval_cases k <;> decide
    · rw [List.take_of_length_le (by simpa using by omega)]
      decide

/-! ### an interpreter -/

/-- an interpreter for the one function `f(args) = args` -/
inductive ExV
  | fn
  | num (x : Fl)
  | list (l : List ExV)
  | undef

def exE : Engine Unit ExV where
  compile := fun w src => match src with
    | [] => (w, .inr .undef)
    | _ :: _ => (w, .inl .fn)
  call := fun w f args => match f with
    | .fn => (w, .inl (.list args))
    | _ => (w, .inr .undef)
  getProp := fun w v i => match v with
    | .list l => (w, some l[i]?)
    | .num _ => (w, some none)
    | _ => (w, none)
  undef := .undef
  num := .num
  toNum := fun v => match v with
    | .num x => x
    | _ => .nan
  newArray := fun w => (w, .list [])
  str := fun _ => .undef
  putIdx := fun w _ _ _ => w
  length := fun _ _ => 3

/-- a definition and two evaluations: the values come out, the function remains -/
example : runCalls exE [.setFunction ['f'], .vectorP (.fin 1) (.fin 2) (.fin 3), .vectorP (.fin 4) (.fin 5) (.fin 6)]
    ((), []) = .val ([.unit, .vector (.fin 1, .fin 2, .fin 3), .vector (.fin 4, .fin 5, .fin 6)], (), [.fn]) :=
  (C54_refines exE _ () none).trans rfl

/-- a function that does not return three components ends the program with a message -/
example : runCalls exE [.setFunction ['f'], .vectorT (.fin 1)] ((), []) = .exit :=
  (C54_refines exE _ () none).trans rfl

end Verif.Parser
