import Verif.Spec.DumpTree
import Verif.Props.Settings

/-!
# Lemmas: reading the printed settings, section by section
-/

namespace Verif.Settings

open Verif.Text

variable {D : Type}

theorem raw_assign (old t : Str) : assign some old (some (rawNode t)) = some (if t = [] then old else t) := by
  unfold rawNode
  by_cases h : t = []
  · rw [if_pos h, if_pos h]; rfl
  · rw [if_neg h, if_neg h]; rfl

theorem columns_read (old l : List Str) (hl : l ≠ []) (hn : ∀ c ∈ l, c ≠ []) :
    readColumns old (some (seqNode (l.map rawNode))) = some l := by
  unfold seqNode
  rw [if_neg (fun h => hl (List.map_eq_nil_iff.mp h))]
  show (l.map rawNode).mapM (asScalar some) = some l
  clear hl
  induction l with
  | nil => rfl
  | cons c l ih =>
    have e : rawNode c = .scalar c := if_neg (hn c List.mem_cons_self)
    rw [List.map_cons, List.mapM_cons, e, ih (fun c hc => hn c (List.mem_cons_of_mem _ hc))]
    rfl

theorem putItem_new (it : Str × Str) : ∀ l : List (Str × Str), (∀ p ∈ l, p.1 ≠ it.1) → putItem it l = l ++ [it] := by
  intro l
  induction l with
  | nil => intro _; rfl
  | cons p l ih =>
    intro h
    unfold putItem
    rw [if_neg (h p List.mem_cons_self), ih (fun q hq => h q (List.mem_cons_of_mem _ hq))]
    rfl

theorem putItems_new : ∀ (l acc : List (Str × Str)), ((acc ++ l).map Prod.fst).Nodup →
    putItems (l.map fun p => (p.1, Yaml.scalar p.2)) acc = some (acc ++ l) := by
  intro l
  induction l with
  | nil => intro acc _; rw [List.append_nil]; rfl
  | cons p l ih =>
    intro acc h
    have hnew : putItem (p.1, p.2) acc = acc ++ [p] := by
      apply putItem_new
      intro q hq e
      rw [List.map_append, List.nodup_append] at h
      exact h.2.2 q.1 (List.mem_map.mpr ⟨q, hq, rfl⟩) p.1 (List.mem_map.mpr ⟨p, List.mem_cons_self, rfl⟩) e
    show putItems (l.map fun p => (p.1, Yaml.scalar p.2)) (putItem (p.1, p.2) acc) = _
    rw [hnew, ih (acc ++ [p]) (by rw [List.append_assoc]; exact h), List.append_assoc]
    rfl

theorem metadata_read (l : List (Str × Str)) (h : (l.map Prod.fst).Nodup) :
    readMetadata [] (some (mapNode (l.map fun p => (p.1, .scalar p.2)))) = some l := by
  unfold mapNode
  by_cases he : l = []
  · subst he; rfl
  · rw [if_neg (fun h => he (List.map_eq_nil_iff.mp h))]
    exact putItems_new l [] h

theorem putItem_keys (it : Str × Str) : ∀ l : List (Str × Str), (l.map Prod.fst).Nodup → ((putItem it l).map Prod.fst).Nodup ∧
    ∀ k ∈ (putItem it l).map Prod.fst, k = it.1 ∨ k ∈ l.map Prod.fst := by
  intro l
  induction l with
  | nil =>
    intro _
    refine ⟨List.pairwise_singleton _ _, ?_⟩
    intro k hk
    exact Or.inl (List.mem_singleton.mp hk)
  | cons p l ih =>
    intro h
    rw [List.map_cons, List.nodup_cons] at h
    unfold putItem
    split
    · rename_i e
      rw [List.map_cons, List.nodup_cons, ← e]
      refine ⟨h, ?_⟩
      intro k hk
      exact Or.inr (by rw [List.map_cons]; exact hk)
    · rename_i e
      obtain ⟨i1, i2⟩ := ih h.2
      rw [List.map_cons, List.nodup_cons]
      refine ⟨⟨?_, i1⟩, ?_⟩
      · intro hm
        rcases i2 _ hm with h' | h'
        · exact e h'
        · exact h.1 h'
      · intro k hk
        rcases List.mem_cons.mp hk with rfl | hk
        · exact Or.inr (by rw [List.map_cons]; exact List.mem_cons_self)
        · rcases i2 k hk with h' | h'
          · exact Or.inl h'
          · exact Or.inr (by rw [List.map_cons]; exact List.mem_cons_of_mem _ h')

theorem putItems_keys : ∀ (items : List (Str × Yaml)) (l l' : List (Str × Str)), putItems items l = some l' →
    (l.map Prod.fst).Nodup → (l'.map Prod.fst).Nodup := by
  intro items
  induction items with
  | nil => intro l l' h hn; injection h with h; subst h; exact hn
  | cons it items ih =>
    intro l l' h hn
    obtain ⟨v, -, h⟩ := bind_some h
    exact ih _ _ h (putItem_keys _ _ hn).1

theorem period_read {C : Conv D} {P : Printer D} {ok : D → Prop} {r : D → D} (R : Reads C P ok r) (old n : ℤ) (hn : 0 ≤ n) :
    readPeriod C old (some (.scalar (P.int n))) = some n := by
  unfold readPeriod
  dsimp only
  rw [if_neg (R.intWord n).1, if_neg (R.intWord n).2, R.int]
  show some (if n < 0 then 0 else n) = some n
  rw [if_neg (by omega)]

theorem vec_read {C : Conv D} {P : Printer D} {ok : D → Prop} {r : D → D} (R : Reads C P ok r) (b : Bool) (old v : D × D × D)
    (hv : AllV ok v) : assignVec C b old (some (vecNode P v)) = some (if b then C.normalize (roundV r v) else roundV r v) := by
  show (do
    let x ← C.toD (P.num v.1)
    let y ← C.toD (P.num v.2.1)
    let z ← C.toD (P.num v.2.2)
    return if b then C.normalize (x, y, z) else (x, y, z)) = _
  rw [R.num _ hv.1, R.num _ hv.2.1, R.num _ hv.2.2]
  rfl

theorem bool_read {C : Conv D} {P : Printer D} {ok : D → Prop} {r : D → D} (R : Reads C P ok r) (old b : Bool) :
    assign C.toBool old (some (.scalar (boolText b))) = some b := by
  cases b
  · exact R.bool.2
  · exact R.bool.1

theorem outputs_read {C : Conv D} {P : Printer D} {ok : D → Prop} {r : D → D} (R : Reads C P ok r) (s b : All D)
    (ht : ok s.outputs.timeStep) (hf : ok s.outputs.finalTime) (hp : 0 ≤ s.outputs.savePeriod) (hd : s.outputs.directory ≠ [])
    (hc : s.outputs.evolColumns ≠ []) (hn : ∀ c ∈ s.outputs.evolColumns, c ≠ [])
    (hm : (s.outputs.userMetadata.map Prod.fst).Nodup) (hb : b.outputs.userMetadata = []) :
    readOutputs C b.outputs b.simName (some (dumpOutputs P s)) = some (⟨normalizeDir s.outputs.directory, r s.outputs.timeStep,
      r s.outputs.finalTime, s.outputs.savePeriod, s.outputs.evolColumns, s.outputs.userMetadata⟩,
      if s.simName = [] then b.simName else s.simName) := by
  have e1 : assign (fun s => some (normalizeDir s)) b.outputs.directory (some (rawNode s.outputs.directory)) =
      some (normalizeDir s.outputs.directory) := by
    unfold rawNode
    rw [if_neg hd]
    rfl
  show (do
    let directory ← assign (fun s => some (normalizeDir s)) b.outputs.directory (some (rawNode s.outputs.directory))
    let simName ← assign some b.simName (some (rawNode s.simName))
    let timeStep ← C.toD (P.num s.outputs.timeStep)
    let finalTime ← C.toD (P.num s.outputs.finalTime)
    let savePeriod ← readPeriod C b.outputs.savePeriod (some (.scalar (P.int s.outputs.savePeriod)))
    let evolColumns ← readColumns b.outputs.evolColumns (some (seqNode (s.outputs.evolColumns.map rawNode)))
    let userMetadata ← readMetadata b.outputs.userMetadata
      (some (mapNode (s.outputs.userMetadata.map fun p : Str × Str => (p.1, .scalar p.2))))
    return ((⟨directory, timeStep, finalTime, savePeriod, evolColumns, userMetadata⟩ : Outputs D), simName)) = _
  rw [e1, raw_assign, R.num _ ht, R.num _ hf, period_read R _ _ hp, columns_read _ _ hc hn, hb, metadata_read _ hm]
  rfl

theorem volume_read {C : Conv D} {P : Printer D} {ok : D → Prop} {r : D → D} (R : Reads C P ok r) (d p : TetraPrm D)
    (h : (ok p.A ∧ ok p.Ms ∧ ok p.K ∧ ok p.K3 ∧ ok p.alpha ∧ ok p.sigma ∧ ok p.N0 ∧ ok p.P ∧ ok p.lsd ∧ ok p.lsf) ∧
    AllV ok p.uk ∧ AllV ok p.ex ∧ AllV ok p.ey ∧ AllV ok p.ez) :
    ∃ q, readVolume C d p.regName (dumpVolume P p).2 = some q ∧ q.regName = p.regName ∧ SameVolume C P r p q := by
  obtain ⟨⟨hA, hMs, hK, hK3, ha, hs, hN, hP, hl, hf⟩, huk, hex, hey, hez⟩ := h
  have key : ∀ (nuk nex ney nez : Option Yaml) (uk ex ey ez : D × D × D), assignVec C true d.uk nuk = some uk →
      assignVec C true d.ex nex = some ex → assignVec C true d.ey ney = some ey → assignVec C true d.ez nez = some ez →
      (do
        let A ← C.toD (P.num p.A)
        let Ms ← C.toD (P.num p.Ms)
        let Ms ← assign (fun s => (C.toD s).map C.divMu0) Ms none
        if isScalar (some (.scalar (P.num p.Ms))) && isScalar none then none
        else do
          let K ← C.toD (P.num p.K)
          let uk ← assignVec C true d.uk nuk
          let K3 ← C.toD (P.num p.K3)
          let ex ← assignVec C true d.ex nex
          let ey ← assignVec C true d.ey ney
          let ez ← assignVec C true d.ez nez
          let alpha ← C.toD (P.num p.alpha)
          let sigma ← C.toD (P.num p.sigma)
          let N0 ← C.toD (P.num p.N0)
          let P' ← C.toD (P.num p.P)
          let lsd ← C.toD (P.num p.lsd)
          let lsf ← C.toD (P.num p.lsf)
          return (⟨p.regName, A, Ms, K, uk, K3, ex, ey, ez, alpha, sigma, N0, P', lsd, lsf⟩ : TetraPrm D)) =
      some ⟨p.regName, r p.A, r p.Ms, r p.K, uk, r p.K3, ex, ey, ez, r p.alpha, r p.sigma, r p.N0, r p.P, r p.lsd, r p.lsf⟩ := by
    intro nuk nex ney nez uk ex ey ez e1 e2 e3 e4
    rw [e1, e2, e3, e4, R.num _ hA, R.num _ hMs, R.num _ hK, R.num _ hK3, R.num _ ha, R.num _ hs, R.num _ hN, R.num _ hP,
      R.num _ hl, R.num _ hf]
    rfl
  unfold dumpVolume
  cases h1 : P.isZero p.K <;> cases h2 : P.isZero p.K3
  · exact ⟨_, key _ _ _ _ _ _ _ _ (vec_read R true _ _ huk) (vec_read R true _ _ hex) (vec_read R true _ _ hey)
      (vec_read R true _ _ hez), rfl, ⟨rfl, rfl, rfl, fun _ => rfl, rfl, fun _ => rfl, fun _ => rfl, fun _ => rfl, rfl, rfl, rfl, rfl,
      rfl, rfl⟩⟩
  · exact ⟨_, key _ none none none _ _ _ _ (vec_read R true _ _ huk) rfl rfl rfl, rfl, ⟨rfl, rfl, rfl, fun _ => rfl, rfl,
      fun h => absurd (h2.symm.trans h) (by decide), fun h => absurd (h2.symm.trans h) (by decide),
      fun h => absurd (h2.symm.trans h) (by decide), rfl, rfl, rfl, rfl, rfl, rfl⟩⟩
  · exact ⟨_, key none _ _ _ _ _ _ _ rfl (vec_read R true _ _ hex) (vec_read R true _ _ hey)
      (vec_read R true _ _ hez), rfl, ⟨rfl, rfl, rfl, fun h => absurd (h1.symm.trans h) (by decide), rfl, fun _ => rfl, fun _ => rfl,
      fun _ => rfl, rfl, rfl, rfl, rfl, rfl, rfl⟩⟩
  · exact ⟨_, key none none none none _ _ _ _ rfl rfl rfl rfl, rfl, ⟨rfl, rfl, rfl, fun h => absurd (h1.symm.trans h) (by decide), rfl,
      fun h => absurd (h2.symm.trans h) (by decide), fun h => absurd (h2.symm.trans h) (by decide),
      fun h => absurd (h2.symm.trans h) (by decide), rfl, rfl, rfl, rfl, rfl, rfl⟩⟩

theorem numOrNull_read {C : Conv D} {P : Printer D} {ok : D → Prop} {r : D → D} (R : Reads C P ok r) (old x : D)
    (hx : C.isNaN x = false → ok x) :
    assign C.toD old (some (numOrNull C P x)) = some (if C.isNaN x then old else r x) := by
  unfold numOrNull
  cases h : C.isNaN x
  · rw [if_neg (by decide), if_neg (by decide)]
    exact R.num _ (hx h)
  · rfl

/-- the current density is lost -/
theorem surface_read {C : Conv D} {P : Printer D} {ok : D → Prop} {r : D → D} (R : Reads C P ok r) (d p : TriPrm D) (spin : Bool)
    (h : ok p.Ks ∧ AllV ok p.uk ∧ (C.isNaN p.V = false → ok p.V) ∧ (spin = true → AllV ok p.uP ∧ AllV ok p.s)) :
    ∃ q, readSurface C d p.regName (dumpSurface C P spin p).2 = some q ∧ q.regName = p.regName ∧ q.jn = C.nan ∧
      (C.isNaN p.jn = true → SameSurface C P r spin p q) := by
  obtain ⟨hKs, huk, hV, hsp⟩ := h
  have key : ∀ (nuk nuP ns : Option Yaml) (uk uP s : D × D × D), assignVec C true d.uk nuk = some uk →
      assignVec C true (C.nan, C.nan, C.nan) nuP = some uP → assignVec C false (C.nan, C.nan, C.nan) ns = some s →
      (do
        let suppress ← assign C.toBool d.suppressCharges (some (.scalar (boolText p.suppressCharges)))
        let Ks ← C.toD (P.num p.Ks)
        let uk ← assignVec C true d.uk nuk
        let jn ← assign C.toD C.nan none
        let V ← assign C.toD C.nan (some (numOrNull C P p.V))
        if !C.isNaN jn && !C.isNaN V then none
        else do
          let uP ← assignVec C true (C.nan, C.nan, C.nan) nuP
          let s ← assignVec C false (C.nan, C.nan, C.nan) ns
          return (⟨p.regName, suppress, Ks, uk, jn, V, uP, s⟩ : TriPrm D)) =
      some ⟨p.regName, p.suppressCharges, r p.Ks, uk, C.nan, if C.isNaN p.V then C.nan else r p.V, uP, s⟩ := by
    intro nuk nuP ns uk uP s e1 e2 e3
    rw [e1, e2, e3, R.num _ hKs, bool_read R, numOrNull_read R _ _ hV]
    show (if !C.isNaN C.nan && !C.isNaN _ then none else _) = _
    rw [R.nan]
    rfl
  have hv : if C.isNaN p.V then C.isNaN (if C.isNaN p.V then C.nan else r p.V)
      else (if C.isNaN p.V then C.nan else r p.V) = r p.V := by
    cases h : C.isNaN p.V
    · rfl
    · exact R.nan
  have hj : C.isNaN p.jn = true → if C.isNaN p.jn then C.isNaN C.nan else C.nan = r p.jn := by
    intro h
    rw [if_pos h]
    exact R.nan
  unfold dumpSurface
  cases h1 : P.isZero p.Ks <;> cases h2 : spin
  · exact ⟨_, key _ none none _ _ _ (vec_read R true _ _ huk) rfl rfl, rfl, rfl, fun h => ⟨rfl, rfl, fun _ => rfl, hj h, hv,
      fun e => absurd e (by decide), fun e => absurd e (by decide)⟩⟩
  · exact ⟨_, key _ _ _ _ _ _ (vec_read R true _ _ huk) (vec_read R true _ _ (hsp h2).1) (vec_read R false _ _ (hsp h2).2), rfl, rfl,
      fun h => ⟨rfl, rfl, fun _ => rfl, hj h, hv, fun _ => rfl, fun _ => rfl⟩⟩
  · exact ⟨_, key none none none _ _ _ rfl rfl rfl, rfl, rfl, fun h => ⟨rfl, rfl, fun e => absurd (h1.symm.trans e) (by decide), hj h, hv,
      fun e => absurd e (by decide), fun e => absurd e (by decide)⟩⟩
  · exact ⟨_, key none _ _ _ _ _ rfl (vec_read R true _ _ (hsp h2).1) (vec_read R false _ _ (hsp h2).2), rfl, rfl,
      fun h => ⟨rfl, rfl, fun e => absurd (h1.symm.trans e) (by decide), hj h, hv, fun _ => rfl, fun _ => rfl⟩⟩

/-- the regions of the list, one after the other -/
theorem volumes_read {C : Conv D} {P : Printer D} {ok : D → Prop} {r : D → D} (R : Reads C P ok r) (d : TetraPrm D) :
    ∀ (l acc : List (TetraPrm D)), (∀ p ∈ l, (ok p.A ∧ ok p.Ms ∧ ok p.K ∧ ok p.K3 ∧ ok p.alpha ∧ ok p.sigma ∧ ok p.N0 ∧ ok p.P ∧
      ok p.lsd ∧ ok p.lsf) ∧ AllV ok p.uk ∧ AllV ok p.ex ∧ AllV ok p.ey ∧ AllV ok p.ez) →
    ∃ new, readVolumes C d (l.map (dumpVolume P)) acc = some (acc ++ new) ∧
      List.Forall₂ (fun p q => q.regName = p.regName ∧ SameVolume C P r p q) l new := by
  intro l
  induction l with
  | nil => intro acc _; exact ⟨[], by rw [List.append_nil]; rfl, .nil⟩
  | cons p l ih =>
    intro acc h
    obtain ⟨q, hq, hs⟩ := volume_read R d p (h p List.mem_cons_self)
    obtain ⟨new, hn, hf⟩ := ih (acc ++ [q]) (fun p hp => h p (List.mem_cons_of_mem _ hp))
    refine ⟨q :: new, ?_, .cons hs hf⟩
    show (do
      let p ← readVolume C d p.regName (dumpVolume P p).2
      readVolumes C d (l.map (dumpVolume P)) (acc ++ [p])) = _
    rw [hq]
    show readVolumes C d (l.map (dumpVolume P)) (acc ++ [q]) = _
    rw [hn, List.append_assoc]
    rfl

theorem surfaces_read {C : Conv D} {P : Printer D} {ok : D → Prop} {r : D → D} (R : Reads C P ok r) (d : TriPrm D) (spin : Bool) :
    ∀ (l acc : List (TriPrm D)), (∀ p ∈ l, ok p.Ks ∧ AllV ok p.uk ∧ (C.isNaN p.V = false → ok p.V) ∧
      (spin = true → AllV ok p.uP ∧ AllV ok p.s)) →
    ∃ new, readSurfaces C d (l.map (dumpSurface C P spin)) acc = some (acc ++ new) ∧
      List.Forall₂ (fun p q => q.regName = p.regName ∧ q.jn = C.nan ∧ (C.isNaN p.jn = true → SameSurface C P r spin p q)) l new := by
  intro l
  induction l with
  | nil => intro acc _; exact ⟨[], by rw [List.append_nil]; rfl, .nil⟩
  | cons p l ih =>
    intro acc h
    obtain ⟨q, hq, hs⟩ := surface_read R d p spin (h p List.mem_cons_self)
    obtain ⟨new, hn, hf⟩ := ih (acc ++ [q]) (fun p hp => h p (List.mem_cons_of_mem _ hp))
    refine ⟨q :: new, ?_, .cons hs hf⟩
    show (do
      let p ← readSurface C d p.regName (dumpSurface C P spin p).2
      readSurfaces C d (l.map (dumpSurface C P spin)) (acc ++ [p])) = _
    rw [hq]
    show readSurfaces C d (l.map (dumpSurface C P spin)) (acc ++ [q]) = _
    rw [hn, List.append_assoc]
    rfl

/-- what is found under a name in two lists of regions with the same names -/
theorem find_related {α : Type} (nm : α → Str) (S : α → α → Prop) (name : Str) : ∀ (l l' : List α),
    List.Forall₂ (fun p q => nm q = nm p ∧ S p q) l l' →
    Both S (l.find? fun p => nm p == name) (l'.find? fun p => nm p == name) := by
  intro l l' h
  induction h with
  | nil => exact trivial
  | cons h1 h2 ih =>
    rename_i p q l l'
    rw [List.find?_cons, List.find?_cons, h1.1]
    cases nm p == name
    · exact ih
    · exact h1.2

/-- the regions that are not called `__default__` -/
theorem find_filter {α : Type} (nm : α → Str) (name dflt : Str) (h : name ≠ dflt) (l : List α) :
    (l.filter fun p => nm p != dflt).find? (fun p => nm p == name) = l.find? (fun p => nm p == name) := by
  induction l with
  | nil => rfl
  | cons p l ih =>
    rw [List.filter_cons]
    by_cases e : nm p = dflt
    · rw [if_neg (by rw [e]; simp), ih, List.find?_cons, show (nm p == name) = false from
        beq_eq_false_iff_ne.mpr (by rw [e]; exact h.symm)]
    · rw [if_pos (by simp [e]), List.find?_cons, List.find?_cons, ih]

theorem find_skip {α : Type} (nm : α → Str) (name : Str) (d : α) (l : List α) (h : nm d ≠ name) :
    ([d] ++ l).find? (fun p => nm p == name) = l.find? (fun p => nm p == name) := by
  show (d :: l).find? _ = _
  rw [List.find?_cons, show (nm d == name) = false from beq_eq_false_iff_ne.mpr h]

/-! ## sections -/

theorem mesh_read {C : Conv D} {P : Printer D} {ok : D → Prop} {r : D → D} (R : Reads C P ok r) (s b : All D)
    (hs : Printable C ok s) (hb : b.mesh.pbName = []) (hsc : C.nonpos s.mesh.scale = false) :
    ∃ newT newS, readMesh C b.mesh (some (dumpMesh C P s)) =
        some ⟨s.mesh.pbName, r s.mesh.scale, b.mesh.tetra ++ newT, b.mesh.tri ++ newS⟩ ∧
      List.Forall₂ (fun p q => q.regName = p.regName ∧ SameVolume C P r p q)
        (s.mesh.tetra.filter fun p => p.regName != "__default__".toList) newT ∧
      List.Forall₂ (fun p q => q.regName = p.regName ∧ q.jn = C.nan ∧
          (C.isNaN p.jn = true → SameSurface C P r s.spin.enable p q))
        (s.mesh.tri.filter fun p => p.regName != "__default__".toList) newS := by
  obtain ⟨newT, eT, hT⟩ := volumes_read R ((findTetra "__default__".toList b.mesh.tetra).getD (blankTetra C))
    (s.mesh.tetra.filter fun p => p.regName != "__default__".toList) b.mesh.tetra
    (fun p hp => hs.tetra p (List.mem_filter.mp hp).1)
  obtain ⟨newS, eS, hS⟩ := surfaces_read R ((findTri "__default__".toList b.mesh.tri).getD (blankTri C)) s.spin.enable
    (s.mesh.tri.filter fun p => p.regName != "__default__".toList) b.mesh.tri
    (fun p hp => hs.tri p (List.mem_filter.mp hp).1 (by
      have := (List.mem_filter.mp hp).2
      exact bne_iff_ne.mp this))
  refine ⟨newT, newS, ?_, hT, hS⟩
  have e1 : assign some b.mesh.pbName (some (rawNode s.mesh.pbName)) = some s.mesh.pbName := by
    rw [raw_assign, hb]
    split
    · rename_i h; rw [h]
    · rfl
  have e2 : assign (readScale C) b.mesh.scale (some (.scalar (P.num s.mesh.scale))) = some (r s.mesh.scale) := by
    show (do
      let x ← C.toD (P.num s.mesh.scale)
      if C.nonpos x then none else some x) = _
    rw [R.num _ hs.scale]
    show (if C.nonpos (r s.mesh.scale) then none else some _) = _
    rw [R.pos _ hs.scale hsc]
    rfl
  have e3 : readVolumeRegions C b.mesh.tetra (some (mapNode ((s.mesh.tetra.filter fun p =>
      p.regName != "__default__".toList).map (dumpVolume P)))) = some (b.mesh.tetra ++ newT) := by
    unfold mapNode
    split
    · rename_i h
      rw [h] at eT
      exact eT
    · exact eT
  have e4 : readSurfaceRegions C b.mesh.tri (some (mapNode ((s.mesh.tri.filter fun p =>
      p.regName != "__default__".toList).map (dumpSurface C P s.spin.enable)))) = some (b.mesh.tri ++ newS) := by
    unfold mapNode
    split
    · rename_i h
      rw [h] at eS
      exact eS
    · exact eS
  show (do
    let pbName ← assign some b.mesh.pbName (some (rawNode s.mesh.pbName))
    let scale ← assign (readScale C) b.mesh.scale (some (.scalar (P.num s.mesh.scale)))
    let tetra ← readVolumeRegions C b.mesh.tetra (some (mapNode ((s.mesh.tetra.filter fun p : TetraPrm D =>
      p.regName != "__default__".toList).map (dumpVolume P))))
    let tri ← readSurfaceRegions C b.mesh.tri (some (mapNode ((s.mesh.tri.filter fun p : TriPrm D =>
      p.regName != "__default__".toList).map (dumpSurface C P s.spin.enable))))
    return (⟨pbName, scale, tetra, tri⟩ : MeshS D)) = _
  rw [e1, e2, e3, e4]
  rfl

/-- the strings of the initial magnetization are those of what is used -/
structure MagOk (C : Conv D) (m : Mag) : Prop where
  fn : m.sM ≠ [] → m.restoreFileName = [] ∧ m.parser = some (.code m.sM) ∧ occurs "function".toList m.sM = true ∧
    occurs ['{'] m.sM = true ∧ C.compiles m.sM = true
  file : m.sM = [] → m.restoreFileName ≠ [] →
    (!occurs "function".toList m.restoreFileName || !occurs ['{'] m.restoreFileName) = true
  exprs : m.sM = [] → m.restoreFileName = [] → m.parser = some (.exprs "x,y,z".toList m.sMx m.sMy m.sMz) ∧
    C.compiles (exprText "x,y,z".toList m.sMx m.sMy m.sMz) = true

def Mag.source (m : Mag) : MagSource := if m.restoreFileName = [] then .fn m.parser else .file m.restoreFileName

theorem mag_read {C : Conv D} (m b : Mag) (h : MagOk C m) (hb : b.restoreFileName = []) :
    ∃ m', readMag C b (some (dumpMag m)) = some m' ∧ m'.source = m.source := by
  unfold dumpMag
  by_cases h1 : m.sM = []
  · rw [if_neg (not_not.mpr h1)]
    by_cases h2 : m.restoreFileName = []
    · rw [if_pos h2]
      obtain ⟨hp, hc⟩ := h.exprs h1 h2
      refine ⟨{ b with sMx := m.sMx, sMy := m.sMy, sMz := m.sMz, parser := some (.exprs "x,y,z".toList m.sMx m.sMy m.sMz) }, ?_, ?_⟩
      · show (if C.compiles (exprText "x,y,z".toList m.sMx m.sMy m.sMz) then some _ else none) = _
        rw [if_pos hc]
      · unfold Mag.source
        dsimp only
        rw [if_pos hb, if_pos h2, hp]
    · rw [if_neg h2]
      have hf := h.file h1 h2
      refine ⟨{ b with restoreFileName := m.restoreFileName }, ?_, ?_⟩
      · unfold rawNode
        rw [if_neg h2]
        show (if (!occurs "function".toList m.restoreFileName || !occurs ['{'] m.restoreFileName) = true then some _ else _) = _
        rw [if_pos hf]
      · unfold Mag.source
        dsimp only
        rw [if_neg h2, if_neg h2]
  · rw [if_pos h1]
    obtain ⟨hr, hp, ho1, ho2, hc⟩ := h.fn h1
    refine ⟨{ b with sM := m.sM, parser := some (.code m.sM) }, ?_, ?_⟩
    · show (if (!occurs "function".toList m.sM || !occurs ['{'] m.sM) = true then some _
        else if C.compiles m.sM then some _ else none) = _
      rw [ho1, ho2, if_neg (by decide), if_pos hc]
    · unfold Mag.source
      dsimp only
      rw [if_pos hb, if_pos hr, hp]

/-- the strings of the applied field are those of what is used -/
structure FieldOk (C : Conv D) (f : Field) : Prop where
  defined : f.type ≠ .undef
  fn : f.type = .RtoR3 → f.sB ≠ [] → f.parser = some (.code f.sB) ∧ C.compiles f.sB = true
  exprs : f.type = .RtoR3 → f.sB = [] → f.parser = some (.exprs "t".toList f.sBx f.sBy f.sBz) ∧
    C.compiles (exprText "t".toList f.sBx f.sBy f.sBz) = true
  product : f.type = .R4toR3 → f.spaceParser = some (.code f.sSpace) ∧ f.timeParser = some (.code f.sTime) ∧
    C.compiles f.sSpace = true ∧ C.compiles f.sTime = true

def Field.source (f : Field) : FieldSource :=
  match f.type with
  | .undef => .undef
  | .RtoR3 => .time f.parser
  | .R4toR3 => .product f.spaceParser f.timeParser

theorem field_read {C : Conv D} (f b : Field) (h : FieldOk C f) :
    ∃ f', readField C b (some (dumpField f)) = some f' ∧ f'.source = f.source := by
  unfold dumpField
  cases ht : f.type with
  | undef => exact absurd ht h.defined
  | R4toR3 =>
    obtain ⟨h1, h2, h3, h4⟩ := h.product ht
    rw [if_pos rfl]
    refine ⟨⟨b.sB, b.sBx, b.sBy, b.sBz, f.sSpace, f.sTime, b.parser, some (.code f.sSpace), some (.code f.sTime), .R4toR3⟩, ?_, ?_⟩
    · have g1 : (Yaml.map [("space".toList, .scalar f.sSpace), ("time".toList, .scalar f.sTime)]).get "space".toList =
        some (some (.scalar f.sSpace)) := rfl
      have g2 : (Yaml.map [("space".toList, .scalar f.sSpace), ("time".toList, .scalar f.sTime)]).get "time".toList =
        some (some (.scalar f.sTime)) := rfl
      simp only [readField, present, g1, g2, h3, h4, Option.bind_eq_bind, Option.bind_some, if_true]
    · unfold Field.source
      rw [ht, h1, h2]
  | RtoR3 =>
    rw [if_neg (by decide)]
    by_cases hs : f.sB = []
    · rw [if_neg (not_not.mpr hs)]
      obtain ⟨hp, hc⟩ := h.exprs ht hs
      refine ⟨⟨b.sB, f.sBx, f.sBy, f.sBz, b.sSpace, b.sTime, some (.exprs "t".toList f.sBx f.sBy f.sBz), b.spaceParser,
        b.timeParser, .RtoR3⟩, ?_, ?_⟩
      · show (if C.compiles (exprText "t".toList f.sBx f.sBy f.sBz) then some _ else none) = _
        rw [if_pos hc]
      · unfold Field.source
        rw [ht, hp]
    · rw [if_pos hs]
      obtain ⟨hp, hc⟩ := h.fn ht hs
      refine ⟨{ b with sB := f.sB, parser := some (.code f.sB), type := .RtoR3 }, ?_, ?_⟩
      · show (if C.compiles f.sB then some _ else none) = _
        rw [if_pos hc]
      · unfold Field.source
        rw [ht, hp]

theorem recentering_read {C : Conv D} {P : Printer D} {ok : D → Prop} {r : D → D} (R : Reads C P ok r) (s b : Recentering D)
    (ht : ok s.threshold) (hd : s.direction = 0 ∨ s.direction = 1 ∨ s.direction = 2) :
    ∃ s', readRecentering C b (some (dumpRecentering P s)) = some s' ∧ s'.enable = s.enable ∧
      (s.enable = true → s'.direction = s.direction ∧ s'.threshold = r s.threshold) := by
  unfold dumpRecentering
  cases he : s.enable
  · refine ⟨⟨false, 2, b.threshold⟩, ?_, rfl, fun h => absurd h (by decide)⟩
    show (do
      let enable ← assign C.toBool b.enable (some (.scalar (boolText false)))
      let direction ← readDirection none
      let threshold ← assign C.toD b.threshold none
      return (⟨enable, direction, threshold⟩ : Recentering D)) = _
    rw [bool_read R]
    rfl
  · refine ⟨⟨true, s.direction, r s.threshold⟩, ?_, rfl, fun _ => ⟨rfl, rfl⟩⟩
    show (do
      let enable ← assign C.toBool b.enable (some (.scalar (boolText true)))
      let direction ← readDirection (some (.scalar (if s.direction = 0 then ['X'] else if s.direction = 1 then ['Y']
        else if s.direction = 2 then ['Z'] else "UNDEF".toList)))
      let threshold ← C.toD (P.num s.threshold)
      return (⟨enable, direction, threshold⟩ : Recentering D)) = _
    rw [bool_read R, R.num _ ht]
    rcases hd with h | h | h <;> rw [h] <;> rfl

theorem spin_read {C : Conv D} {P : Printer D} {ok : D → Prop} {r : D → D} (R : Reads C P ok r) (s b : SpinS) :
    ∃ s', readSpin C b (some (dumpSpin s)) = some s' ∧ s'.enable = s.enable ∧ (s.enable = true → s'.vFile = s.vFile) := by
  unfold dumpSpin
  cases he : s.enable
  · refine ⟨⟨false, b.vFile⟩, ?_, rfl, fun h => absurd h (by decide)⟩
    show (do
      let enable ← assign C.toBool b.enable (some (.scalar (boolText false)))
      let vFile ← assign C.toBool b.vFile none
      return (⟨enable, vFile⟩ : SpinS)) = _
    rw [bool_read R]
    rfl
  · refine ⟨⟨true, s.vFile⟩, ?_, rfl, fun _ => rfl⟩
    show (do
      let enable ← assign C.toBool b.enable (some (.scalar (boolText true)))
      let vFile ← assign C.toBool b.vFile (some (.scalar (boolText s.vFile)))
      return (⟨enable, vFile⟩ : SpinS)) = _
    rw [bool_read R, bool_read R]
    rfl

theorem sameDir_normalize (d : Str) (h : d ≠ []) : SameDir d (normalizeDir d) := by
  unfold normalizeDir
  dsimp only
  rw [if_neg h]
  split
  · rename_i hc
    refine ⟨d.dropLast, 1, 0, ?_, (List.append_nil _).symm⟩
    exact (List.dropLast_append_getLast? _ hc.2).symm
  · exact ⟨d, 0, 0, (List.append_nil _).symm, (List.append_nil _).symm⟩

/-- invariants of the settings -/
structure Kept (C : Conv D) (s : All D) : Prop where
  directory : s.outputs.directory ≠ []
  savePeriod : 0 ≤ s.outputs.savePeriod
  metadata : (s.outputs.userMetadata.map Prod.fst).Nodup
  name : s.simName = [] → defaultName [] s.mesh.pbName = []
  scale : C.nonpos s.mesh.scale = false
  direction : s.recentering.direction = 0 ∨ s.recentering.direction = 1 ∨ s.recentering.direction = 2
  threads : 0 < s.nbThreads ∨ s.nbThreads = C.cpuCount

/-- reading the printed settings, in general -/
theorem dump_read {C : Conv D} {P : Printer D} {ok : D → Prop} {r : D → D} (R : Reads C P ok r) (s b : All D)
    (hb : Builtin C b) (hs : Printable C ok s) (hk : Kept C s) (hm : MagOk C s.mag) (hf : FieldOk C s.field)
    (hc : s.outputs.evolColumns ≠ []) (hn : ∀ c ∈ s.outputs.evolColumns, c ≠ []) :
    ∃ s' newS, read C b (dump C P s) = some s' ∧ s'.mesh.tri = b.mesh.tri ++ newS ∧
      List.Forall₂ (fun p q => q.regName = p.regName ∧ q.jn = C.nan ∧
          (C.isNaN p.jn = true → SameSurface C P r s.spin.enable p q))
        (s.mesh.tri.filter fun p => p.regName != "__default__".toList) newS ∧
      ((∀ p ∈ s.mesh.tri, p.regName ≠ "__default__".toList → C.isNaN p.jn = true) → SameSettings C P r s s') := by
  have e1 := outputs_read R s b hs.timeStep hs.finalTime hk.savePeriod hk.directory hc hn hk.metadata hb.userMetadata
  obtain ⟨newT, newS, e2, hT, hS⟩ := mesh_read R s b hs hb.pbName hk.scale
  obtain ⟨m', e3, hm'⟩ := mag_read s.mag b.mag hm hb.mag.2.1
  have e4 := numOrNull_read R b.initialTime s.initialTime hs.initialTime
  obtain ⟨r', e5, hr1, hr2⟩ := recentering_read R s.recentering b.recentering hs.threshold hk.direction
  obtain ⟨f', e6, hf'⟩ := field_read s.field b.field hf
  obtain ⟨p', e7, hp1, hp2⟩ := spin_read R s.spin b.spin
  have e8 : readFmm C b.nbThreads (some (.map [("nb_threads".toList, .scalar (P.int s.nbThreads))])) = some s.nbThreads := by
    show (do
      let n ← C.toInt (P.int s.nbThreads)
      return if n ≤ 0 then C.cpuCount else n) = _
    rw [R.int]
    show some (if s.nbThreads ≤ 0 then C.cpuCount else s.nbThreads) = _
    rcases hk.threads with h | h
    · rw [if_neg (by omega)]
    · rw [h]; split <;> rfl
  have e9 : readFem C b.fem (some (.map [("max(iter)".toList, .scalar (P.int s.fem.maxIter)),
      ("tolerance".toList, .scalar (P.num s.fem.tol))])) = some ⟨s.fem.maxIter, r s.fem.tol⟩ := by
    show (do
      let maxIter ← C.toInt (P.int s.fem.maxIter)
      let tol ← C.toD (P.num s.fem.tol)
      return (⟨maxIter, tol⟩ : FemS D)) = _
    rw [R.int, R.num _ hs.tol]
    rfl
  have e10 : readTime C b.time (some (.map [("max(du)".toList, .scalar (P.num s.time.duMax)),
      ("min(dt)".toList, .scalar (P.num s.time.dtMin)), ("max(dt)".toList, .scalar (P.num s.time.dtMax))])) =
      some ⟨r s.time.duMax, r s.time.dtMin, r s.time.dtMax⟩ := by
    show (do
      let duMax ← C.toD (P.num s.time.duMax)
      let dtMin ← C.toD (P.num s.time.dtMin)
      let dtMax ← C.toD (P.num s.time.dtMax)
      return (⟨duMax, dtMin, dtMax⟩ : TimeS D)) = _
    rw [R.num _ hs.time.1, R.num _ hs.time.2.1, R.num _ hs.time.2.2]
    rfl
  have hread : read C b (dump C P s) = some ⟨⟨normalizeDir s.outputs.directory, r s.outputs.timeStep,
      r s.outputs.finalTime, s.outputs.savePeriod, s.outputs.evolColumns, s.outputs.userMetadata⟩,
      defaultName (if s.simName = [] then b.simName else s.simName) s.mesh.pbName,
      ⟨s.mesh.pbName, r s.mesh.scale, b.mesh.tetra ++ newT, b.mesh.tri ++ newS⟩, m',
      if C.isNaN s.initialTime then b.initialTime else r s.initialTime, r', f', p', s.nbThreads, ⟨s.fem.maxIter, r s.fem.tol⟩,
      ⟨r s.time.duMax, r s.time.dtMin, r s.time.dtMax⟩⟩ := by
    show (do
      let (outputs, simName) ← readOutputs C b.outputs b.simName (some (dumpOutputs P s))
      let mesh ← readMesh C b.mesh (some (dumpMesh C P s))
      let mag ← readMag C b.mag (some (dumpMag s.mag))
      let initialTime ← assign C.toD b.initialTime (some (numOrNull C P s.initialTime))
      let recentering ← readRecentering C b.recentering (some (dumpRecentering P s.recentering))
      let field ← readField C b.field (some (dumpField s.field))
      let spin ← readSpin C b.spin (some (dumpSpin s.spin))
      let nbThreads ← readFmm C b.nbThreads (some (.map [("nb_threads".toList, .scalar (P.int s.nbThreads))]))
      let fem ← readFem C b.fem (some (.map [("max(iter)".toList, .scalar (P.int s.fem.maxIter)),
        ("tolerance".toList, .scalar (P.num s.fem.tol))]))
      let time ← readTime C b.time (some (.map [("max(du)".toList, .scalar (P.num s.time.duMax)),
        ("min(dt)".toList, .scalar (P.num s.time.dtMin)), ("max(dt)".toList, .scalar (P.num s.time.dtMax))]))
      return (⟨outputs, defaultName simName mesh.pbName, mesh, mag, initialTime, recentering, field, spin, nbThreads, fem,
        time⟩ : All D)) = _
    rw [e1, e2, e3, e4, e5, e6, e7, e8, e9, e10]
    rfl
  refine ⟨_, newS, hread, rfl, hS, ?_⟩
  intro hj
  obtain ⟨dT, hdT, hdT'⟩ := hb.tetra
  obtain ⟨dS, hdS, hdS'⟩ := hb.tri
  exact {
    directory := sameDir_normalize _ hk.directory
    simName := by
      show defaultName (if s.simName = [] then b.simName else s.simName) s.mesh.pbName = s.simName
      by_cases h : s.simName = []
      · rw [if_pos h, hb.simName, hk.name h, h]
      · rw [if_neg h]
        unfold defaultName
        rw [if_neg (fun hh => h hh.1)]
    timeStep := rfl
    finalTime := rfl
    savePeriod := rfl
    evolColumns := rfl
    userMetadata := rfl
    pbName := rfl
    scale := rfl
    volumes := by
      intro name hname
      have := find_related TetraPrm.regName (SameVolume C P r) name _ _ hT
      rw [find_filter TetraPrm.regName name "__default__".toList hname] at this
      show Both (SameVolume C P r) (findTetra name s.mesh.tetra) (findTetra name (b.mesh.tetra ++ newT))
      unfold findTetra
      rw [hdT, find_skip TetraPrm.regName name dT newT (by rw [hdT']; exact hname.symm)]
      exact this
    surfaces := by
      intro name hname
      have hS' : List.Forall₂ (fun p q : TriPrm D => q.regName = p.regName ∧ SameSurface C P r s.spin.enable p q)
          (s.mesh.tri.filter fun p => p.regName != "__default__".toList) newS := by
        have hall : ∀ p ∈ s.mesh.tri.filter (fun p => p.regName != "__default__".toList), C.isNaN p.jn = true := by
          intro p hp
          exact hj p (List.mem_filter.mp hp).1 (bne_iff_ne.mp (List.mem_filter.mp hp).2)
        clear e2 hread
        revert hall
        generalize s.mesh.tri.filter (fun p => p.regName != "__default__".toList) = l at hS
        intro hall
        induction hS with
        | nil => exact .nil
        | cons h1 h2 ih =>
          exact .cons ⟨h1.1, h1.2.2 (hall _ List.mem_cons_self)⟩ (ih (fun p hp => hall p (List.mem_cons_of_mem _ hp)))
      have := find_related TriPrm.regName (SameSurface C P r s.spin.enable) name _ _ hS'
      rw [find_filter TriPrm.regName name "__default__".toList hname] at this
      show Both (SameSurface C P r s.spin.enable) (findTri name s.mesh.tri) (findTri name (b.mesh.tri ++ newS))
      unfold findTri
      rw [hdS, find_skip TriPrm.regName name dS newS (by rw [hdS']; exact hname.symm)]
      exact this
    mag := hm'
    initialTime := by
      show if C.isNaN s.initialTime then C.isNaN (if C.isNaN s.initialTime then b.initialTime else r s.initialTime) = true
        else (if C.isNaN s.initialTime then b.initialTime else r s.initialTime) = r s.initialTime
      cases h : C.isNaN s.initialTime
      · rfl
      · exact hb.initialTime
    recenter := hr1
    direction := fun h => (hr2 h).1
    threshold := fun h => (hr2 h).2
    field := hf'
    spin := hp1
    vFile := hp2
    nbThreads := rfl
    maxIter := rfl
    tol := rfl
    duMax := rfl
    dtMin := rfl
    dtMax := rfl }

/-! ## the invariants hold for the settings read from files -/

theorem normalizeDir_ne (t : Str) : normalizeDir t ≠ [] := by
  unfold normalizeDir
  dsimp only
  by_cases h : t = []
  · rw [if_pos h]
    rw [if_neg (by decide)]
    exact List.cons_ne_nil _ _
  · rw [if_neg h]
    split
    · rename_i hc
      intro e
      have := congrArg List.length e
      rw [List.length_dropLast, List.length_nil] at this
      omega
    · exact h

theorem assign_cases {α : Type} {conv : Str → Option α} {old v : α} {n : Option Yaml} (h : assign conv old n = some v) :
    v = old ∨ ∃ t, n = some (.scalar t) ∧ conv t = some v := by
  unfold assign at h
  split at h
  · rename_i t
    exact Or.inr ⟨t, rfl, h⟩
  · injection h with h
    exact Or.inl h.symm

theorem kept_builtin {C : Conv D} {b : All D} (h : Builtin C b) : Kept C b where
  directory := by rw [h.directory]; exact List.cons_ne_nil _ _
  savePeriod := h.savePeriod
  metadata := by rw [h.userMetadata]; exact List.nodup_nil
  name := by
    intro _
    rw [h.pbName]
    rfl
  scale := h.scale
  direction := Or.inr (Or.inr h.direction)
  threads := h.nbThreads

theorem kept_read {C : Conv D} {s s' : All D} {y : Yaml} (hk : Kept C s) (h : read C s y = some s') : Kept C s' := by
  have inv := read_inv h
  obtain ⟨n, sn, -, r1, hname⟩ := inv.outputs
  obtain ⟨n2, -, r2⟩ := inv.mesh
  have hout : s'.outputs.directory ≠ [] ∧ 0 ≤ s'.outputs.savePeriod ∧ (s'.outputs.userMetadata.map Prod.fst).Nodup := by
    rcases outputs_inv r1 with ⟨-, e, -⟩ | ⟨y', -, ⟨m1, -, a1⟩, -, -, -, ⟨m5, -, a5⟩, -, ⟨m7, -, a7⟩⟩
    · rw [e]
      exact ⟨hk.directory, hk.savePeriod, hk.metadata⟩
    · refine ⟨?_, ?_, ?_⟩
      · rcases assign_cases a1 with e | ⟨t, -, e⟩
        · rw [e]; exact hk.directory
        · injection e with e
          rw [← e]
          exact normalizeDir_ne t
      · unfold readPeriod at a5
        split at a5
        · split at a5
          · cases a5
          · split at a5
            · injection a5 with a5; rw [← a5]
            · obtain ⟨k, -, a5⟩ := bind_some a5
              injection a5 with a5
              rw [← a5]
              split <;> omega
        · injection a5 with a5; rw [← a5]; exact hk.savePeriod
      · unfold readMetadata at a7
        split at a7
        · injection a7 with a7; rw [← a7]; exact hk.metadata
        · exact putItems_keys _ _ _ a7 hk.metadata
        · cases a7
  have hscale : C.nonpos s'.mesh.scale = false := by
    rcases mesh_inv r2 with ⟨-, e⟩ | ⟨y', -, -, ⟨m, -, a⟩, -, -⟩
    · rw [e]; exact hk.scale
    · rcases assign_cases a with e | ⟨t, -, e⟩
      · rw [e]; exact hk.scale
      · unfold readScale at e
        obtain ⟨x, -, e⟩ := bind_some e
        split at e
        · cases e
        · rename_i hx
          injection e with e
          rw [← e]
          exact Bool.eq_false_iff.mpr hx
  obtain ⟨n5, -, r5⟩ := inv.recentering
  have hdir : s'.recentering.direction = 0 ∨ s'.recentering.direction = 1 ∨ s'.recentering.direction = 2 := by
    unfold readRecentering at r5
    split at r5
    · injection r5 with r5; rw [← r5]; exact hk.direction
    · obtain ⟨_, -, r5⟩ := bind_some r5
      obtain ⟨_, -, r5⟩ := bind_some r5
      obtain ⟨m, -, r5⟩ := bind_some r5
      obtain ⟨d, hd, r5⟩ := bind_some r5
      obtain ⟨_, -, r5⟩ := bind_some r5
      obtain ⟨_, -, r5⟩ := bind_some r5
      injection r5 with r5
      rw [← r5]
      show d = 0 ∨ d = 1 ∨ d = 2
      unfold readDirection at hd
      split at hd
      · split at hd
        · injection hd with hd; exact Or.inl hd.symm
        · split at hd
          · injection hd with hd; exact Or.inr (Or.inl hd.symm)
          · split at hd
            · injection hd with hd; exact Or.inr (Or.inr hd.symm)
            · cases hd
      · injection hd with hd; exact Or.inr (Or.inr hd.symm)
  obtain ⟨n8, -, r8⟩ := inv.fmm
  have hthr : 0 < s'.nbThreads ∨ s'.nbThreads = C.cpuCount := by
    unfold readFmm at r8
    split at r8
    · injection r8 with r8; rw [← r8]; exact hk.threads
    · obtain ⟨_, -, r8⟩ := bind_some r8
      obtain ⟨k, -, r8⟩ := bind_some r8
      injection r8 with r8
      rw [← r8]
      split
      · exact Or.inr rfl
      · left; omega
  refine ⟨hout.1, hout.2.1, hout.2.2, ?_, hscale, hdir, hthr⟩
  intro e
  rw [hname] at e
  unfold defaultName at e
  by_cases hs : sn = []
  · subst hs
    exact e
  · rw [if_neg (fun hh => hs hh.1)] at e
    exact absurd e hs

theorem kept_files {C : Conv D} (files : List (Option Yaml)) (s s' : All D) (hk : Kept C s)
    (h : readFiles C s files = some s') : Kept C s' := by
  induction files generalizing s with
  | nil => injection h with h; subst h; exact hk
  | cons f fs ih =>
    obtain ⟨⟨s1, b⟩, h1, h⟩ := bind_some h
    refine ih s1 ?_ h
    rcases readFile_inv h1 with ⟨rfl, -⟩ | ⟨y, rfl, hr⟩
    · exact hk
    · exact kept_read hk hr

/-- as the built-in defaults leave it: three expressions -/
def MagBase (C : Conv D) (m : Mag) : Prop :=
  m.sM = [] ∧ m.restoreFileName = [] ∧ m.parser = some (.exprs "x,y,z".toList m.sMx m.sMy m.sMz) ∧
    C.compiles (exprText "x,y,z".toList m.sMx m.sMy m.sMz) = true

theorem magBase_ok {C : Conv D} {m : Mag} (h : MagBase C m) : MagOk C m where
  fn := fun e => absurd h.1 e
  file := fun _ e => absurd h.2.1 e
  exprs := fun _ _ => h.2.2

theorem occurs_ne {s : Str} (h : occurs ['{'] s = true) : s ≠ [] := by
  intro e
  subst e
  exact absurd h (by decide)

theorem mag_step {C : Conv D} {m m' : Mag} {n : Option Yaml} (hb : MagBase C m) (h : readMag C m n = some m') : MagOk C m' := by
  unfold readMag at h
  split at h
  · injection h with h
    subst h
    exact magBase_ok hb
  · rename_i t _
    split at h
    · rename_i hc
      injection h with h
      subst h
      exact ⟨fun e => absurd hb.1 e, fun _ _ => hc, fun _ _ => hb.2.2⟩
    · rename_i hc
      split at h
      · rename_i hk
        injection h with h
        subst h
        rw [← Bool.not_and, Bool.not_eq_true', Bool.not_eq_false, Bool.and_eq_true] at hc
        exact ⟨fun _ => ⟨hb.2.1, rfl, hc.1, hc.2, hk⟩, fun e => absurd e (occurs_ne hc.2), fun e => absurd e (occurs_ne hc.2)⟩
      · cases h
  · obtain ⟨x, -, h⟩ := bind_some h
    obtain ⟨y, -, h⟩ := bind_some h
    obtain ⟨z, -, h⟩ := bind_some h
    split at h
    · rename_i hk
      injection h with h
      subst h
      exact ⟨fun e => absurd hb.1 e, fun _ e => absurd hb.2.1 e, fun _ _ => ⟨rfl, hk⟩⟩
    · cases h
  · cases h

theorem mag_files {C : Conv D} (files : List (Option Yaml)) (s s' : All D) (h : readFiles C s files = some s')
    (hg : (MagBase C s.mag ∧ (files.filterMap givenMag).length ≤ 1) ∨ (MagOk C s.mag ∧ (files.filterMap givenMag).length = 0)) :
    MagOk C s'.mag := by
  induction files generalizing s with
  | nil =>
    injection h with h
    subst h
    rcases hg with h | h
    · exact magBase_ok h.1
    · exact h.1
  | cons f fs ih =>
    obtain ⟨⟨s1, b⟩, h1, h⟩ := bind_some h
    refine ih s1 h ?_
    rw [List.filterMap_cons] at hg
    have same : givenMag f = none → s1.mag = s.mag := by
      intro e
      rcases readFile_inv h1 with ⟨rfl, -⟩ | ⟨y, rfl, hr⟩
      · rfl
      · obtain ⟨n, g, r⟩ := (read_inv hr).mag
        have := readMag_given g r
        rw [e] at this
        exact this
    cases e : givenMag f with
    | none =>
      rw [e] at hg
      rw [same e]
      exact hg
    | some src =>
      rw [e] at hg
      dsimp only at hg
      rw [List.length_cons] at hg
      rcases hg with ⟨hb, hl⟩ | ⟨-, hl⟩
      · right
        refine ⟨?_, by omega⟩
        rcases readFile_inv h1 with ⟨rfl, -⟩ | ⟨y, rfl, hr⟩
        · exact magBase_ok hb
        · obtain ⟨n, g, r⟩ := (read_inv hr).mag
          exact mag_step hb r
      · omega

def FieldBase (C : Conv D) (f : Field) : Prop :=
  f.type = .RtoR3 ∧ f.sB = [] ∧ f.parser = some (.exprs "t".toList f.sBx f.sBy f.sBz) ∧
    C.compiles (exprText "t".toList f.sBx f.sBy f.sBz) = true

theorem fieldBase_ok {C : Conv D} {f : Field} (h : FieldBase C f) : FieldOk C f where
  defined := by rw [h.1]; decide
  fn := fun _ e => absurd h.2.1 e
  exprs := fun _ _ => h.2.2
  product := fun e => absurd (h.1.symm.trans e) (by decide)

theorem textOf_some {n : Option Yaml} {t : Str} (h : textOf n = some t) : n = some (.scalar t) := by
  unfold textOf at h
  split at h
  · injection h with h; rw [h]
  · cases h

theorem field_step {C : Conv D} {f f' : Field} {y : Yaml} {n : Option Yaml} (hc : C.compiles [] = false)
    (g : y.get "Bext".toList = some n) (hb : FieldBase C f) (hp : FieldParts (some y)) (h : readField C f n = some f') :
    FieldOk C f' := by
  cases n with
  | none => injection h with h; subst h; exact fieldBase_ok hb
  | some n =>
    cases n with
    | null => injection h with h; subst h; exact fieldBase_ok hb
    | scalar t =>
      have h : (if C.compiles t then some { f with sB := t, parser := some (.code t), type := .RtoR3 } else none) = some f' := h
      split at h
      · rename_i hk
        injection h with h
        subst h
        have ht : t ≠ [] := by
          intro e
          subst e
          exact absurd (hk.symm.trans hc) (by decide)
        exact ⟨fun e => FieldType.noConfusion e, fun _ _ => ⟨rfl, hk⟩, fun _ e => absurd e ht, fun e => FieldType.noConfusion e⟩
      · cases h
    | seq l =>
      match l, h with
      | [a, b, c], h =>
        obtain ⟨x, -, h⟩ := bind_some h
        obtain ⟨y, -, h⟩ := bind_some h
        obtain ⟨z, -, h⟩ := bind_some h
        split at h
        · rename_i hk
          injection h with h
          subst h
          exact ⟨fun e => FieldType.noConfusion e, fun _ e => absurd hb.2.1 e, fun _ _ => ⟨rfl, hk⟩, fun e => FieldType.noConfusion e⟩
        · cases h
      | [], h => cases h
      | [_], h => cases h
      | [_, _], h => cases h
      | _ :: _ :: _ :: _ :: _, h => cases h
    | map l =>
      obtain ⟨hsp, hti⟩ := hp y l rfl (get_at g)
      obtain ⟨sp, esp⟩ := Option.isSome_iff_exists.mp hsp
      obtain ⟨ti, eti⟩ := Option.isSome_iff_exists.mp hti
      obtain ⟨m1, hm1, h⟩ := bind_some h
      obtain ⟨m2, hm2, h⟩ := bind_some h
      rw [given_two g (show present (some (Yaml.map l)) = some (.map l) from rfl) hm1] at esp
      rw [given_two g (show present (some (Yaml.map l)) = some (.map l) from rfl) hm2] at eti
      have e1 := textOf_some esp
      have e2 := textOf_some eti
      subst e1 e2
      dsimp only at h
      split at h
      · rename_i hk1
        obtain ⟨f1, hf1, h⟩ := bind_some h
        injection hf1 with hf1
        subst hf1
        dsimp only at h
        split at h
        · rename_i hk2
          obtain ⟨f2, hf2, h⟩ := bind_some h
          injection hf2 with hf2
          subst hf2
          injection h with h
          subst h
          exact ⟨fun e => FieldType.noConfusion e, fun e => FieldType.noConfusion e, fun e => FieldType.noConfusion e,
            fun _ => ⟨rfl, rfl, hk1, hk2⟩⟩
        · obtain ⟨f2, hf2, h⟩ := bind_some h
          cases hf2
      · obtain ⟨f1, hf1, h⟩ := bind_some h
        cases hf1

theorem field_files {C : Conv D} (hc : C.compiles [] = false) (files : List (Option Yaml)) (s s' : All D)
    (h : readFiles C s files = some s') (hp : ∀ f ∈ files, FieldParts f)
    (hg : (FieldBase C s.field ∧ (files.filter givesField).length ≤ 1) ∨ (FieldOk C s.field ∧ (files.filter givesField).length = 0)) :
    FieldOk C s'.field := by
  induction files generalizing s with
  | nil =>
    injection h with h
    subst h
    rcases hg with h | h
    · exact fieldBase_ok h.1
    · exact h.1
  | cons f fs ih =>
    obtain ⟨⟨s1, b⟩, h1, h⟩ := bind_some h
    refine ih s1 h (fun f hf => hp f (List.mem_cons_of_mem _ hf)) ?_
    rw [List.filter_cons] at hg
    have same : givesField f = false → s1.field = s.field := by
      intro e
      rcases readFile_inv h1 with ⟨rfl, -⟩ | ⟨y, rfl, hr⟩
      · rfl
      · obtain ⟨n, g, r⟩ := (read_inv hr).field
        unfold givesField at e
        dsimp only at e
        rw [get_at g] at e
        cases n with
        | none => injection r with r; exact r.symm
        | some n =>
          cases n with
          | null => injection r with r; exact r.symm
          | scalar _ => exact Bool.noConfusion e
          | seq _ => exact Bool.noConfusion e
          | map _ => exact Bool.noConfusion e
    cases e : givesField f with
    | false =>
      rw [e, if_neg (by decide)] at hg
      rw [same e]
      exact hg
    | true =>
      rw [e, if_pos rfl, List.length_cons] at hg
      rcases hg with ⟨hb, hl⟩ | ⟨-, hl⟩
      · right
        refine ⟨?_, by omega⟩
        rcases readFile_inv h1 with ⟨rfl, -⟩ | ⟨y, rfl, hr⟩
        · exact fieldBase_ok hb
        · obtain ⟨n, g, r⟩ := (read_inv hr).field
          exact field_step hc g hb (hp _ List.mem_cons_self) r
      · omega

end Verif.Settings
