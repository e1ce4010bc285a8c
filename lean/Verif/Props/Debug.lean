import Verif.Core.Debug
import Verif.Props.ExampleModel

/-!
# C68: `debug_results` shows how the utilities of one decision unit build up
-/
namespace Cheval
open Spec FOps
variable {U F : Type} [DecidableEq U] [FOps F]

/-! ## the loop -/

omit [DecidableEq U] in
theorem debug_evalExpr_size {K : Kernel F} {scope : List (Str × Sym F)} {labels : List (List Name)} {syms : List (Str × Local F)} {u u' : Tab F}
    {x : Expression} (h : evalExpr K scope labels syms u x = .ok u') : u'.rows = u.rows ∧ u'.cols = u.cols := by
  unfold evalExpr at h
  cases h1 : columnMask labels x.filter with
  | error e => simp [h1, bind, Except.bind] at h
  | ok mask =>
    cases h2 : addDicts K labels (reservedLocals K u ++ syms) x.dicts with
    | error e => simp [h1, h2, bind, Except.bind] at h
    | ok d =>
      cases h3 : addChains scope d x.chains with
      | error e => simp [h1, h2, h3, bind, Except.bind] at h
      | ok d' =>
        simp only [h1, h2, h3, bind, Except.bind, kernelEval] at h
        split at h
        · cases h
        · split at h
          · cases h; exact ⟨rfl, rfl⟩
          · cases h

/-- row `p` of the table -/
def rowOf (p : Nat) (u : Tab F) : List F := (List.range u.cols).map (u.val p)

theorem debugLoop_none (K : Kernel F) (scope : List (Str × Sym F)) (labels : List (List Name)) (syms : List (Str × Local F))
    (xs : List Expression) (acc : List (Option (List F))) : ∀ u, debugLoop K scope labels syms none xs u acc =
      ((evalLoop K scope labels syms xs u).1, (evalLoop K scope labels syms xs u).2.map fun _ => acc) := by
  induction xs with
  | nil => intro u; rfl
  | cons x xs ih =>
    intro u
    rw [debugLoop, evalLoop]
    cases evalExpr K scope labels syms u x with
    | error e => rfl
    | ok u' => exact ih u'

theorem debugLoop_some (K : Kernel F) (scope : List (Str × Sym F)) (labels : List (List Name)) (syms : List (Str × Local F)) (p : Nat)
    (xs : List Expression) : ∀ (u : Tab F) (acc : List (Option (List F))), p < u.rows →
    debugLoop K scope labels syms (some (.one p)) xs u acc =
      ((evalLoop K scope labels syms xs u).1, (evalLoop K scope labels syms xs u).2.map fun _ =>
        acc ++ (List.range xs.length).map fun k => some (rowOf p (evalLoop K scope labels syms (xs.take (k + 1)) u).1)) := by
  induction xs with
  | nil => intro u acc _; simp [debugLoop, evalLoop, Except.map]
  | cons x xs ih =>
    intro u acc hp
    cases h : evalExpr K scope labels syms u x with
    | error e => simp [debugLoop, evalLoop, h, Except.map]
    | ok u' =>
      have hp' : p < u'.rows := by rw [(debug_evalExpr_size h).1]; exact hp
      have hr : debugRow u' (.one p) = .ok (some (rowOf p u')) := by simp [debugRow, hp', rowOf]
      simp only [debugLoop, evalLoop, h, hr]
      rw [ih u' _ hp']
      have e : ∀ k, (evalLoop K scope labels syms ((x :: xs).take (k + 1)) u).1 = (evalLoop K scope labels syms (xs.take k) u').1 := by
        intro k; simp [List.take_succ_cons, evalLoop, h]
      congr 2
      funext _
      rw [List.length_cons, List.range_succ_eq_map, List.map_cons, List.map_map, e 0]
      simp only [List.take_zero, evalLoop, List.append_assoc, List.singleton_append]
      congr 2
      apply List.map_congr_left
      intro k _
      simp only [Function.comp, Nat.succ_eq_add_one]
      rw [← e (k + 1)]

omit [DecidableEq U] in
theorem evalLoop_size {K : Kernel F} {scope : List (Str × Sym F)} {labels : List (List Name)} {syms : List (Str × Local F)}
    (xs : List Expression) : ∀ u : Tab F, (evalLoop K scope labels syms xs u).1.rows = u.rows ∧ (evalLoop K scope labels syms xs u).1.cols = u.cols := by
  induction xs with
  | nil => intro u; exact ⟨rfl, rfl⟩
  | cons x xs ih =>
    intro u
    cases h : evalExpr K scope labels syms u x with
    | error e => simp [evalLoop, h]
    | ok u' =>
      simp only [evalLoop, h]
      rw [(ih u').1, (ih u').2, (debug_evalExpr_size h).1, (debug_evalExpr_size h).2]
      exact ⟨rfl, rfl⟩

/-- the position of a label that occurs once -/
theorem getLoc_one {units : List U} {id : U} {p : Nat} (hp : units[p]? = some id) (hu : ∀ q, units[q]? = some id → q = p) :
    getLoc units id = .ok (.one p) := by
  have hlt : p < units.length := by
    rcases Nat.lt_or_ge p units.length with h | h
    · exact h
    · rw [List.getElem?_eq_none h] at hp; cases hp
  have : (List.range units.length).filter (fun k => decide (units[k]? = some id)) = [p] := by
    have hnd : ((List.range units.length).filter (fun k => decide (units[k]? = some id))).Nodup := List.nodup_range.filter _
    have hmem : ∀ k, k ∈ (List.range units.length).filter (fun k => decide (units[k]? = some id)) ↔ k = p := by
      intro k
      simp only [List.mem_filter, List.mem_range, decide_eq_true_eq]
      exact ⟨fun h => hu k h.2, fun h => by subst h; exact ⟨hlt, hp⟩⟩
    generalize (List.range units.length).filter (fun k => decide (units[k]? = some id)) = l at hnd hmem
    match l, hnd, hmem with
    | [], _, h => exact absurd ((h p).mpr rfl) (by simp)
    | [a], _, h => rw [(h a).mp (by simp)]
    | a :: b :: l, hn, h =>
      have h1 := (h a).mp (by simp)
      have h2 := (h b).mp (by simp)
      simp [h1, h2] at hn
  simp [getLoc, this]

theorem getLoc_none {units : List U} {id : U} (h : id ∉ units) : getLoc units id = .error .key := by
  have : (List.range units.length).filter (fun k => decide (units[k]? = some id)) = [] := by
    rw [List.filter_eq_nil_iff]
    intro k _ hk
    exact h (List.mem_of_getElem? (of_decide_eq_true hk))
  simp [getLoc, this]

/-! ## evaluation -/

/-- without a label, evaluation is the plain one -/
theorem debug_evaluate_off {truthy : U → Bool} (K : Kernel F) {d : DModel U F} (c : Container)
    (h : ∀ id, d.debugId = some id → truthy id = false) :
    d.evaluate truthy K c = ({ d with base := (d.base.evaluate K c).1 }, (d.base.evaluate K c).2) := by
  have hl : ∀ units, debugLabel truthy units d.debugId = .ok none := by
    intro units
    cases hd : d.debugId with
    | none => rfl
    | some id => simp [debugLabel, h id hd]
  unfold DModel.evaluate CModel.evaluate
  cases hu : d.base.units with
  | none => rfl
  | some units =>
    cases hc : choices d.base.tree with
    | error e => rfl
    | ok labels =>
      simp only [hl]
      rcases d.base.partialUtilities with ⟨m, _ | ⟨ix, u⟩⟩
      · rfl
      · simp only
        cases symLocals m.scope c.simple with
        | error e => rfl
        | ok syms =>
          simp only [debugLoop_none]
          rcases evalLoop K m.scope labels syms c.exprs u with ⟨u', _ | _⟩
          · rfl
          · simp only [Except.map, DModel.finish]
            split
            · rfl
            · split <;> rfl

/-- with the label of one decision unit, evaluation gives what the plain one gives, and records the rows -/
theorem debug_evaluate_on {truthy : U → Bool} (K : Kernel F) {d : DModel U F} (c : Container) {units : List U} (hu : d.base.units = some units)
    {id : U} (hd : d.debugId = some id) (ht : truthy id = true) {p : Nat} (hp : units[p]? = some id) (hone : ∀ q, units[q]? = some id → q = p)
    {labels : List (List Name)} (hlab : choices d.base.tree = .ok labels)
    (hsize : ∀ ix u, d.base.cached = some (ix, u) → u.rows = units.length ∧ u.cols = labels.length) :
    (d.evaluate truthy K c).1.base = (d.base.evaluate K c).1 ∧ (d.evaluate truthy K c).2 = (d.base.evaluate K c).2 ∧
    (d.evaluate truthy K c).1.debugId = d.debugId ∧
    ∀ m ix u syms, d.base.partialUtilities = (m, .ok (ix, u)) → symLocals m.scope c.simple = .ok syms →
      (evalLoop K m.scope labels syms c.exprs u).2 = .ok () →
      (d.evaluate truthy K c).1.results = some ⟨c.exprs.map (·.raw), labels,
        (List.range c.exprs.length).map fun k => rowOf p (evalLoop K m.scope labels syms (c.exprs.take (k + 1)) u).1⟩ := by
  have hlt : p < units.length := by
    rcases Nat.lt_or_ge p units.length with h | h
    · exact h
    · rw [List.getElem?_eq_none h] at hp; cases hp
  have hl : debugLabel truthy units d.debugId = .ok (some (.one p)) := by
    simp [debugLabel, hd, ht, getLoc_one hp hone, Except.map]
  unfold DModel.evaluate CModel.evaluate
  simp only [hu, hlab, hl]
  cases hpu : d.base.partialUtilities with
  | mk m r =>
    cases r with
    | error e => exact ⟨rfl, rfl, rfl, by intro _ _ _ _ h; cases h⟩
    | ok t =>
      obtain ⟨ix, u⟩ := t
      have hs : u.rows = units.length ∧ u.cols = labels.length := by
        unfold CModel.partialUtilities at hpu
        simp only [hlab, CModel.decisionUnits, hu] at hpu
        split at hpu
        · cases hpu
        · rename_i h; cases h
        · rename_i h; cases h
        · rename_i h1 h2
          cases h1; cases h2
          split at hpu
          · rename_i t hc
            obtain ⟨_, h3⟩ := Prod.mk.inj hpu
            cases h3
            exact hsize _ _ hc
          · obtain ⟨_, h3⟩ := Prod.mk.inj hpu
            cases h3
            exact ⟨rfl, rfl⟩
      simp only
      cases hsy : symLocals m.scope c.simple with
      | error e =>
        refine ⟨rfl, rfl, rfl, ?_⟩
        intro m' ix' u' syms h1 h2
        cases h1; rw [hsy] at h2; cases h2
      | ok syms =>
        have hloop := debugLoop_some K m.scope labels syms p c.exprs u [] (hs.1 ▸ hlt)
        simp only [hloop]
        have hsz := evalLoop_size (K := K) (scope := m.scope) (labels := labels) (syms := syms)
        cases he : evalLoop K m.scope labels syms c.exprs u with
        | mk u' r =>
          cases r with
          | error e =>
            refine ⟨rfl, rfl, rfl, ?_⟩
            intro m' ix' u'' syms' h1 h2 h3
            cases h1
            rw [hsy] at h2; cases h2
            rw [he] at h3; cases h3
          | ok _ =>
            have hf : debugFrame (c.exprs.map (·.raw)) labels ([] ++ (List.range c.exprs.length).map fun k =>
                some (rowOf p (evalLoop K m.scope labels syms (c.exprs.take (k + 1)) u).1)) = .ok ⟨c.exprs.map (·.raw), labels,
                (List.range c.exprs.length).map fun k => rowOf p (evalLoop K m.scope labels syms (c.exprs.take (k + 1)) u).1⟩ := by
              unfold debugFrame
              rw [if_pos]
              · simp [List.filterMap_map, Function.comp_def]
              · simp only [List.nil_append, List.all_map, List.all_eq_true, List.mem_range, Function.comp, decide_eq_true_eq]
                intro k _
                simp [rowOf, (hsz _ u).2, hs.2]
            simp only [Except.map, hf, DModel.finish]
            have hres : ∀ m' ix' u'' syms', (m, Except.ok (ix, u)) = (m', (Except.ok (ix', u'') : Except Err (List U × Tab F))) →
                symLocals m'.scope c.simple = .ok syms' → (evalLoop K m'.scope labels syms' c.exprs u'').2 = .ok () →
                (some (⟨c.exprs.map (·.raw), labels, (List.range c.exprs.length).map fun k =>
                  rowOf p (evalLoop K m.scope labels syms (c.exprs.take (k + 1)) u).1⟩ : DebugTab F)) =
                some ⟨c.exprs.map (·.raw), labels, (List.range c.exprs.length).map fun k =>
                  rowOf p (evalLoop K m'.scope labels syms' (c.exprs.take (k + 1)) u'').1⟩ := by
              intro m' ix' u'' syms' h1 h2 _
              cases h1
              rw [hsy] at h2; cases h2
              rfl
            split
            · exact ⟨rfl, rfl, rfl, hres⟩
            · split
              · exact ⟨rfl, rfl, rfl, hres⟩
              · exact ⟨rfl, rfl, rfl, hres⟩

/-! ## C68 -/

/-- **C68** On a consistent model that validates and whose expressions can be evaluated (the hypotheses of C35), with `debug_id` the label of
decision unit `p` (true in Python, and occurring once): after the run, also when it ends with a NaN error, `debug_results` has one row per
expression, in the order of evaluation and labelled with its text, one column per choice, and row `k` shows the utilities of unit `p`
after the first `k + 1` expressions. -/
theorem C68_debug_partial {truthy : U → Bool} (K : Kernel F) {env : PyEnv} {py : PyParser} {d : DModel U F} {paths : List (List Name)}
    {depth : Nat} {units : List U} (hm : Consistent d.base paths depth units) (hheld : Held env py d.base.exprs) {g : Option Nat}
    {c : Container} (hc : d.base.container g = .ok c) (hv : d.base.validate true true true true g = .ok ()) {srcs : List Source}
    (hready : List.Forall₂ (Ready env d.base.scope paths depth) srcs c.exprs)
    (htab : ∀ y ∈ c.simple, ∀ o ma al t, dictGet d.base.scope y ≠ some (.table o ma al t))
    (hval : ∀ i j (_ : i < units.length) (hj : j < paths.length),
      (cellTotal K d.base.scope paths[j] i j srcs (startAt d.base i j)).isSome)
    (clear : Bool) {id : U} (hd : d.debugId = some id) (ht : truthy id = true) {p : Nat} (hp : units[p]? = some id)
    (hone : ∀ q, units[q]? = some id → q = p) :
    ∃ t : DebugTab F, (d.runUtilities truthy K g clear).1.results = some t ∧ t.index = c.exprs.map (·.raw) ∧
      choices d.base.tree = .ok t.cols ∧ t.rows.length = c.exprs.length ∧ (∀ r ∈ t.rows, r.length = paths.length) ∧
      ∀ k j (_ : k < c.exprs.length) (hj : j < paths.length),
        t.rows[k]?.bind (·[j]?) = cellTotal K d.base.scope paths[j] p j (srcs.take (k + 1)) (startAt d.base p j) := by
  obtain ⟨labels, hch, hL⟩ := hm.choices
  have hlen : labels.length = paths.length := by rw [hL.labels]; simp
  have hlt : p < units.length := by
    rcases Nat.lt_or_ge p units.length with h | h
    · exact h
    · rw [List.getElem?_eq_none h] at hp; cases hp
  have hr := runs_of_held hheld hc hready htab
  obtain ⟨hvt, _, hchk⟩ := validate_parts hc hv
  have hval0 : d.base.validate true true false false none = .ok () := by
    simp [CModel.validate, bind, Except.bind, hvt, CModel.decisionUnits, hm.unitsEq]
  have hsym : ∀ x ∈ c.simple, x ∉ reserved → ∃ s l, dictGet d.base.scope x = some s ∧ s.get = .ok l := by
    intro x hx hxr
    obtain ⟨s, h1, h2⟩ := checkSymbols_ok hchk x (List.mem_append_left _ hx) hxr
    obtain ⟨l, hl⟩ := get_of_filled (h2 rfl) (fun o ma al t he => hr.noTable x hx o ma al t (he ▸ h1))
    exact ⟨s, l, h1, hl⟩
  obtain ⟨syms, hs1, hs2, hs3⟩ := symLocals_spec d.base.scope c.simple hsym
  have hfit : Fits units.length labels.length d.base.scope := hlen ▸ hm.fits
  have hsize : ∀ ix u, d.base.cached = some (ix, u) → u.rows = units.length ∧ u.cols = labels.length := by
    intro ix u h; rw [hlen]; exact hm.cached ix u h
  obtain ⟨m', ix, u0, hpu, hsc, hr0, hc0, hst⟩ : ∃ m' ix u0, d.base.partialUtilities = (m', .ok (ix, u0)) ∧ m'.scope = d.base.scope ∧
      u0.rows = units.length ∧ u0.cols = labels.length ∧ ∀ i j, u0.val i j = startAt d.base i j := by
    unfold CModel.partialUtilities
    simp only [hval0, CModel.decisionUnits, hm.unitsEq, hch]
    cases hcache : d.base.cached with
    | none => exact ⟨_, _, _, rfl, rfl, rfl, rfl, fun i j => by simp [startAt, hcache]⟩
    | some t => exact ⟨_, t.1, t.2, rfl, rfl, (hsize t.1 t.2 hcache).1, (hsize t.1 t.2 hcache).2, fun i j => by simp [startAt, hcache]⟩
  have hvu : ∀ i j (_ : i < units.length) (hj : j < paths.length), (cellTotal K d.base.scope paths[j] i j srcs (u0.val i j)).isSome := by
    intro i j hi hj; rw [hst]; exact hval i j hi hj
  obtain ⟨u1, h1, -⟩ := evalLoop_sound K hL hfit hs2 hs3 hr.ready hr.recorded u0 hr0 hc0 hvu
  obtain ⟨-, -, -, hres⟩ := debug_evaluate_on K c hm.unitsEq hd ht hp hone hch hsize
  have hres := hres m' ix u0 syms hpu (hsc ▸ hs1) (by rw [hsc, h1])
  rw [hsc] at hres
  refine ⟨⟨c.exprs.map (·.raw), labels, (List.range c.exprs.length).map fun k =>
    rowOf p (evalLoop K d.base.scope labels syms (c.exprs.take (k + 1)) u0).1⟩, ?_, rfl, hch, by simp, ?_, ?_⟩
  · rw [← hres]
    unfold DModel.runUtilities
    simp only [hv, hc]
    rcases d.evaluate truthy K c with ⟨d', _ | u'⟩
    · rfl
    · cases clear <;> rfl
  · intro r hr'
    simp only [List.mem_map, List.mem_range] at hr'
    obtain ⟨k, _, rfl⟩ := hr'
    simp [rowOf, (evalLoop_size _ u0).2, hc0, hlen]
  · intro k j hk hj
    have hpre : ∀ i j (_ : i < units.length) (hj : j < paths.length),
        (cellTotal K d.base.scope paths[j] i j (srcs.take (k + 1)) (u0.val i j)).isSome := by
      intro i j hi hj
      have h := hvu i j hi hj
      rw [← List.take_append_drop (k + 1) srcs] at h
      unfold cellTotal at h ⊢
      rw [List.foldlM_append] at h
      cases hx : List.foldlM (cellStep K d.base.scope paths[j] i j) (u0.val i j) (srcs.take (k + 1)) with
      | none => rw [hx] at h; simp at h
      | some v => rfl
    have hfor : List.Forall₂ (Ready env d.base.scope paths depth) (srcs.take (k + 1)) (c.exprs.take (k + 1)) :=
      List.forall₂_take (k + 1) hready
    obtain ⟨u2, h2, h3, h4, h5⟩ := evalLoop_sound K hL hfit hs2 hs3 hfor
      (fun x hx => hr.recorded x (List.mem_of_mem_take hx)) u0 hr0 hc0 hpre
    have hj' : j < u2.cols := by rw [h4, hlen]; exact hj
    simp only [List.getElem?_map, List.getElem?_range hk, Option.map_some, Option.bind_some, h2, rowOf, List.getElem?_range hj']
    rw [h5 p j hlt hj, hst]

/-- **C68** Debugging changes nothing else: the run of the model with a `debug_id` naming one decision unit has the same outcome and leaves
the same model as the run without. -/
theorem C68_transparent {truthy : U → Bool} (K : Kernel F) {d : DModel U F} {units : List U} (hu : d.base.units = some units) {id : U}
    (hd : d.debugId = some id) (ht : truthy id = true) {p : Nat} (hp : units[p]? = some id) (hone : ∀ q, units[q]? = some id → q = p)
    {labels : List (List Name)} (hlab : choices d.base.tree = .ok labels)
    (hsize : ∀ ix u, d.base.cached = some (ix, u) → u.rows = units.length ∧ u.cols = labels.length) (g : Option Nat) (clear : Bool) :
    (d.runUtilities truthy K g clear).1.base = (d.base.runUtilities K g clear).1 ∧
    (d.runUtilities truthy K g clear).2 = (d.base.runUtilities K g clear).2 := by
  unfold DModel.runUtilities CModel.runUtilities
  rcases d.base.validate true true true true g with e | _
  · exact ⟨rfl, rfl⟩
  rcases d.base.container g with e | c
  · exact ⟨rfl, rfl⟩
  obtain ⟨h1, h2, -, -⟩ := debug_evaluate_on (truthy := truthy) K c hu hd ht hp hone hlab hsize
  simp only
  rcases hx : d.evaluate truthy K c with ⟨d', r⟩
  rcases hy : d.base.evaluate K c with ⟨m', r'⟩
  rw [hx, hy] at h1 h2
  simp only at h1 h2
  subst h2
  cases r with
  | error e => exact ⟨h1, rfl⟩
  | ok u => cases clear <;> simp [h1]

/-- **C68** A `debug_id` that is not a decision unit is reported: KeyError, and nothing changes -/
theorem C68_unknown {truthy : U → Bool} (K : Kernel F) {d : DModel U F} {units : List U} (hu : d.base.units = some units) {id : U}
    (hd : d.debugId = some id) (ht : truthy id = true) (hid : id ∉ units) {g : Option Nat} (clear : Bool)
    (hv : d.base.validate true true true true g = .ok ()) {labels : List (List Name)} (hlab : choices d.base.tree = .ok labels) :
    d.runUtilities truthy K g clear = (d, .error .key) := by
  have hc : ∃ c, d.base.container g = .ok c := by
    cases h : d.base.container g with
    | ok c => exact ⟨c, rfl⟩
    | error e =>
      exfalso
      rcases hx : validateTree d.base.tree with _ | _ <;> rcases hy : d.base.decisionUnits with _ | _ <;>
        simp [CModel.validate, hx, hy, h, bind, Except.bind] at hv
  obtain ⟨c, hc⟩ := hc
  unfold DModel.runUtilities DModel.evaluate
  simp [hv, hc, hu, hlab, debugLabel, hd, ht, getLoc_none hid, Except.map]

/-- **C68, violated** A label that Python takes for false (the number 0, an empty text) is ignored, although it is a decision unit like any
other: `debug_results` stays what it was, in every run of every model. -/
theorem C68_false_label_refuted {truthy : U → Bool} (K : Kernel F) {d : DModel U F} {id : U} (hd : d.debugId = some id)
    (ht : truthy id = false) (g : Option Nat) (clear : Bool) :
    (d.runUtilities truthy K g clear).1.results = d.results := by
  have h := fun c => debug_evaluate_off (truthy := truthy) K (d := d) c (by intro id' h'; rw [hd] at h'; cases h'; exact ht)
  unfold DModel.runUtilities
  rcases d.base.validate true true true true g with e | _
  · rfl
  rcases d.base.container g with e | c
  · rfl
  simp only [h c]
  cases (d.base.evaluate K c).2 with
  | error e => rfl
  | ok u => cases clear <;> rfl

/-! ## concrete cases -/

/-- Python's truth value of a number -/
def numTruth (n : Nat) : Bool := decide (n ≠ 0)

/-- the second unit of the example model: 200 for all choices after `x`, 202 for A.x after `t.a @ A.x` -/
example (env : PyEnv) (M : Arith XR) : ∃ t : DebugTab XR,
    ((⟨emModel env, some 8, none⟩ : DModel Nat XR).runUtilities numTruth (emKernel M) none true).1.results = some t ∧
    t.index = [exX, emText2] ∧ t.rows.length = 2 ∧
    (∀ j < 4, t.rows[0]?.bind (·[j]?) = some (.fin 200)) ∧ t.rows[1]?.bind (·[2]?) = some (.fin 202) ∧
    t.rows[1]?.bind (·[3]?) = some (.fin 200) := by
  have hcells : ∀ i j (_ : i < [7, 8].length) (hj : j < emPaths.length),
      (cellTotal (emKernel M) (emModel env).scope emPaths[j] i j emSrcs (startAt (emModel env) i j)).isSome := by
    intro i j hi hj
    have hs : (emModel env).scope = emScope := rfl
    have h0 : startAt (emModel env) i j = .fin 0 := rfl
    rw [hs, h0, em_total]; rfl
  obtain ⟨t, h1, h2, -, h4, -, h6⟩ := C68_debug_partial (truthy := numTruth) (emKernel M) (d := ⟨emModel env, some 8, none⟩) (em_consistent env)
    (em_held env) (em_container env) (em_valid env) (srcs := emSrcs) (.cons (em_ready1 env) (.cons (em_ready2 env) .nil)) (em_noTable env) hcells
    true rfl (by decide) (p := 1) rfl (by
      intro q hq
      match q, hq with
      | 1, _ => rfl
      | 0, h => cases h
      | q + 2, h => simp at h)
  have hs : (emModel env).scope = emScope := rfl
  have h0 : ∀ j, startAt (emModel env) 1 j = .fin 0 := fun _ => rfl
  refine ⟨t, h1, h2, h4, ?_, ?_, ?_⟩
  · intro j hj
    have := h6 0 j (by simp) hj
    rw [this]
    have hx : isNanName exX = false := by decide
    simp only [hs, h0, emSrcs, List.take_succ_cons, List.take_zero, cellTotal, List.foldlM_cons, List.foldlM_nil, cellStep, filterMeans, if_true,
      den, hx, em_symx, Bool.false_eq_true, if_false]
    simp [emKernel]
    norm_num
  · rw [h6 1 2 (by simp) (by decide)]
    have : emSrcs.take 2 = emSrcs := rfl
    rw [hs, h0, this, em_total]; norm_num
  · rw [h6 1 3 (by simp) (by decide)]
    have : emSrcs.take 2 = emSrcs := rfl
    rw [hs, h0, this, em_total]; norm_num

/-- a model whose first decision unit is 0, to be debugged: nothing is recorded -/
example (env : PyEnv) (M : Arith XR) : (((⟨{ emModel env with units := some [0, 8] }, some 0, none⟩ : DModel Nat XR).runUtilities numTruth
    (emKernel M) none true).1.results).isNone = true := by
  rw [C68_false_label_refuted (emKernel M) rfl (by decide)]; rfl

end Cheval
