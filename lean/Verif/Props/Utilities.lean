import Verif.Core.EvalLemmas
import Verif.Props.ExprGroup
import Verif.Props.Labels
import Verif.Core.GroupHistory
import Verif.Core.OutFree

/-!
# C35-C37: evaluation of utilities
-/
namespace Cheval
open Spec FOps
variable {U F : Type} [FOps F]

/-- a model whose parts fit together: what a user has after setting the decision units, building the tree and assigning data -/
structure Consistent (m : CModel U F) (paths : List (List Name)) (depth : Nat) (units : List U) : Prop where
  unitsEq : m.units = some units
  choices : ∃ labels, choices m.tree = .ok labels ∧ Labelled paths depth labels
  fits : Fits units.length paths.length m.scope
  cached : ∀ ix u, m.cached = some (ix, u) → u.rows = units.length ∧ u.cols = paths.length

/-- the utilities the model starts from: what was computed before (`preval`, earlier runs), or zero -/
def startAt (m : CModel U F) (i j : Nat) : F := match m.cached with
  | none => zero
  | some (_, u) => u.val i j

/-- the expressions of a run: those of the container, with the sources they were parsed from; all their symbols are recorded
in the container, which is true after any history (see `runs_of_held`) -/
structure Runs (env : PyEnv) (scope : List (Str × Sym F)) (paths : List (List Name)) (depth : Nat) (srcs : List Source) (c : Container) :
    Prop where
  ready : List.Forall₂ (Ready env scope paths depth) srcs c.exprs
  recorded : ∀ x ∈ c.exprs, ∀ y ∈ x.symbols, y ∈ c.simple
  noTable : ∀ y ∈ c.simple, ∀ o ma al t, dictGet scope y ≠ some (.table o ma al t)

omit [FOps F] in
/-- the symbols of the expressions to be evaluated are recorded in the container, after any history on the expressions -/
theorem container_recorded {env : PyEnv} {py : PyParser} {m : CModel U F} (h : Held env py m.exprs) {g : Option Nat} {c : Container}
    (hc : m.container g = .ok c) :
    (∀ x ∈ c.exprs, ∀ y ∈ x.symbols, y ∈ c.simple) ∧ (∀ x ∈ c.exprs, ∀ y ∈ x.chains.map (·.1), y ∈ c.chained) ∧
    ∀ x ∈ c.exprs, ∃ src, Origin env py x src := by
  cases g with
  | none =>
    cases hc
    refine ⟨?_, ?_, h.origin⟩
    · intro x hx y hy
      rcases mem_all.mp hx with hx | ⟨k, s, hs, hx⟩
      · exact List.mem_append_left _ ((h.ungrouped x hx).1 y hy)
      · exact List.mem_append_right _ (List.mem_flatMap.mpr ⟨(k, s), hs, (h.grouped (k, s) hs x hx).1 y hy⟩)
    · intro x hx y hy
      rcases mem_all.mp hx with hx | ⟨k, s, hs, hx⟩
      · exact List.mem_append_left _ ((h.ungrouped x hx).2 y hy)
      · exact List.mem_append_right _ (List.mem_flatMap.mpr ⟨(k, s), hs, (h.grouped (k, s) hs x hx).2 y hy⟩)
  | some k =>
    simp only [CModel.container, ExprGroup.getGroup] at hc
    cases hd : dictGet m.exprs.subgroups k with
    | none => simp [hd, Except.map] at hc
    | some s =>
      simp only [hd, Except.map, Except.ok.injEq] at hc
      subst hc
      have hm := dictGet_mem hd
      exact ⟨fun x hx => (h.grouped _ hm x hx).1, fun x hx => (h.grouped _ hm x hx).2,
        fun x hx => h.origin x (mem_all.mpr (.inr ⟨k, s, hm, hx⟩))⟩

omit [FOps F] in
theorem runs_of_held {env : PyEnv} {py : PyParser} {m : CModel U F} (h : Held env py m.exprs) {g : Option Nat} {c : Container}
    (hc : m.container g = .ok c) {paths : List (List Name)} {depth : Nat} {srcs : List Source}
    (hr : List.Forall₂ (Ready env m.scope paths depth) srcs c.exprs)
    (ht : ∀ y ∈ c.simple, ∀ o ma al t, dictGet m.scope y ≠ some (.table o ma al t)) : Runs env m.scope paths depth srcs c :=
  ⟨hr, (container_recorded h hc).1, ht⟩

theorem evalLoop_sound (K : Kernel F) {env : PyEnv} {scope : List (Str × Sym F)} {paths : List (List Name)} {dep : Nat}
    {labels : List (List Name)} (hL : Labelled paths dep labels) {n : Nat} (hfit : Fits n labels.length scope) {names : List Str}
    {syms : List (Str × Local F)}
    (hsyms : ∀ x ∈ names, x ∉ reserved → ∃ s l, dictGet scope x = some s ∧ s.get = .ok l ∧ dictGet syms x = some l)
    (hsyms2 : ∀ e ∈ syms, ∃ s, dictGet scope e.1 = some s ∧ s.get = .ok e.2)
    {srcs : List Source} {xs : List Expression} (hx : List.Forall₂ (Ready env scope paths dep) srcs xs)
    (hnames : ∀ x ∈ xs, ∀ y ∈ x.symbols, y ∈ names) :
    ∀ u : Tab F, u.rows = n → u.cols = labels.length →
    (∀ i j (_ : i < n) (hj : j < paths.length), (cellTotal K scope paths[j] i j srcs (u.val i j)).isSome) →
    ∃ u', evalLoop K scope labels syms xs u = (u', .ok ()) ∧ u'.rows = n ∧ u'.cols = labels.length ∧
      ∀ i j (_ : i < n) (hj : j < paths.length), some (u'.val i j) = cellTotal K scope paths[j] i j srcs (u.val i j) := by
  induction hx with
  | nil => intro u hr hc _; exact ⟨u, rfl, hr, hc, fun i j _ _ => rfl⟩
  | @cons src x srcs xs h hs ih =>
    intro u hr hc hval
    have split : ∀ i j (cur : F) p, cellTotal K scope p i j (src :: srcs) cur =
        (cellStep K scope p i j cur src).bind fun v => cellTotal K scope p i j srcs v := by
      intro i j cur p; rfl
    obtain ⟨u1, h1, hr1, hc1, hv1⟩ := evalExpr_sound K hL h hfit (fun y hy => hnames x (by simp) y hy) hsyms hsyms2 hr hc (by
      intro i j hi hj
      have := hval i j hi hj
      rw [split] at this
      cases hcs : cellStep K scope paths[j] i j (u.val i j) src with
      | none => rw [hcs] at this; simp at this
      | some v => rfl)
    obtain ⟨u2, h2, hr2, hc2, hv2⟩ := ih (fun x hx => hnames x (by simp [hx])) u1 hr1 hc1 (by
      intro i j hi hj
      have := hval i j hi hj
      rw [split, ← hv1 i j hi hj] at this
      exact this)
    refine ⟨u2, ?_, hr2, hc2, ?_⟩
    · rw [evalLoop, h1]; exact h2
    · intro i j hi hj
      rw [hv2 i j hi hj, split, ← hv1 i j hi hj]; rfl

/-- what validation checks -/
theorem checkSymbols_ok {scope : List (Str × Sym F)} {a : Bool} {l : List Str} (h : checkSymbols scope a l = .ok ()) :
    ∀ x ∈ l, x ∉ reserved → ∃ s, dictGet scope x = some s ∧ (a = true → s.filled = true) := by
  induction l with
  | nil => simp
  | cons y ys ih =>
    intro x hx hxr
    unfold checkSymbols at h
    by_cases hy : y ∈ reserved
    · rw [if_pos hy] at h
      rcases List.mem_cons.mp hx with rfl | hx
      · exact absurd hy hxr
      · exact ih h x hx hxr
    · rw [if_neg hy] at h
      cases hd : dictGet scope y with
      | none => rw [hd] at h; simp at h
      | some s =>
        rw [hd] at h
        simp only at h
        by_cases hf : (a && !s.filled) = true
        · rw [if_pos hf] at h; simp at h
        · rw [if_neg hf] at h
          rcases List.mem_cons.mp hx with rfl | hx
          · refine ⟨s, hd, fun ha => ?_⟩
            rw [ha] at hf; simpa using hf
          · exact ih h x hx hxr

theorem get_of_filled {s : Sym F} (hf : s.filled = true) (ht : ∀ o ma al t, s ≠ .table o ma al t) : ∃ l, s.get = .ok l := by
  match s, hf, ht with
  | .number (some v), _, _ => exact ⟨_, rfl⟩
  | .vector _ (some v), _, _ => exact ⟨_, rfl⟩
  | .matrix _ _ _ _ (some v), _, _ => exact ⟨_, rfl⟩
  | .table o ma al t, _, ht => exact absurd rfl (ht o ma al t)

theorem validate_parts {m : CModel U F} {g : Option Nat} {c : Container} (hc : m.container g = .ok c)
    (h : m.validate true true true true g = .ok ()) :
    validateTree m.tree = .ok () ∧ (∃ u, m.units = some u) ∧ checkSymbols m.scope true (c.simple ++ c.chained) = .ok () := by
  unfold CModel.validate at h
  simp only [bind, Except.bind, if_true, Bool.not_true, Bool.and_self, Bool.false_eq_true, if_false, hc] at h
  cases hv : validateTree m.tree with
  | error e => rw [hv] at h; simp at h
  | ok _ =>
    rw [hv] at h
    simp only at h
    cases hu : m.units with
    | none => simp [CModel.decisionUnits, hu] at h
    | some u => simp only [CModel.decisionUnits, hu] at h; exact ⟨rfl, ⟨u, rfl⟩, h⟩

/-- evaluation of a container on a consistent model -/
theorem evaluate_sound (K : Kernel F) {env : PyEnv} {m : CModel U F} {paths : List (List Name)} {depth : Nat} {units : List U}
    (hm : Consistent m paths depth units) (hvt : validateTree m.tree = .ok ()) {c : Container} {srcs : List Source}
    (hr : Runs env m.scope paths depth srcs c) (hchk : checkSymbols m.scope true (c.simple ++ c.chained) = .ok ())
    (hval : ∀ i j (_ : i < units.length) (hj : j < paths.length), (cellTotal K m.scope paths[j] i j srcs (startAt m i j)).isSome) :
    ∃ (ix : List U) (u : Tab F), m.evaluate K c = ({ m with cached := some (ix, u) }, if hasNan u then .error .utilityBounds else .ok u) ∧
      u.rows = units.length ∧ u.cols = paths.length ∧ (m.cached = none → ix = units) ∧ (∀ ix' u', m.cached = some (ix', u') → ix = ix') ∧
      ∀ i j (_ : i < units.length) (hj : j < paths.length), some (u.val i j) = cellTotal K m.scope paths[j] i j srcs (startAt m i j) := by
  obtain ⟨labels, hch, hL⟩ := hm.choices
  have hlen : labels.length = paths.length := by rw [hL.labels]; simp
  have hval0 : m.validate true true false false none = .ok () := by
    simp [CModel.validate, bind, Except.bind, hvt, CModel.decisionUnits, hm.unitsEq]
  have hsym : ∀ x ∈ c.simple, x ∉ reserved → ∃ s l, dictGet m.scope x = some s ∧ s.get = .ok l := by
    intro x hx hxr
    obtain ⟨s, h1, h2⟩ := checkSymbols_ok hchk x (List.mem_append_left _ hx) hxr
    obtain ⟨l, hl⟩ := get_of_filled (h2 rfl) (fun o ma al t he => hr.noTable x hx o ma al t (he ▸ h1))
    exact ⟨s, l, h1, hl⟩
  obtain ⟨syms, hs1, hs2, hs3⟩ := symLocals_spec m.scope c.simple hsym
  have hfit : Fits units.length labels.length m.scope := hlen ▸ hm.fits
  have main : ∀ (m' : CModel U F) (ix : List U) (u0 : Tab F), m.partialUtilities = (m', .ok (ix, u0)) → m' = { m with cached := some (ix, u0) } →
      u0.rows = units.length → u0.cols = labels.length → (∀ i j, u0.val i j = startAt m i j) →
      ∃ (u : Tab F), m.evaluate K c = ({ m with cached := some (ix, u) }, if hasNan u then .error .utilityBounds else .ok u) ∧
      u.rows = units.length ∧ u.cols = paths.length ∧
      ∀ i j (_ : i < units.length) (hj : j < paths.length), some (u.val i j) = cellTotal K m.scope paths[j] i j srcs (startAt m i j) := by
    intro m' ix u0 hp hm' hr0 hc0 hst
    obtain ⟨u, h1, h2, h3, h4⟩ := evalLoop_sound K hL hfit hs2 hs3 hr.ready hr.recorded u0 hr0 hc0 (by
      intro i j hi hj; rw [hst]; exact hval i j hi hj)
    refine ⟨u, ?_, h2, h3.trans hlen, fun i j hi hj => by rw [h4 i j hi hj, hst]⟩
    have hsc : m'.scope = m.scope := by rw [hm']
    unfold CModel.evaluate
    simp only [hm.unitsEq, hch, hp, hsc, hs1, h1]
    by_cases hn : hasNan u = true
    · simp [hn, hm', hm.unitsEq]
    · have hn' : hasNan u = false := by simpa using hn
      simp [hn', hm', h2, h3, hm.unitsEq]
  cases hcache : m.cached with
  | none =>
    obtain ⟨u, h⟩ := main { m with cached := some (units, ⟨units.length, labels.length, fun _ _ => zero⟩) } units
      ⟨units.length, labels.length, fun _ _ => zero⟩
      (by unfold CModel.partialUtilities; simp [hval0, CModel.decisionUnits, hm.unitsEq, hch, hcache]) rfl rfl rfl
      (fun i j => by simp [startAt, hcache])
    exact ⟨units, u, h.1, h.2.1, h.2.2.1, fun _ => rfl, by simp, h.2.2.2⟩
  | some t =>
    obtain ⟨ix, u0⟩ := t
    obtain ⟨hcr, hcc⟩ := hm.cached ix u0 hcache
    have he : { m with cached := some (ix, u0) } = m := by cases m; simp only at hcache; subst hcache; rfl
    obtain ⟨u, h⟩ := main m ix u0
      (by unfold CModel.partialUtilities; simp [hval0, CModel.decisionUnits, hm.unitsEq, hch, hcache]) he.symm hcr (hcc.trans hlen.symm)
      (fun i j => by simp [startAt, hcache])
    exact ⟨ix, u, h.1, h.2.1, h.2.2.1, by simp, (by simp only [Option.some.injEq, Prod.mk.injEq]; exact fun ix' u' h => h.1), h.2.2.2⟩

/-! ## C35 -/

open Classical in
/-- **C35** On a consistent model whose expressions can be evaluated, and which validates: if the specification gives every
cell a utility, the run computes exactly these utilities (starting from zero or from the cached table), for each decision
unit and each choice; it raises UtilityBoundsError iff one of them is NaN. `Held` is true after every history (see
`C35_texts`). -/
theorem C35_sum (K : Kernel F) {env : PyEnv} {py : PyParser} {m : CModel U F} {paths : List (List Name)} {depth : Nat} {units : List U}
    (hm : Consistent m paths depth units) (hheld : Held env py m.exprs) {g : Option Nat} {c : Container} (hc : m.container g = .ok c)
    (hv : m.validate true true true true g = .ok ()) {srcs : List Source}
    (hready : List.Forall₂ (Ready env m.scope paths depth) srcs c.exprs)
    (htab : ∀ y ∈ c.simple, ∀ o ma al t, dictGet m.scope y ≠ some (.table o ma al t))
    (hval : ∀ i j (_ : i < units.length) (hj : j < paths.length), (cellTotal K m.scope paths[j] i j srcs (startAt m i j)).isSome)
    (clear : Bool) :
    ∃ u : Tab F, u.rows = units.length ∧ u.cols = paths.length ∧
      (∀ i j (_ : i < units.length) (hj : j < paths.length), some (u.val i j) = cellTotal K m.scope paths[j] i j srcs (startAt m i j)) ∧
      (m.runUtilities K g clear).2 = (if ∃ i j, i < units.length ∧ j < paths.length ∧ isNan (u.val i j) = true
        then .error .utilityBounds else .ok u) ∧
      ∃ ix, (m.runUtilities K g clear).1.cached = some (ix, u) := by
  have hr := runs_of_held hheld hc hready htab
  obtain ⟨hvt, _, hchk⟩ := validate_parts hc hv
  obtain ⟨ix, u, he, h1, h2, _, _, h3⟩ := evaluate_sound K hm hvt hr hchk hval
  have hnan : hasNan u = true ↔ ∃ i j, i < units.length ∧ j < paths.length ∧ isNan (u.val i j) = true := by
    simp only [hasNan, List.any_eq_true, List.mem_range, h1, h2]
    constructor
    · rintro ⟨i, hi, j, hj, h⟩; exact ⟨i, j, hi, hj, h⟩
    · rintro ⟨i, j, hi, hj, h⟩; exact ⟨i, hi, j, hj, h⟩
  refine ⟨u, h1, h2, h3, ?_⟩
  unfold CModel.runUtilities
  simp only [hv, hc, he]
  by_cases hn : hasNan u = true
  · rw [if_pos (hnan.mp hn)]; simp [hn]
  · rw [if_neg (fun h => hn (hnan.mpr h))]
    have hn' : hasNan u = false := by simpa using hn
    simp only [hn']; cases clear <;> simp [CModel.clearScope]

/-- the whole effect of a run: the cached table is the new one (labelled as before, or with the units), and the scope may be cleared -/
theorem run_sound (K : Kernel F) {env : PyEnv} {py : PyParser} {m : CModel U F} {paths : List (List Name)} {depth : Nat} {units : List U}
    (hm : Consistent m paths depth units) (hheld : Held env py m.exprs) {g : Option Nat} {c : Container} (hc : m.container g = .ok c)
    (hv : m.validate true true true true g = .ok ()) {srcs : List Source}
    (hready : List.Forall₂ (Ready env m.scope paths depth) srcs c.exprs)
    (htab : ∀ y ∈ c.simple, ∀ o ma al t, dictGet m.scope y ≠ some (.table o ma al t))
    (hval : ∀ i j (_ : i < units.length) (hj : j < paths.length), (cellTotal K m.scope paths[j] i j srcs (startAt m i j)).isSome)
    (clear : Bool) :
    ∃ (ix : List U) (u : Tab F), u.rows = units.length ∧ u.cols = paths.length ∧
      (∀ i j (_ : i < units.length) (hj : j < paths.length), some (u.val i j) = cellTotal K m.scope paths[j] i j srcs (startAt m i j)) ∧
      (m.cached = none → ix = units) ∧ (∀ ix' u', m.cached = some (ix', u') → ix = ix') ∧
      m.runUtilities K g clear = if hasNan u then ({ m with cached := some (ix, u) }, .error .utilityBounds)
        else ({ m with cached := some (ix, u), scope := if clear then [] else m.scope }, .ok u) := by
  have hr := runs_of_held hheld hc hready htab
  obtain ⟨hvt, _, hchk⟩ := validate_parts hc hv
  obtain ⟨ix, u, he, h1, h2, h5, h6, h3⟩ := evaluate_sound K hm hvt hr hchk hval
  refine ⟨ix, u, h1, h2, h3, h5, h6, ?_⟩
  unfold CModel.runUtilities
  simp only [hv, hc, he]
  cases hn : hasNan u with
  | true => simp
  | false => cases clear <;> simp [CModel.clearScope]

theorem hasNan_iff (u : Tab F) : hasNan u = true ↔ ∃ i j, i < u.rows ∧ j < u.cols ∧ isNan (u.val i j) = true := by
  simp only [hasNan, List.any_eq_true, List.mem_range]
  constructor
  · rintro ⟨i, hi, j, hj, h⟩; exact ⟨i, j, hi, hj, h⟩
  · rintro ⟨i, j, hi, hj, h⟩; exact ⟨i, hi, j, hj, h⟩

omit [FOps F] in
/-- **C35** After any history of appends, drops and clears on the expressions of a model, exactly the texts appended
successfully and not dropped are evaluated: all of them, ungrouped ones first and each group in the order of its first text;
or those of the group asked for. Each is evaluated as the parser reads it. -/
theorem C35_texts (env : PyEnv) (py : PyParser) (ops : List GroupOp) (m : CModel U F) (hm : m.exprs = groupRun env py ExprGroup.empty ops) :
    Held env py m.exprs ∧
    (∃ c, m.container none = .ok c ∧ c.exprs.map (·.raw) =
      (follow env py ExprGroup.empty ⟨[], []⟩ ops).ungrouped ++ (follow env py ExprGroup.empty ⟨[], []⟩ ops).groups.flatMap (·.2)) ∧
    (∀ k, match dictGet (follow env py ExprGroup.empty ⟨[], []⟩ ops).groups k with
      | some texts => ∃ c, m.container (some k) = .ok c ∧ c.exprs.map (·.raw) = texts
      | none => m.container (some k) = .error .key) := by
  have ht := textsOf_run env py ExprGroup.empty ops
  have he : textsOf ExprGroup.empty = ⟨[], []⟩ := rfl
  rw [he] at ht
  refine ⟨hm ▸ (Held.empty env py).run ops, ⟨_, rfl, ?_⟩, ?_⟩
  · rw [← ht, hm]
    simp [textsOf, ExprGroup.all, List.map_flatMap, List.flatMap_map]
  · intro k
    rw [← ht]
    simp only [textsOf]
    rw [dictGet_mapv (fun s : SubGroup => s.exprs.map (·.raw)), ← hm]
    simp only [CModel.container, ExprGroup.getGroup]
    cases hd : dictGet m.exprs.subgroups k with
    | none => rfl
    | some s => exact ⟨_, rfl, rfl⟩

/-- **C35** If no expression reads `OUT` and adding is order free, the order of the expressions does not matter: the runs of
two models that differ only in their expressions, and hold the same ones in different order, agree in every cell. -/
theorem C35_order (K : Kernel F) (hK : OrderFree K) {env : PyEnv} {py : PyParser} {m m' : CModel U F} {paths : List (List Name)}
    {depth : Nat} {units : List U} (hm : Consistent m paths depth units) (hm' : m' = { m with exprs := m'.exprs })
    (hheld : Held env py m.exprs) (hheld' : Held env py m'.exprs) {g g' : Option Nat} {c c' : Container} (hc : m.container g = .ok c)
    (hc' : m'.container g' = .ok c')
    (hv : m.validate true true true true g = .ok ()) (hv' : m'.validate true true true true g' = .ok ()) {srcs srcs' : List Source}
    (hready : List.Forall₂ (Ready env m.scope paths depth) srcs c.exprs)
    (hready' : List.Forall₂ (Ready env m.scope paths depth) srcs' c'.exprs)
    (htab : ∀ y ∈ c.simple, ∀ o ma al t, dictGet m.scope y ≠ some (.table o ma al t))
    (htab' : ∀ y ∈ c'.simple, ∀ o ma al t, dictGet m.scope y ≠ some (.table o ma al t))
    (hp : srcs.Perm srcs') (hout : ∀ x ∈ srcs, ¬ Mentions outStr x.1)
    (hval : ∀ i j (_ : i < units.length) (hj : j < paths.length), (cellTotal K m.scope paths[j] i j srcs (startAt m i j)).isSome)
    (clear : Bool) :
    ∃ ix u ix' u', (m.runUtilities K g clear).1.cached = some (ix, u) ∧ (m'.runUtilities K g' clear).1.cached = some (ix', u') ∧
      u.rows = u'.rows ∧ u.cols = u'.cols ∧ (∀ i j, i < u.rows → j < u.cols → u.val i j = u'.val i j) ∧
      (((m.runUtilities K g clear).2 = .ok u ∧ (m'.runUtilities K g' clear).2 = .ok u') ∨
       ((m.runUtilities K g clear).2 = .error .utilityBounds ∧ (m'.runUtilities K g' clear).2 = .error .utilityBounds)) := by
  have hs : m'.scope = m.scope := by rw [hm']
  have hca : m'.cached = m.cached := by rw [hm']
  have hst : ∀ i j, startAt m' i j = startAt m i j := by intro i j; simp only [startAt, hca]
  have hcons : Consistent m' paths depth units := by
    refine ⟨?_, ?_, ?_, ?_⟩
    · rw [hm']; exact hm.unitsEq
    · rw [hm']; exact hm.choices
    · rw [hs]; exact hm.fits
    · rw [hca]; exact hm.cached
  have hperm : ∀ p i j st, cellTotal K m.scope p i j srcs st = cellTotal K m.scope p i j srcs' st :=
    fun p i j st => cellTotal_perm K hK m.scope p i j hp hout st
  obtain ⟨u, h1, h2, h3, h4, ix, h5⟩ := C35_sum K hm hheld hc hv hready htab hval clear
  obtain ⟨u', h1', h2', h3', h4', ix', h5'⟩ := C35_sum K hcons hheld' hc' hv' (hs ▸ hready') (hs ▸ htab') (by
    intro i j hi hj; rw [hs, hst, ← hperm]; exact hval i j hi hj) clear
  have hcell : ∀ i j, i < units.length → j < paths.length → u.val i j = u'.val i j := by
    intro i j hi hj
    have ha := h3 i j hi hj
    have hb := h3' i j hi hj
    rw [hs, hst, ← hperm, ← ha] at hb
    exact (Option.some.inj hb).symm
  refine ⟨ix, u, ix', u', h5, h5', by rw [h1, h1'], by rw [h2, h2'], fun i j hi hj => hcell i j (h1 ▸ hi) (h2 ▸ hj), ?_⟩
  by_cases hn : ∃ i j, i < units.length ∧ j < paths.length ∧ isNan (u.val i j) = true
  · right
    rw [if_pos hn] at h4
    obtain ⟨i, j, hi, hj, hn⟩ := hn
    rw [if_pos ⟨i, j, hi, hj, by rw [← hcell i j hi hj]; exact hn⟩] at h4'
    exact ⟨h4, h4'⟩
  · left
    rw [if_neg hn] at h4
    rw [if_neg (by
      rintro ⟨i, j, hi, hj, h⟩
      exact hn ⟨i, j, hi, hj, by rw [hcell i j hi hj]; exact h⟩)] at h4'
    exact ⟨h4, h4'⟩

/-- the value an expression contributes to a cell (`OUT`-free: independent of the utilities so far) -/
def contribution (K : Kernel F) (scope : List (Str × Sym F)) (path : List Name) (i j : Nat) (x : Source) : Option (Val F) :=
  den K.toArith (cellEnv K scope path zero i j) x.1

/-- whatever the way of adding a number to a cell: the cell holds the result of adding the values of the applying expressions in order -/
theorem total_fold (K : Kernel F) {f : F → F → F} (hacc : ∀ a x, K.acc a (.num x) = some (f a x)) (scope : List (Str × Sym F)) (path : List Name)
    (i j : Nat) (xs : List Source) (hout : ∀ x ∈ xs, ¬ Mentions outStr x.1) (vals : List F) (start : F)
    (hv : (xs.filter fun x => filterMeans path x.2).map (contribution K scope path i j) = vals.map fun v => some (.num v)) :
    cellTotal K scope path i j xs start = some (vals.foldl f start) := by
  induction xs generalizing vals start with
  | nil =>
    have : vals = [] := by simpa using hv.symm
    subst this; rfl
  | cons x xs ih =>
    simp only [cellTotal, List.foldlM_cons, bind]
    by_cases hf : filterMeans path x.2 = true
    · rw [List.filter_cons_of_pos (by simpa using hf), List.map_cons] at hv
      match vals, hv with
      | v :: vals, hv =>
        rw [List.map_cons] at hv
        obtain ⟨h1, h2⟩ := List.cons.inj hv
        have hd : den K.toArith (cellEnv K scope path start i j) x.1 = some (.num v) := by
          rw [den_cell K scope path i j x.1 (hout x (by simp)) start zero]; exact h1
        have hstep : cellStep K scope path i j start x = some (f start v) := by
          simp only [cellStep, hf, if_true, hd, Option.bind_some, hacc]
        rw [hstep, Option.bind_some, List.foldl_cons]
        exact ih (fun y hy => hout y (by simp [hy])) vals (f start v) h2
    · rw [List.filter_cons_of_neg (by simpa using hf)] at hv
      have hstep : cellStep K scope path i j start x = some start := by simp only [cellStep, hf]; rfl
      rw [hstep, Option.bind_some]
      exact ih (fun y hy => hout y (by simp [hy])) vals start hv

/-- **C35** In exact arithmetic the utility of a cell is the sum, from the start value on, of the values of the expressions
that apply to the choice. -/
theorem C35_total_is_sum (K : Kernel F) (hacc : ∀ a x, K.acc a (.num x) = some (add a x)) (scope : List (Str × Sym F)) (path : List Name)
    (i j : Nat) (xs : List Source) (hout : ∀ x ∈ xs, ¬ Mentions outStr x.1) (vals : List F) (start : F)
    (hv : (xs.filter fun x => filterMeans path x.2).map (contribution K scope path i j) = vals.map fun v => some (.num v)) :
    cellTotal K scope path i j xs start = some (vals.foldl add start) :=
  total_fold K hacc scope path i j xs hout vals start hv

theorem XR.add_comm' (a b : XR) : XR.add a b = XR.add b a := by
  cases a <;> cases b <;> simp [XR.add, _root_.add_comm]

theorem XR.add_assoc' (a b c : XR) : XR.add (XR.add a b) c = XR.add a (XR.add b c) := by
  cases a <;> cases b <;> cases c <;> simp [XR.add, _root_.add_assoc]

/-- **C35** exact addition is order free -/
theorem C35_exact_order_free (K : Kernel XR) (h : ∀ a v, K.acc a v = match v with
    | .num x => some (add a x)
    | _ => none) : OrderFree K := by
  intro a v w
  have e : ∀ a b c : XR, add (add a b) c = add (add a c) b := by
    intro a b c
    show XR.add (XR.add a b) c = XR.add (XR.add a c) b
    rw [XR.add_assoc', XR.add_comm' b c, ← XR.add_assoc']
  cases v <;> cases w <;> simp [h, e]

end Cheval
