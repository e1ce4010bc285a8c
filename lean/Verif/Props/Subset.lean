import Verif.Core.Rows
import Verif.Props.WholeRuns

/-!
# C41: `copy_subset` commutes with evaluation

Positions in the model count decision units; `ps` are the positions the mask selects.
-/
namespace Cheval
open FOps Spec
variable {U F R : Type}

/-- the positions the mask selects, in increasing order -/
structure Selects (mask : List Bool) (ps : List Nat) : Prop where
  sorted : ps.Pairwise (· < ·)
  chosen : ∀ p, p ∈ ps ↔ mask[p]? = some true

theorem maskPositions_selects (mask : List Bool) : Selects mask (maskPositions mask) := by
  refine ⟨List.Pairwise.filter _ (List.pairwise_lt_range), fun p => ?_⟩
  simp only [maskPositions, List.mem_filter, List.mem_range]
  constructor
  · rintro ⟨h1, h2⟩
    rw [List.getD_eq_getElem?_getD] at h2
    simp only [List.getElem?_eq_getElem h1, Option.getD_some] at h2 ⊢
    rw [h2]
  · intro h
    have h1 : p < mask.length := by
      by_contra hc
      rw [List.getElem?_eq_none (by omega)] at h; cases h
    refine ⟨h1, ?_⟩
    rw [List.getD_eq_getElem?_getD, h]; rfl

theorem maskPositions_lt {mask : List Bool} {p : Nat} (h : p ∈ maskPositions mask) : p < mask.length :=
  List.mem_range.mp (List.mem_filter.mp h).1

/-! ## symbols -/

theorem Arr.take_rows {a a' : Arr F} {mask : List Bool} (h : a.take mask = .ok a') :
    RowsArr mask.length (maskPositions mask) a a' := by
  unfold Arr.take at h
  split at h
  · cases h
  · rename_i hr
    cases h
    exact ⟨rfl, .inr ⟨not_not.mp hr, rfl, fun i hi j => by simp [hi]⟩⟩

theorem copySym_rows {n m : Nat} {mask : List Bool} (hn : mask.length = n) {s s' : Sym F} (hf : FitsSym n m s)
    (h : s.copy true (some mask) = .ok s') : RowsSym n (maskPositions mask) s s' := by
  subst hn
  cases s with
  | number v =>
    cases h
    refine ⟨rfl, fun l hl => ⟨l, hl, ?_⟩, fun ch l hl => by cases hl⟩
    cases v with
    | none => cases hl
    | some v => cases hl; exact rfl
  | vector o v =>
    cases v with
    | none =>
      cases o <;> cases h <;> exact ⟨rfl, fun l hl => (by cases hl), fun ch l hl => by cases hl⟩
    | some a =>
      cases o with
      | true =>
        cases h
        refine ⟨rfl, fun l hl => ⟨l, hl, ?_⟩, fun ch l hl => by cases hl⟩
        cases hl
        exact ⟨rfl, .inl ⟨hf.1, rfl⟩⟩
      | false =>
        simp only [Sym.copy, Bool.not_true, Bool.false_eq_true, if_false] at h
        cases ht : a.take mask with
        | error e => rw [ht] at h; cases h
        | ok a' =>
          rw [ht] at h
          cases h
          refine ⟨rfl, fun l hl => ?_, fun ch l hl => by cases hl⟩
          cases hl
          exact ⟨_, rfl, Arr.take_rows ht⟩
  | matrix tr rc rr f v =>
    cases v with
    | none => cases h; exact ⟨rfl, fun l hl => (by cases hl; exact ⟨_, rfl, trivial⟩), fun ch l hl => by cases hl⟩
    | some a =>
      simp only [Sym.copy, Bool.not_true, Bool.false_eq_true, if_false] at h
      cases ht : a.take mask with
      | error e => rw [ht] at h; cases h
      | ok a' =>
        rw [ht] at h
        cases h
        refine ⟨rfl, fun l hl => ?_, fun ch l hl => by cases hl⟩
        cases hl
        exact ⟨_, rfl, Arr.take_rows ht⟩
  | table o ma al v =>
    cases v with
    | none =>
      cases o <;> cases h <;> refine ⟨rfl, fun l hl => (by cases hl), fun ch l hl => ?_⟩ <;>
      · simp only [Sym.getChain] at hl
        split at hl <;> simp_all
    | some t =>
      cases o with
      | true =>
        cases h
        refine ⟨rfl, fun l hl => (by cases hl), fun ch l hl => ⟨l, hl, ?_⟩⟩
        obtain ⟨path, fn⟩ := ch
        rcases path with _ | ⟨a, _ | ⟨b, rest⟩⟩ <;> simp only [Sym.getChain] at hl
        · cases hl
        · cases hw : t.column a with
          | error e => rw [hw] at hl; cases hl
          | ok f => rw [hw] at hl; cases hl; exact ⟨rfl, .inl ⟨rfl, rfl⟩⟩
        · split at hl
          · cases hw : t.walk (a :: b :: rest).reverse fn with
            | error e => rw [hw] at hl; cases hl
            | ok f => rw [hw] at hl; cases hl; exact ⟨rfl, .inl ⟨rfl, rfl⟩⟩
          · cases hl
      | false =>
        simp only [Sym.copy, Bool.not_true, Bool.false_eq_true, if_false] at h
        cases h
        have hrows : t.rows = mask.length := by simpa [FitsSym] using hf
        refine ⟨rfl, fun l hl => (by cases hl), fun ch l hl => ?_⟩
        obtain ⟨path, fn⟩ := ch
        rcases path with _ | ⟨a, _ | ⟨b, rest⟩⟩ <;> simp only [Sym.getChain] at hl ⊢
        · cases hl
        · cases hw : t.column a with
          | error e => rw [hw] at hl; cases hl
          | ok f =>
            rw [hw] at hl; cases hl
            refine ⟨.array (shapeVector false (maskPositions mask).length fun i => f ((maskPositions mask).getD i 0)), ?_, rfl, .inr ⟨hrows, rfl, ?_⟩⟩
            · simp [TableData.take, hw, Except.map]
            · intro i hi j; simp [shapeVector, hi]
        · split at hl
          · rename_i hlk
            cases hw : t.walk (a :: b :: rest).reverse fn with
            | error e => rw [hw] at hl; cases hl
            | ok f =>
              rw [hw] at hl; cases hl
              refine ⟨.array (shapeVector false (maskPositions mask).length fun i => f ((maskPositions mask).getD i 0)), ?_, rfl, .inr ⟨hrows, rfl, ?_⟩⟩
              · have hlk2 : (t.take mask).linked = true := hlk
                have hw2 : (t.take mask).walk (a :: b :: rest).reverse fn = .ok fun i => f ((maskPositions mask).getD i 0) := by
                  simp only [TableData.take, hw, Except.map]
                rw [if_pos hlk2, hw2]
                rfl
              · intro i hi j; simp [shapeVector, hi]
          · cases hl

theorem copyScope_rows {n m : Nat} {mask : List Bool} (hn : mask.length = n) {scope scope' : List (Str × Sym F)} (hf : Fits n m scope)
    (h : copyScope scope true (some mask) = .ok scope') : RowsScope n (maskPositions mask) scope scope' := by
  unfold copyScope at h
  induction scope generalizing scope' with
  | nil => intro x s hs; cases hs
  | cons e scope ih =>
    rw [List.mapM_cons] at h
    cases hs : e.2.copy true (some mask) with
    | error er => simp [hs, Except.map, bind, Except.bind] at h
    | ok s =>
      simp only [hs, Except.map, bind, Except.bind] at h
      split at h
      · cases h
      · rename_i l hl
        cases h
        have h2 := ih (fun e he => hf e (by simp [he])) hl
        intro x sy hx
        rw [dictGet_cons] at hx ⊢
        split at hx
        · rename_i he
          cases hx
          rw [if_pos he]
          exact ⟨s, rfl, copySym_rows hn (hf e (by simp)) hs⟩
        · rename_i he
          rw [if_neg he]
          exact h2 x sy hx

/-! ## expressions -/

theorem container_copy {m m' : CModel U F} (he : m'.exprs = m.exprs.copy) {env : PyEnv} {py : PyParser} (hh : Held env py m.exprs) {g : Option Nat}
    {c : Container} (hc : m.container g = .ok c) :
    ∃ c', m'.container g = .ok c' ∧ c'.exprs = c.exprs ∧ (∀ y, y ∈ c'.simple ↔ ∃ x ∈ c.exprs, y ∈ x.symbols) ∧
      (∀ y, y ∈ c'.chained ↔ ∃ x ∈ c.exprs, y ∈ x.chains.map (·.1)) := by
  cases g with
  | none =>
    cases hc
    refine ⟨_, rfl, by simp [he, copy_all], fun y => ?_, fun y => ?_⟩
    · simp only [he, ExprGroup.itersimple, ExprGroup.copy, List.mem_append, foldl_setUnion_mem, List.not_mem_nil, false_or,
        List.mem_flatMap, ExprGroup.all]
      constructor
      · rintro (⟨x, hx, hy⟩ | ⟨e, ha0, hy⟩)
        · exact ⟨x, .inl hx, hy⟩
        · obtain ⟨a, ha, rfl⟩ := List.mem_map.mp ha0
          simp only [SubGroup.rebuild, rebuild_eq, foldl_setUnion_mem, List.not_mem_nil, false_or] at hy
          obtain ⟨x, hx, hy⟩ := hy
          exact ⟨x, .inr ⟨a, ha, hx⟩, hy⟩
      · rintro ⟨x, hx | ⟨a, ha, hx⟩, hy⟩
        · exact .inl ⟨x, hx, hy⟩
        · refine .inr ⟨_, List.mem_map_of_mem ha, ?_⟩
          simp only [SubGroup.rebuild, rebuild_eq, foldl_setUnion_mem, List.not_mem_nil, false_or]
          exact ⟨x, hx, hy⟩
    · have hf := fun l a y => foldl_setUnion_mem l (fun e => e.chains.map (·.1)) a y
      simp only [he, ExprGroup.iterchained, ExprGroup.copy, List.mem_append, hf, List.not_mem_nil, false_or,
        List.mem_flatMap, ExprGroup.all]
      constructor
      · rintro (⟨x, hx, hy⟩ | ⟨e, ha0, hy⟩)
        · exact ⟨x, .inl hx, hy⟩
        · obtain ⟨a, ha, rfl⟩ := List.mem_map.mp ha0
          simp only [SubGroup.rebuild, rebuild_eq, hf, List.not_mem_nil, false_or] at hy
          obtain ⟨x, hx, hy⟩ := hy
          exact ⟨x, .inr ⟨a, ha, hx⟩, hy⟩
      · rintro ⟨x, hx | ⟨a, ha, hx⟩, hy⟩
        · exact .inl ⟨x, hx, hy⟩
        · refine .inr ⟨_, List.mem_map_of_mem ha, ?_⟩
          simp only [SubGroup.rebuild, rebuild_eq, hf, List.not_mem_nil, false_or]
          exact ⟨x, hx, hy⟩
  | some k =>
    simp only [CModel.container, ExprGroup.getGroup] at hc ⊢
    have hg : dictGet m'.exprs.subgroups k = (dictGet m.exprs.subgroups k).map SubGroup.rebuild := by
      rw [he]; exact dictGet_mapv SubGroup.rebuild _ _
    rw [hg]
    cases hd : dictGet m.exprs.subgroups k with
    | none => rw [hd] at hc; cases hc
    | some sg =>
      rw [hd] at hc
      cases hc
      have hf := fun l a y => foldl_setUnion_mem l (fun e => e.chains.map (·.1)) a y
      refine ⟨_, rfl, by simp [SubGroup.rebuild, rebuild_eq], fun y => ?_, fun y => ?_⟩
      · simp only [SubGroup.rebuild, rebuild_eq, foldl_setUnion_mem, List.not_mem_nil, false_or]
      · simp only [SubGroup.rebuild, rebuild_eq, hf, List.not_mem_nil, false_or]

/-- Every variable of an expression that the container lists among its simple symbols is the reserved word NAN, a symbol recorded for an
expression of the container, or a substitution made for the expression itself. This holds if no expression was rejected after its
symbols were recorded (`noLeftover`), and it holds for all expressions without symbols below a unary minus or in keyword arguments
(`namesRecorded_of_checked`); see C22 and C24. -/
def NamesRecorded (c : Container) : Prop :=
  ∀ x ∈ c.exprs, ∀ id ∈ freeNames x.transformed, id ∈ c.simple → id = nanStr ∨ (∃ y ∈ c.exprs, id ∈ y.symbols) ∨
    (∃ t ∈ x.chains, id ∈ t.2.map (·.1)) ∨ id ∈ x.dicts.map (·.1)

theorem namesRecorded_of_noLeftover {c : Container} (h : ∀ id ∈ c.simple, ∃ y ∈ c.exprs, id ∈ y.symbols) : NamesRecorded c :=
  fun _ _ id _ hs => .inr (.inl (h id hs))

theorem namesRecorded_of_checked {m : CModel U F} {env : PyEnv} {py : PyParser} (hh : Held env py m.exprs) {g : Option Nat} {c : Container}
    (hc : m.container g = .ok c)
    (hp : ∀ x ∈ c.exprs, ∀ text filt tree, splitFilter x.raw = .ok (text, filt) → py text = .ok tree → Checked tree) : NamesRecorded c := by
  intro x hx id hid _
  obtain ⟨_, _, h3⟩ := container_recorded hh hc
  obtain ⟨src, text, hs, hpy, hf, simple, chained, s, hv, e1, e2, e3⟩ := h3 x hx
  obtain ⟨hr, _, _⟩ := C22_recorded_partial env simple chained src.1 x.transformed s (hp x hx _ _ _ hs hpy) hv
  rcases hr id hid with h | h | h | h
  · exact .inl h
  · exact .inr (.inl ⟨x, hx, by rw [e3]; exact h⟩)
  · obtain ⟨y, hy, rfl⟩ := List.mem_map.mp h
    obtain ⟨ls, h4, h5⟩ := mem_subs.mp hy
    exact .inr (.inr (.inl ⟨(y.2.1, ls), by rw [e1]; exact h4, List.mem_map.mpr ⟨_, h5, rfl⟩⟩))
  · exact .inr (.inr (.inr (by rw [e2]; exact h)))

section
variable [FOps F]

/-- **C41 (utilities)** Take a model whose data have the size of the model (C32) and whose cached utilities, if any, belong to its decision
units. If a run of the model succeeds, the same run of `m.copy_subset(mask)` succeeds too; its decision units are the ones selected by the
mask, and the utilities of each of them are those computed by the model. -/
theorem C41_utilities [DecidableEq U] (K : Kernel F) {env : PyEnv} {py : PyParser} (m m' : CModel U F) (hh : Held env py m.exprs)
    (ix : List U) (mask : List Bool) (hcopy : m.copySubset ix mask = .ok m') (labels : List (List Name)) (hl : choices m.tree = .ok labels)
    (hfit : Fits ix.length labels.length m.scope) (hcache : ∀ t, m.cached = some t → t.1 = ix)
    (g : Option Nat) (c : Container) (hc : m.container g = .ok c) (hnames : NamesRecorded c) (clear : Bool)
    (m1 : CModel U F) (u : Tab F) (hrun : m.runUtilities K g clear = (m1, .ok u)) :
    ∃ ps m1' u', Selects mask ps ∧ m'.units = some (ps.filterMap fun i => ix[i]?) ∧ (∀ p ∈ ps, p < ix.length) ∧
      m'.runUtilities K g clear = (m1', .ok u') ∧ u.rows = ix.length ∧ u'.rows = ps.length ∧ u'.cols = u.cols ∧
      ∀ i (_ : i < ps.length), ∀ j, u'.val i j = u.val ps[i] j := by
  obtain ⟨hu, hlen, scope', cached', hsc, hca, rfl⟩ := copySubset_ok hcopy
  have hps : ∀ p ∈ maskPositions mask, p < ix.length := fun p hp => hlen ▸ maskPositions_lt hp
  have hrows := copyScope_rows (n := ix.length) (m := labels.length) hlen hfit hsc
  obtain ⟨c', hc', hex, hsimple, hchained⟩ := container_copy (m := m) (m' := ⟨m.tree, m.exprs.copy, scope',
    some ((maskPositions mask).filterMap fun i => ix[i]?), cached', m.precision⟩) rfl hh hc
  obtain ⟨hr1, hr2, _⟩ := container_recorded hh hc
  have hlu : ((maskPositions mask).filterMap fun i => ix[i]?).length = (maskPositions mask).length := by
    generalize hgp : maskPositions mask = ps at hps
    clear hgp hrows hca hcopy hc' hsc
    induction ps with
    | nil => rfl
    | cons p ps ih =>
      have : p < ix.length := hps p (by simp)
      rw [List.filterMap_cons, List.getElem?_eq_getElem this]
      simp only [List.length_cons]
      rw [ih (fun q hq => hps q (by simp [hq]))]
  refine ⟨maskPositions mask, ?_⟩
  unfold CModel.runUtilities at hrun
  split at hrun
  · cases hrun
  · cases hrun
  · rename_i c2 hv hc2
    rw [hc] at hc2
    cases hc2
    rcases he : m.evaluate K c with ⟨m2, r⟩
    rw [he] at hrun
    cases r with
    | error e => cases hrun
    | ok u2 =>
      simp only [Prod.mk.injEq, Except.ok.injEq] at hrun
      obtain ⟨_, rfl⟩ := hrun
      -- validation of the copy
      obtain ⟨hvt, _, hchk⟩ := validate_parts hc hv
      have hv' : CModel.validate (⟨m.tree, m.exprs.copy, scope', some ((maskPositions mask).filterMap fun i => ix[i]?), cached', m.precision⟩ : CModel U F)
          true true true true g = .ok () := by
        classical
        rw [C30_validate (⟨m.tree, m.exprs.copy, scope', some ((maskPositions mask).filterMap fun i => ix[i]?), cached', m.precision⟩ : CModel U F)
          g c' hvt _ rfl hc', if_pos]
        intro x hx hxr
        rw [checkSymbols_iff] at hchk
        split at hchk
        · rename_i hall
          obtain ⟨s, hs, hf⟩ := hall x (by
            rcases hx with hx | hx
            · obtain ⟨y, hy, hxy⟩ := (hsimple x).mp hx
              exact List.mem_append_left _ (hr1 y hy x hxy)
            · obtain ⟨y, hy, hxy⟩ := (hchained x).mp hx
              exact List.mem_append_right _ (hr2 y hy x hxy)) hxr
          obtain ⟨s', hs', hrs⟩ := hrows x s hs
          exact ⟨s', hs', by rw [hrs.filled]; exact hf⟩
        · cases hchk
      -- evaluation
      unfold CModel.evaluate at he
      simp only [hu, hl] at he
      rcases hp : m.partialUtilities with ⟨m3, r3⟩
      rw [hp] at he
      cases r3 with
      | error e => cases he
      | ok p =>
        obtain ⟨ix2, u0⟩ := p
        simp only at he
        have hk := partialUtilities_keeps m
        rw [hp] at hk
        obtain ⟨ca, hk⟩ := hk
        simp only at hk
        subst hk
        simp only at he
        cases hsy : symLocals m.scope c.simple with
        | error e => rw [hsy] at he; cases he
        | ok syms =>
          rw [hsy] at he
          simp only at he
          rcases hlp : evalLoop K m.scope labels syms c.exprs u0 with ⟨v, rv⟩
          rw [hlp] at he
          cases rv with
          | error e => cases he
          | ok w =>
            simp only at he
            split at he
            · cases he
            · rename_i hnan
              split at he
              · cases he
              · rename_i hsz
                push Not at hsz
                simp only [Prod.mk.injEq, Except.ok.injEq] at he
                obtain ⟨_, rfl⟩ := he
                have hsize := evalLoop_size (K := K) (scope := m.scope) (labels := labels) (syms := syms) c.exprs u0
                rw [hlp] at hsize
                simp only at hsize
                have h0r : u0.rows = ix.length := by rw [← hsize.1, hsz.1]
                -- the start of the copy
                obtain ⟨ca', ix', u0', hpart', hru0⟩ : ∃ ca' ix' u0', CModel.partialUtilities (⟨m.tree, m.exprs.copy, scope',
                    some ((maskPositions mask).filterMap fun i => ix[i]?), cached', m.precision⟩ : CModel U F) =
                    (⟨m.tree, m.exprs.copy, scope', some ((maskPositions mask).filterMap fun i => ix[i]?), ca', m.precision⟩, .ok (ix', u0')) ∧
                    RowsTab ix.length (maskPositions mask) u0 u0' := by
                  unfold CModel.partialUtilities at hp ⊢
                  have hv2 : ∀ (m : CModel U F) w, m.tree = w → validateTree w = .ok () → (∃ x, m.units = some x) →
                      m.validate true true false false none = .ok () := by
                    rintro m _ rfl h ⟨x, hx⟩
                    simp [CModel.validate, h, CModel.decisionUnits, hx, bind, Except.bind]
                  rw [hv2 m _ rfl hvt ⟨_, hu⟩] at hp
                  rw [hv2 (⟨m.tree, m.exprs.copy, scope', some ((maskPositions mask).filterMap fun i => ix[i]?), cached', m.precision⟩ : CModel U F)
                    _ rfl hvt ⟨_, rfl⟩]
                  simp only [CModel.decisionUnits, hu, hl] at hp ⊢
                  rcases hca with ⟨hc1, rfl⟩ | ⟨t, t', hc1, htk, rfl⟩
                  · rw [hc1] at hp
                    simp only [Prod.mk.injEq, Except.ok.injEq] at hp
                    obtain ⟨_, rfl, rfl⟩ := hp
                    exact ⟨_, _, _, rfl, rfl, by simp only [hlu], rfl, fun i hi j => rfl⟩
                  · rw [hc1] at hp
                    simp only [Prod.mk.injEq, Except.ok.injEq] at hp
                    obtain ⟨_, rfl⟩ := hp
                    have hti := hcache _ hc1
                    simp only at hti
                    subst hti
                    simp only [takeMasked, if_true, Except.ok.injEq] at htk
                    subst htk
                    refine ⟨_, _, _, rfl, h0r, rfl, rfl, fun i hi j => ?_⟩
                    simp [hi]
                obtain ⟨syms', hsy', hdict, hres, hkeys⟩ := symLocals_rows hrows (names' := c'.simple) (by
                  intro x hx
                  obtain ⟨y, hy, hxy⟩ := (hsimple x).mp hx
                  exact hr1 y hy x hxy) hsy
                obtain ⟨v', hlp', hrv⟩ := evalLoop_rows K hps hrows labels hdict hres c.exprs (by
                  intro x hx id hid hsy
                  obtain ⟨ei, hei, hee⟩ := List.mem_map.mp hsy
                  rcases hnames x hx id hid (hee ▸ ((symLocals_inv ‹_›).2 ei hei).1) with rfl | ⟨y, hy, h⟩ | h | h
                  · exact .inl (by simp [reserved])
                  · by_cases hir : id ∈ reserved
                    · exact .inl hir
                    · exact .inr (.inl (hkeys id ((hsimple id).mpr ⟨y, hy, h⟩) hir))
                  · exact .inr (.inr (.inl h))
                  · exact .inr (.inr (.inr h))) hru0 hlp
                have hnan' := hasNan_rows hps hrv (by simpa using hnan)
                have hfin : ∃ mm, CModel.runUtilities K (⟨m.tree, m.exprs.copy, scope', some ((maskPositions mask).filterMap fun i => ix[i]?), cached', m.precision⟩ : CModel U F) g clear = (mm, .ok v') := by
                  unfold CModel.runUtilities
                  simp only [hv', hc']
                  unfold CModel.evaluate
                  simp only [hl, hpart', hsy', hex, hlp', hnan', Bool.false_eq_true, if_false]
                  rw [if_neg (by
                    push Not
                    exact ⟨by rw [hrv.2.1, hlu], by rw [hrv.2.2.1]; exact hsz.2⟩)]
                  exact ⟨_, rfl⟩
                obtain ⟨mm, hmm⟩ := hfin
                exact ⟨mm, v', maskPositions_selects mask, rfl, hps, hmm, hsz.1, hrv.2.1, hrv.2.2.1, hrv.2.2.2⟩

end

end Cheval
