import Verif.Props.Subset
import Verif.Props.Reachable

/-!
# C41: `copy_subset` commutes with `run_stochastic`
-/
namespace Cheval
open FOps Spec
variable {U F R : Type} [FOps F]

/-! ## stores of a row only depend on the row result -/

omit [FOps F] in
theorem foldl_doWrite_shift {i i' : Nat} (ws : List (Write F)) (hr : ∀ w ∈ ws, w.1.2.1 = i) (m m' : Mem F)
    (h : ∀ a j, m (a, i, j) = m' (a, i', j)) (a j : Nat) :
    (ws.foldl doWrite m) (a, i, j) = ((ws.map fun w => ((w.1.1, i', w.1.2.2), w.2)).foldl doWrite m') (a, i', j) := by
  induction ws generalizing m m' with
  | nil => exact h a j
  | cons w ws ih =>
    simp only [List.foldl_cons, List.map_cons]
    refine ih (fun w hw => hr w (by simp [hw])) _ _ fun a j => ?_
    have hw := hr w (by simp)
    obtain ⟨⟨wa, wi, wj⟩, v⟩ := w
    simp only at hw
    subst hw
    simp only [doWrite, Prod.mk.injEq, true_and]
    by_cases hc : a = wa ∧ j = wj
    · simp [hc]
    · simp only [hc, if_false]
      exact h a j

theorem rowWrites_shift {α : Type} (array i i' : Nat) (f : α → Cell F) (vs : List α) :
    (rowWrites array i f vs).map (fun w => ((w.1.1, i', w.1.2.2), w.2)) = rowWrites array i' f vs := by
  simp only [rowWrites]
  apply List.ext_getElem (by simp)
  intro n h1 h2
  simp

theorem probBody_shift {f : List F → Except Err (List F × F × List F)} {rows rows' : List (List F)} {i i' : Nat}
    (h : rows.getD i [] = rows'.getD i' []) {ws : List (Write F)} (hws : probBody f rows i = .ok ws) :
    probBody f rows' i' = .ok (ws.map fun w => ((w.1.1, i', w.1.2.2), w.2)) := by
  unfold probBody at hws ⊢
  rw [← h]
  cases hf : f (rows.getD i []) with
  | error e => rw [hf] at hws; cases hws
  | ok r =>
    rw [hf] at hws
    obtain rfl := Except.ok.inj hws
    simp only [bind, Except.bind, List.map_append, rowWrites_shift, List.map_cons, List.map_nil]
    rfl

/-- the rows of a second loop are rows of a first one: so are its results -/
theorem probLoop_rows {f : List F → Except Err (List F × F × List F)} {rows rows' : List (List F)} {ps : List Nat}
    (hl : rows'.length = ps.length) (hp : ∀ p ∈ ps, p < rows.length)
    (hrows : ∀ i (_ : i < ps.length), rows'.getD i [] = rows.getD ps[i] [])
    {m : Mem F} (h : ParLoop rows.length (probBody f rows) zeroMem (.ok m)) {out : Except Err (Mem F)}
    (h' : ParLoop rows'.length (probBody f rows') zeroMem out) :
    ∃ m', out = .ok m' ∧ ∀ i (_ : i < ps.length), ∀ a j, m' (a, i, j) = m (a, ps[i], j) := by
  have hrow : ∀ rows : List (List F), ∀ i < rows.length, ∀ ws, probBody f rows i = .ok ws → ∀ w ∈ ws, w.1.2.1 = i :=
    fun rows i _ ws hws => probBody_row f rows i ws hws
  have hall : ∀ i < rows.length, ∃ ws, probBody f rows i = .ok ws := by
    rcases h.not_ok with ⟨_, _, hall⟩ | ⟨i, hi, e, he, hc⟩
    · exact hall
    · cases hc
  have hall' : ∀ i (hi : i < ps.length), ∃ ws, probBody f rows ps[i] = .ok ws ∧
      probBody f rows' i = .ok (ws.map fun w => ((w.1.1, i, w.1.2.2), w.2)) := by
    intro i hi
    obtain ⟨ws, hws⟩ := hall ps[i] (hp _ (List.getElem_mem hi))
    exact ⟨ws, hws, probBody_shift (hrows i hi).symm hws⟩
  rcases h'.not_ok with ⟨m', rfl, _⟩ | ⟨i, hi, e, he, _⟩
  · refine ⟨m', rfl, fun i hi a j => ?_⟩
    obtain ⟨ws, h1, h2⟩ := hall' i hi
    have hpi := hp _ (List.getElem_mem hi)
    rw [ParLoop.ok_cell (hrow rows) h hpi h1 a j, ParLoop.ok_cell (hrow rows') h' (by omega) h2 a j]
    exact (foldl_doWrite_shift (i' := i) ws (hrow rows _ hpi ws h1) zeroMem zeroMem (fun a j => rfl) a j).symm
  · obtain ⟨ws, _, h2⟩ := hall' i (by omega)
    rw [h2] at he; cases he

omit [FOps F] in
theorem toRows_getD (u : Tab F) (i : Nat) (hi : i < u.rows) : u.toRows.getD i [] = (List.range u.cols).map fun j => u.val i j := by
  simp [Tab.toRows, hi]

/-- **C41** (probabilities) If `run_stochastic` succeeds on a model, it succeeds on `m.copy_subset(mask)` whatever the schedule: with
the same choices as columns, and with the probabilities, logsums and logsum terms computed by the model for the selected decision
units. -/
theorem C41_run_stochastic [DecidableEq U] (s : Setting F R) {env : PyEnv} {py : PyParser} (m m' : CModel U F) (hh : Held env py m.exprs)
    (ix : List U) (mask : List Bool) (hcopy : m.copySubset ix mask = .ok m') (labels : List (List Name)) (hl : choices m.tree = .ok labels)
    (hfit : Fits ix.length labels.length m.scope) (hcache : ∀ t, m.cached = some t → t.1 = ix)
    (g : Option Nat) (c : Container) (hc : m.container g = .ok c) (hnames : NamesRecorded c) (threads : Int) (clear scale check : Bool)
    (m1 : CModel U F) (fr nls : Frame F) (ls : Nat → F)
    (hrun : RunStochastic s m g threads clear scale check (m1, .ok (fr, ls, nls)))
    (out : CModel U F × Except Err (Frame F × (Nat → F) × Frame F)) (hrun' : RunStochastic s m' g threads clear scale check out) :
    ∃ ps m1' fr' ls' nls', Selects mask ps ∧ m'.units = some (ps.filterMap fun i => ix[i]?) ∧ (∀ p ∈ ps, p < ix.length) ∧
      out = (m1', .ok (fr', ls', nls')) ∧ fr'.cols = fr.cols ∧ nls'.cols = nls.cols ∧
      ∀ i (_ : i < ps.length), ls' i = ls ps[i] ∧ ∀ j, fr'.val i j = fr.val ps[i] j ∧ nls'.val i j = nls.val ps[i] j := by
  unfold RunStochastic at hrun hrun'
  rcases hu : m.runUtilities s.K g clear with ⟨m2, r⟩
  rw [hu] at hrun
  cases r with
  | error e => cases hrun
  | ok u =>
    simp only at hrun
    obtain ⟨ps, m1', u', hsel, hun, hps, hu', hr, hr', hcols, hval⟩ :=
      C41_utilities s.K m m' hh ix mask hcopy labels hl hfit hcache g c hc hnames clear m2 u hu
    rw [hu'] at hrun'
    simp only at hrun'
    split at hrun
    · cases hrun
    · rename_i hth
      rw [if_neg hth] at hrun'
      obtain ⟨res, hst, he⟩ := hrun
      cases he
      obtain ⟨res', hst', rfl⟩ := hrun'
      have ht : m1.tree = m.tree := (runUtilities_ok hu).2.2.1
      have ht' : m1'.tree = m.tree := by
        rw [(runUtilities_ok hu').2.2.1]
        obtain ⟨_, _, _, _, _, _, rfl⟩ := copySubset_ok hcopy
        rfl
      rw [ht'] at hst'
      rw [ht] at hst
      have hlen' : u'.toRows.length = ps.length := by simp [Tab.toRows, hr']
      have hlen : u.toRows.length = ix.length := by simp [Tab.toRows, hr]
      have hrows : ∀ i (_ : i < ps.length), u'.toRows.getD i [] = u.toRows.getD ps[i] [] := by
        intro i hi
        rw [toRows_getD _ _ (by omega), toRows_getD _ _ (by rw [hr]; exact hps _ (List.getElem_mem hi)), hcols]
        exact List.map_congr_left fun j _ => hval i hi j
      unfold StochasticStage at hst hst'
      cases hd : depth m.tree with
      | error e => rw [hd] at hst; cases hst
      | ok d =>
        simp only [hd] at hst hst'
        split at hst
        · rename_i h1
          rw [if_pos h1] at hst'
          cases hf : flatten m.tree with
          | error e => rw [hf] at hst; cases hst
          | ok fl =>
            simp only [hf] at hst hst'
            obtain ⟨r1, hw, hst⟩ := hst
            obtain ⟨r2, hw', hst'⟩ := hst'
            cases r1 with
            | error e => cases hst
            | ok mm =>
              obtain ⟨mm', rfl, hcell⟩ := probLoop_rows hlen' (by rw [hlen]; exact hps) hrows hw hw'
              cases he : elementalChoices m.tree with
              | error e => rw [he] at hst; cases hst
              | ok el =>
                cases hch : choices m.tree with
                | error e => rw [he, hch] at hst; cases hst
                | ok ch =>
                  rw [he, hch] at hst hst'
                  simp only [Except.ok.injEq, Prod.mk.injEq] at hst
                  obtain ⟨rfl, rfl, rfl⟩ := hst
                  refine ⟨ps, m1', _, _, _, hsel, hun, hps, congrArg (Prod.mk m1') hst', rfl, rfl, fun i hi => ⟨?_, fun j => ⟨?_, ?_⟩⟩⟩ <;>
                    simp only [readNum, hcell i hi]
        · rename_i h1
          rw [if_neg h1] at hst'
          obtain ⟨r1, hw, hst⟩ := hst
          obtain ⟨r2, hw', hst'⟩ := hst'
          cases r1 with
          | error e => cases hst
          | ok mm =>
            obtain ⟨mm', rfl, hcell⟩ := probLoop_rows hlen' (by rw [hlen]; exact hps) hrows hw hw'
            cases hch : choices m.tree with
            | error e => rw [hch] at hst; cases hst
            | ok ch =>
              rw [hch] at hst hst'
              simp only [Except.ok.injEq, Prod.mk.injEq] at hst
              obtain ⟨rfl, rfl, rfl⟩ := hst
              refine ⟨ps, m1', _, _, _, hsel, hun, hps, congrArg (Prod.mk m1') hst', rfl, rfl, fun i hi => ⟨?_, fun j => ⟨?_, ?_⟩⟩⟩ <;>
                simp only [readNum, hcell i hi]

/-! ## where the condition on names holds -/

/-- the symbols recorded for a sub-group are those of its expressions -/
def SubTight (g : ExprGroup) : Prop := ∀ e ∈ g.subgroups, ∀ y ∈ e.2.simple, ∃ x ∈ e.2.exprs, y ∈ x.symbols

/-- so are those recorded for the whole -/
def AllTight (g : ExprGroup) : Prop := (g.subgroups.map (·.1)).Nodup ∧ ∀ y ∈ g.simple, ∃ x ∈ g.all, y ∈ x.symbols

omit [FOps F] in
theorem SubTight.append {g : ExprGroup} (h : SubTight g) (env : PyEnv) (py : PyParser) (e : Str) (k : Option Nat) :
    SubTight (g.append env py e k).1 := by
  unfold ExprGroup.append
  rcases hp : parse env py e g.simple g.chained with ⟨⟨si, ch⟩, r⟩
  cases r with
  | error er => exact h
  | ok x =>
    cases k with
    | none => exact h
    | some k =>
      intro z hz y hy
      rcases mem_dictSet.mp hz with rfl | ⟨hz, _⟩
      · simp only [SubGroup.append] at hy ⊢
        rcases mem_setUnion.mp hy with hy | hy
        · cases hd : dictGet g.subgroups k with
          | none => rw [hd] at hy; simp at hy
          | some s =>
            rw [hd] at hy
            obtain ⟨w, hw, h1⟩ := h _ (dictGet_mem hd) y hy
            exact ⟨w, by simp only [Option.getD_some]; exact List.mem_append_left _ hw, h1⟩
        · exact ⟨x, by simp, hy⟩
      · exact h z hz y hy

omit [FOps F] in
theorem SubTight.step {g : ExprGroup} (h : SubTight g) (env : PyEnv) (py : PyParser) (op : GroupOp) : SubTight (groupStep env py g op).1 := by
  cases op with
  | append e k => exact h.append env py e k
  | clear => intro e he; cases he
  | drop k =>
    simp only [groupStep, ExprGroup.dropGroup]
    split
    · exact h
    · exact fun e he => h e (mem_dictDel he)

omit [FOps F] in
theorem SubTight.copy (g : ExprGroup) : SubTight g.copy := by
  intro z hz y hy
  obtain ⟨e, he, rfl⟩ := List.mem_map.mp hz
  simp only [SubGroup.rebuild, rebuild_eq, foldl_setUnion_mem, List.not_mem_nil, false_or] at hy ⊢
  exact hy

theorem SubTight.run (env : PyEnv) (py : PyParser) : ∀ (ops : List GroupOp) {g : ExprGroup}, SubTight g → SubTight (groupRun env py g ops)
  | [], _, h => h
  | op :: ops, _, h => SubTight.run env py ops (h.step env py op)

theorem subTight_modelStep [DecidableEq U] (K : Kernel F) {env : PyEnv} {py : PyParser} {m : CModel U F} (h : SubTight m.exprs)
    (op : ModelOp U F) : SubTight (modelStep K env py m op).exprs := by
  cases op with
  | setUnits u => exact h
  | declare n s => simp only [modelStep, CModel.declare]; split <;> exact h
  | assign n d =>
    simp only [modelStep, CModel.assign]
    split
    · exact h
    · split <;> exact h
  | clearScope => exact h
  | expr op => exact h.step env py op
  | addChoice n s => exact h
  | addNested a n s => exact h
  | addChoices ns ss => exact h
  | setScale a v => exact h
  | setExpressions ts =>
    simp only [modelStep, CModel.setExpressions]
    obtain ⟨ops, _, he⟩ := appendAll_groupRun env py ts m.exprs
    rw [he]; exact SubTight.run env py ops h
  | setExpressionsText t =>
    simp only [modelStep, CModel.setExpressionsText, CModel.setExpressions]
    obtain ⟨ops, _, he⟩ := appendAll_groupRun env py (t.map fun c => [c]) m.exprs
    rw [he]; exact SubTight.run env py ops h
  | addPartial tb rr rc out => obtain ⟨c, hc⟩ := addPartialStep_keeps K env py m tb rr rc out; rw [hc]; exact h
  | setPrecision i => simp only [modelStep, CModel.setPrecision]; split <;> exact h
  | run g c =>
    simp only [modelStep]
    obtain ⟨t, ht | ht⟩ := runUtilities_keeps K m g c <;> rw [ht] <;> exact h
  | preval k d c =>
    simp only [modelStep]
    obtain ⟨t, sc, ex, ht, _, hx⟩ := preval_keeps K m k d c
    rw [ht]
    rcases hx with rfl | rfl
    · exact h
    · exact h.step env py (.drop k)
  | copy a b c d e =>
    simp only [modelStep]
    cases hc : m.copy a b c d e with
    | error er => exact h
    | ok m' =>
      obtain ⟨sc, _, rfl⟩ := copy_ok hc
      simp only
      split
      · exact SubTight.copy _
      · intro e he; cases he
  | copySubset ix mask =>
    simp only [modelStep]
    cases hc : m.copySubset ix mask with
    | error er => exact h
    | ok m' =>
      obtain ⟨_, _, sc, ca, _, _, rfl⟩ := copySubset_ok hc
      exact SubTight.copy _

theorem subTight_modelRun [DecidableEq U] (K : Kernel F) {env : PyEnv} {py : PyParser} {m : CModel U F} (h : SubTight m.exprs)
    (ops : List (ModelOp U F)) : SubTight (modelRun K env py m ops).exprs := by
  induction ops generalizing m with
  | nil => exact h
  | cons op ops ih => exact ih (subTight_modelStep K h op)

/-- every `append` of the history is accepted, and no group is dropped -/
def NoneRejected (env : PyEnv) (py : PyParser) : ExprGroup → List GroupOp → Prop
  | _, [] => True
  | g, op :: ops => (groupStep env py g op).2 = .ok () ∧ (∀ k, op ≠ .drop k) ∧ NoneRejected env py (groupStep env py g op).1 ops

omit [FOps F] in
theorem AllTight.run {env : PyEnv} {py : PyParser} (ops : List GroupOp) {g : ExprGroup} (h : AllTight g) (ha : NoneRejected env py g ops) :
    AllTight (groupRun env py g ops) := by
  induction ops generalizing g with
  | nil => exact h
  | cons op ops ih =>
    obtain ⟨h1, h2, h3⟩ := ha
    refine ih ?_ h3
    cases op with
    | drop k => exact absurd rfl (h2 k)
    | clear => exact ⟨List.nodup_nil, fun y hy => by cases hy⟩
    | append e k =>
      simp only [groupStep, ExprGroup.append] at h1 ⊢
      rcases hp : parse env py e g.simple g.chained with ⟨⟨si, ch⟩, r⟩
      rw [hp] at h1
      cases r with
      | error er => cases h1
      | ok x =>
        obtain ⟨_, _, _, h4⟩ := parse_spec env py e _ _ _ _ _ hp
        obtain ⟨_, _, h5, _⟩ := h4 x rfl
        have hsi : ∀ y ∈ si, (∃ x ∈ g.all, y ∈ x.symbols) ∨ y ∈ x.symbols := fun y hy => (h5 y hy).imp (h.2 y) id
        cases k with
        | none =>
          refine ⟨h.1, ?_⟩
          intro y hy
          have : (∃ x ∈ g.all, y ∈ x.symbols) ∨ y ∈ x.symbols := by
            rcases mem_setUnion.mp hy with hy | hy
            · exact hsi y hy
            · exact .inr hy
          rcases this with ⟨w, hw, hy⟩ | hy
          · refine ⟨w, ?_, hy⟩
            rcases mem_all.mp hw with hw | hw
            · exact mem_all.mpr (.inl (List.mem_append_left _ hw))
            · exact mem_all.mpr (.inr hw)
          · exact ⟨x, mem_all.mpr (.inl (by simp)), hy⟩
        | some k =>
          refine ⟨dictSet_keys_nodup h.1 _ _, ?_⟩
          intro y hy
          rcases hsi y hy with ⟨w, hw, hy⟩ | hy
          · refine ⟨w, ?_, hy⟩
            rcases mem_all.mp hw with hw | ⟨k', s, hs, hw⟩
            · exact mem_all.mpr (.inl hw)
            · by_cases hk : k' = k
              · subst hk
                have hd : dictGet g.subgroups k' = some s := (dictGet_eq_some h.1).mpr hs
                refine mem_all.mpr (.inr ⟨k', _, mem_dictSet.mpr (.inl rfl), List.mem_append_left _ ?_⟩)
                rw [hd]; exact hw
              · exact mem_all.mpr (.inr ⟨k', s, mem_dictSet.mpr (.inr ⟨hs, hk⟩), hw⟩)
          · exact ⟨x, mem_all.mpr (.inr ⟨k, _, mem_dictSet.mpr (.inl rfl), by simp [SubGroup.append]⟩), hy⟩


section
variable [DecidableEq U] (s : Setting F R) {env : PyEnv} {py : PyParser} (ix : List U) (mask : List Bool) (labels : List (List Name))

/-- **C41** (any history, one group) Whatever calls led to the model: if its data have the size of the model (C32) and cached utilities, if
any, belong to its decision units, a run of one group of expressions commutes with copy_subset. -/
theorem C41_group (p : Nat) (ops : List (ModelOp U F)) (m m' : CModel U F) (hm : m = modelRun s.K env py (newModel U F p) ops)
    (hcopy : m.copySubset ix mask = .ok m') (hl : choices m.tree = .ok labels)
    (hfit : Fits ix.length labels.length m.scope) (hcache : ∀ t, m.cached = some t → t.1 = ix) (k : Nat) (threads : Int)
    (clear scale check : Bool) (m1 : CModel U F) (fr nls : Frame F) (ls : Nat → F)
    (hrun : RunStochastic s m (some k) threads clear scale check (m1, .ok (fr, ls, nls)))
    (out : CModel U F × Except Err (Frame F × (Nat → F) × Frame F)) (hrun' : RunStochastic s m' (some k) threads clear scale check out) :
    ∃ ps m1' fr' ls' nls', Selects mask ps ∧ m'.units = some (ps.filterMap fun i => ix[i]?) ∧ (∀ p ∈ ps, p < ix.length) ∧
      out = (m1', .ok (fr', ls', nls')) ∧ fr'.cols = fr.cols ∧ nls'.cols = nls.cols ∧
      ∀ i (_ : i < ps.length), ls' i = ls ps[i] ∧ ∀ j, fr'.val i j = fr.val ps[i] j ∧ nls'.val i j = nls.val ps[i] j := by
  have hh : Held env py m.exprs := hm ▸ held_modelRun s.K (m := newModel U F p) (Held.empty env py) ops
  have ht : SubTight m.exprs := hm ▸ subTight_modelRun s.K (m := newModel U F p) (by intro e he; cases he) ops
  cases hc : m.container (some k) with
  | error e =>
    unfold RunStochastic at hrun
    unfold CModel.runUtilities at hrun
    rw [hc] at hrun
    cases hv : m.validate true true true true (some k) <;> rw [hv] at hrun <;> cases hrun
  | ok c =>
    refine C41_run_stochastic s m m' hh ix mask hcopy labels hl hfit hcache (some k) c hc ?_ threads clear scale check m1 fr nls ls hrun out hrun'
    apply namesRecorded_of_noLeftover
    simp only [CModel.container, ExprGroup.getGroup] at hc
    cases hd : dictGet m.exprs.subgroups k with
    | none => rw [hd] at hc; cases hc
    | some sg =>
      rw [hd] at hc
      cases hc
      exact ht _ (dictGet_mem hd)

/-- **C41** (all expressions) The same for a run of all expressions, if none of the expressions given to the model was rejected and no
group was dropped. -/
theorem C41_accepted (ops : List GroupOp) (m m' : CModel U F) (hm : m.exprs = groupRun env py ExprGroup.empty ops)
    (ha : NoneRejected env py ExprGroup.empty ops)
    (hcopy : m.copySubset ix mask = .ok m') (hl : choices m.tree = .ok labels)
    (hfit : Fits ix.length labels.length m.scope) (hcache : ∀ t, m.cached = some t → t.1 = ix) (threads : Int)
    (clear scale check : Bool) (m1 : CModel U F) (fr nls : Frame F) (ls : Nat → F)
    (hrun : RunStochastic s m none threads clear scale check (m1, .ok (fr, ls, nls)))
    (out : CModel U F × Except Err (Frame F × (Nat → F) × Frame F)) (hrun' : RunStochastic s m' none threads clear scale check out) :
    ∃ ps m1' fr' ls' nls', Selects mask ps ∧ m'.units = some (ps.filterMap fun i => ix[i]?) ∧ (∀ p ∈ ps, p < ix.length) ∧
      out = (m1', .ok (fr', ls', nls')) ∧ fr'.cols = fr.cols ∧ nls'.cols = nls.cols ∧
      ∀ i (_ : i < ps.length), ls' i = ls ps[i] ∧ ∀ j, fr'.val i j = fr.val ps[i] j ∧ nls'.val i j = nls.val ps[i] j := by
  have hh : Held env py m.exprs := hm ▸ (Held.empty env py).run ops
  have ht : AllTight m.exprs := hm ▸ AllTight.run ops ⟨List.nodup_nil, fun y hy => by cases hy⟩ ha
  have hs : SubTight m.exprs := by
    rw [hm]
    have : ∀ (ops : List GroupOp) g, SubTight g → SubTight (groupRun env py g ops) := by
      intro ops
      induction ops with
      | nil => exact fun g h => h
      | cons op ops ih => exact fun g h => ih _ (h.step env py op)
    exact this ops _ (by intro e he; cases he)
  refine C41_run_stochastic s m m' hh ix mask hcopy labels hl hfit hcache none _ rfl ?_ threads clear scale check m1 fr nls ls hrun out hrun'
  apply namesRecorded_of_noLeftover
  intro y hy
  simp only [ExprGroup.itersimple, List.mem_append, List.mem_flatMap] at hy
  rcases hy with hy | ⟨e, he, hy⟩
  · exact ht.2 y hy
  · obtain ⟨x, hx, h1⟩ := hs e he y hy
    exact ⟨x, mem_all.mpr (.inr ⟨e.1, e.2, he, hx⟩), h1⟩

/-- **C41** (partial: any history, all expressions) Whatever was rejected or dropped before, a run of all expressions commutes with copy_subset
if no expression of the model has symbols below a unary minus or in keyword arguments. (Missing: those expressions; see
`C41_leftover_refuted`.) -/
theorem C41_history_partial (p : Nat) (ops : List (ModelOp U F)) (m m' : CModel U F) (hm : m = modelRun s.K env py (newModel U F p) ops)
    (hp : ∀ x ∈ m.exprs.all, ∀ text filt tree, splitFilter x.raw = .ok (text, filt) → py text = .ok tree → Checked tree)
    (hcopy : m.copySubset ix mask = .ok m') (hl : choices m.tree = .ok labels)
    (hfit : Fits ix.length labels.length m.scope) (hcache : ∀ t, m.cached = some t → t.1 = ix) (threads : Int)
    (clear scale check : Bool) (m1 : CModel U F) (fr nls : Frame F) (ls : Nat → F)
    (hrun : RunStochastic s m none threads clear scale check (m1, .ok (fr, ls, nls)))
    (out : CModel U F × Except Err (Frame F × (Nat → F) × Frame F)) (hrun' : RunStochastic s m' none threads clear scale check out) :
    ∃ ps m1' fr' ls' nls', Selects mask ps ∧ m'.units = some (ps.filterMap fun i => ix[i]?) ∧ (∀ p ∈ ps, p < ix.length) ∧
      out = (m1', .ok (fr', ls', nls')) ∧ fr'.cols = fr.cols ∧ nls'.cols = nls.cols ∧
      ∀ i (_ : i < ps.length), ls' i = ls ps[i] ∧ ∀ j, fr'.val i j = fr.val ps[i] j ∧ nls'.val i j = nls.val ps[i] j := by
  have hh : Held env py m.exprs := hm ▸ held_modelRun s.K (m := newModel U F p) (Held.empty env py) ops
  exact C41_run_stochastic s m m' hh ix mask hcopy labels hl hfit hcache none _ rfl (namesRecorded_of_checked (g := none) hh rfl hp) threads clear scale check
    m1 fr nls ls hrun out hrun'

end

end Cheval
