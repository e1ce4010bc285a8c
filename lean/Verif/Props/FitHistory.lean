import Verif.Props.Assign
import Verif.Props.Subset
import Verif.Core.ModelHistory
import Verif.Props.SubsetRuns

/-!
# C32: data fit the model after any history of calls that leaves the choices alone
-/
namespace Cheval
open FOps Spec
variable {U F : Type} [FOps F]

/-! ## scales do not matter for the labels -/

private theorem modify_scale (nodes : List (Node F)) (h : Nat) (v : F) (i : Nat) :
    (nodes.modify h fun nd => { nd with scale := v })[i]? = nodes[i]?.map fun nd => if h = i then { nd with scale := v } else nd := by
  rw [List.getElem?_modify]
  cases nodes[i]? <;> simp

private theorem nestedId_modify (nodes : List (Node F)) (h : Nat) (v : F) (d : Nat) (i : Nat) :
    nestedId (nodes.modify h fun nd => { nd with scale := v }) d i = nestedId nodes d i := by
  induction i using Nat.strong_induction_on with
  | _ i ih =>
    rw [nestedId, nestedId.eq_def nodes, modify_scale]
    cases hn : nodes[i]? with
    | none => rfl
    | some nd =>
      have e : ∀ {A : Type} (f : Node F → A), (∀ nd : Node F, f { nd with scale := v } = f nd) → f (if h = i then { nd with scale := v } else nd) = f nd := by
        intro A f hf; split
        · exact hf nd
        · rfl
      have e1 := e (·.parent) fun _ => rfl
      have e2 := e (·.name) fun _ => rfl
      have e3 := e (·.level) fun _ => rfl
      simp only [Option.map_some]
      rw [e1, e2, e3]
      cases nd.parent with
      | none => rfl
      | some p =>
        simp only
        split
        · rename_i hp
          rw [ih p hp]
        · rfl

theorem choices_setScale (st : TreeSt F) (h : Nat) (v : F) : choices (setScale st h v).1 = choices st := by
  unfold setScale
  split
  · have e : ∀ {A : Type} (f : Node F → A) (d : A) (hf : ∀ nd : Node F, f { nd with scale := v } = f nd) (i : Nat),
        ((st.nodes.modify h fun nd => { nd with scale := v })[i]?.elim d f) = (st.nodes[i]?.elim d f) := by
      intro A f d hf i
      rw [modify_scale]
      cases st.nodes[i]? with
      | none => rfl
      | some nd =>
        simp only [Option.map_some, Option.elim_some]
        split
        · exact hf nd
        · rfl
    have e1 : ∀ i, nChildren { st with nodes := st.nodes.modify h fun nd => { nd with scale := v } } i = nChildren st i := by
      intro i
      have := e (·.children.length) 0 (fun _ => rfl) i
      unfold nChildren
      revert this
      simp only
      cases (st.nodes.modify h fun nd => { nd with scale := v })[i]? <;> cases st.nodes[i]? <;> simp
    have e2 : ∀ i, levelOf { st with nodes := st.nodes.modify h fun nd => { nd with scale := v } } i = levelOf st i := by
      intro i
      have := e (·.level) 0 (fun _ => rfl) i
      unfold levelOf
      revert this
      simp only
      cases (st.nodes.modify h fun nd => { nd with scale := v })[i]? <;> cases st.nodes[i]? <;> simp
    unfold choices validateTree depth
    simp only [e1, e2, nestedId_modify]
  · rfl

/-! ## data fit -/

/-- all assigned data have the size of the model; before the decision units are known, no data can have their size -/
def DataFit (labels : List (List Name)) (m : CModel U F) : Prop :=
  choices m.tree = .ok labels ∧ ∀ n, (∀ u, m.units = some u → u.length = n) → Fits n labels.length m.scope

/-- the call does not change the choices, and if it assigns a DataFrame, that has as many rows as its index -/
def LeavesChoices : ModelOp U F → Prop
  | .addChoice _ _ => False
  | .addNested _ _ _ => False
  | .addChoices _ _ => False
  | .assign _ d => d.Sized
  | _ => True

omit [FOps F] in
theorem fits_empty {n m : Nat} (s : Sym F) : FitsSym n m s.empty := by
  cases s with
  | number => trivial
  | vector o => cases o <;> trivial
  | table => trivial
  | matrix => trivial

/-- an assignment before or after the decision units are set -/
theorem assign_fits [DecidableEq U] (m : CModel U F) {cols : List (List Name)} (hc : choices m.tree = .ok cols) {n : Nat}
    (hu : ∀ u, m.units = some u → u.length = n) (hf : Fits n cols.length m.scope) (name : Str) (d : Data U F) (hd : d.Sized) :
    Fits n cols.length (m.assign name d).1.scope := by
  unfold CModel.assign
  cases hs : dictGet m.scope name with
  | none => exact hf
  | some s =>
    simp only
    cases ha : s.assign m d with
    | error e => exact hf
    | ok s' =>
      simp only
      have hlab : ∀ o l, m.labels o = .ok l → l.length = if o then cols.length else n := by
        intro o l hl
        cases o
        · cases hu' : m.units with
          | none => simp [CModel.labels, CModel.decisionUnits, hu', Except.map] at hl
          | some us => rw [labels_units hu'] at hl; cases hl; simp [hu us hu']
        · rw [labels_choices hc] at hl; cases hl; simp
      have hshape : ∀ (o : Bool) (l : List (Lab U)) (f : Nat → Val F), m.labels o = .ok l →
          FitsSym n cols.length (.vector o (some (shapeVector o l.length f))) := by
        intro o l f hl
        have := hlab o l hl
        cases o <;> simp [FitsSym, shapeVector] <;> simpa using this
      have hs' : FitsSym n cols.length s' := by
        cases s with
        | number v =>
          simp only [Sym.assign] at ha
          split at ha <;> cases ha; trivial
        | vector o v =>
          simp only [Sym.assign, bind, Except.bind] at ha
          split at ha
          · cases ha
          · rename_i l hl
            split at ha
            · rename_i index val
              split at ha
              · cases ha
              · cases val with
                | error e => cases ha
                | ok f => cases ha; exact hshape o l f hl
            · split at ha
              · cases ha
              · cases ha; exact hshape o l _ hl
            · cases ha
            · cases ha
        | table o ma al v =>
          simp only [Sym.assign, bind, Except.bind] at ha
          split at ha
          · split at ha
            · cases ha
            · rename_i l hl
              split at ha
              · cases ha
              · rename_i hix
                split at ha
                · cases ha
                · split at ha
                  · cases ha
                  · cases ha
                    simp only [FitsSym]
                    have hd' := hd
                    simp only [Data.Sized] at hd'
                    rw [hd', not_not.mp hix]
                    exact hlab o l hl
          · cases ha
        | matrix tr rc rr fill v =>
          rcases hu' : m.units with _ | units
          · simp [Sym.assign, bind, Except.bind, CModel.decisionUnits, hu'] at ha
          obtain rfl := hu units hu'
          simp only [Sym.assign, bind, Except.bind, CModel.decisionUnits, hu', hc] at ha
          split at ha
          · split at ha
            · rename_i index columns val cast _ _
              cases hm : assignMatrix units cols rc rr fill columns index (fun i j => val j i) cast with
              | error e => rw [hm] at ha; cases ha
              | ok a => rw [hm] at ha; cases ha; exact assignMatrix_size hm
            · rename_i index columns val cast _ _
              cases hm : assignMatrix units cols rc rr fill index columns val cast with
              | error e => rw [hm] at ha; cases ha
              | ok a => rw [hm] at ha; cases ha; exact assignMatrix_size hm
          · cases ha
          · cases ha
          · cases ha
      intro e he
      unfold dictSet at he
      split at he
      · obtain ⟨e', he', rfl⟩ := List.mem_map.mp he
        split
        · exact hs'
        · exact hf e' he'
      · rcases List.mem_append.mp he with he | he
        · exact hf e he
        · obtain rfl := List.mem_singleton.mp he; exact hs'

omit [FOps F] in
theorem take_fits {a a' : Arr F} {k : List Bool} (h : a.take k = .ok a') : a'.rows = (maskPositions k).length ∧ a'.cols = a.cols := by
  unfold Arr.take at h
  split at h
  · cases h
  · cases h; exact ⟨rfl, rfl⟩

omit [FOps F] in
theorem copySym_fits {n m : Nat} {s s' : Sym F} (hf : FitsSym n m s) {mask : Option (List Bool)}
    (h : s.copy true mask = .ok s') : FitsSym (mask.elim n fun k => (maskPositions k).length) m s' := by
  cases mask with
  | none =>
    have : s' = s := by
      cases s with
      | number v => cases h; rfl
      | vector o v => cases o <;> cases v <;> cases h <;> rfl
      | table o ma al v => cases o <;> cases v <;> cases h <;> rfl
      | matrix tr rc rr f v => cases v <;> cases h <;> rfl
    rw [this]; exact hf
  | some k =>
    simp only [Option.elim_some]
    cases s with
    | number v => cases h; trivial
    | vector o v =>
      cases o with
      | true => cases v <;> cases h <;> exact hf
      | false =>
        cases v with
        | none => cases h; trivial
        | some a =>
          simp only [Sym.copy, Bool.not_true, Bool.false_eq_true, if_false] at h
          cases ht : a.take k with
          | error e => rw [ht] at h; cases h
          | ok a' =>
            rw [ht] at h; cases h
            obtain ⟨h1, h2⟩ := take_fits ht
            exact ⟨h1, h2.trans hf.2⟩
    | table o ma al v =>
      cases o with
      | true => cases v <;> cases h <;> exact hf
      | false =>
        cases v with
        | none => cases h; trivial
        | some a => cases h; rfl
    | matrix tr rc rr f v =>
      cases v with
      | none => cases h; trivial
      | some a =>
        simp only [Sym.copy, Bool.not_true, Bool.false_eq_true, if_false] at h
        cases ht : a.take k with
        | error e => rw [ht] at h; cases h
        | ok a' =>
          rw [ht] at h; cases h
          obtain ⟨h1, h2⟩ := take_fits ht
          exact ⟨h1, h2.trans hf.2⟩

omit [FOps F] in
/-- copying the scope symbol by symbol -/
theorem copyScope_each {P Q : Sym F → Prop} {sc sc' : List (Str × Sym F)} {b : Bool} {mask : Option (List Bool)}
    (hpq : ∀ s s', P s → s.copy b mask = .ok s' → Q s') (hp : ∀ e ∈ sc, P e.2) (h : copyScope sc b mask = .ok sc') : ∀ e ∈ sc', Q e.2 := by
  unfold copyScope at h
  induction sc generalizing sc' with
  | nil => cases h; intro e he; cases he
  | cons e sc ih =>
    rw [List.mapM_cons] at h
    cases hs : e.2.copy b mask with
    | error er => simp [hs, Except.map, bind, Except.bind] at h
    | ok s =>
      simp only [hs, Except.map, bind, Except.bind] at h
      split at h
      · cases h
      · rename_i l hl
        cases h
        intro e' he'
        rcases List.mem_cons.mp he' with rfl | he'
        · exact hpq _ _ (hp e (by simp)) hs
        · exact ih (fun e he => hp e (by simp [he])) hl e' he'

omit [FOps F] in
theorem selected_length {ix : List U} {mask : List Bool} (h : mask.length = ix.length) :
    ((maskPositions mask).filterMap fun i => ix[i]?).length = (maskPositions mask).length := by
  have : ∀ l : List Nat, (∀ i ∈ l, i < ix.length) → (l.filterMap fun i => ix[i]?).length = l.length := by
    intro l
    induction l with
    | nil => intro _; rfl
    | cons a l ih =>
      intro hl
      rw [List.filterMap_cons_some (List.getElem?_eq_getElem (hl a (by simp))), List.length_cons, List.length_cons, ih fun i hi => hl i (by simp [hi])]
  refine this _ fun i hi => ?_
  unfold maskPositions at hi
  rw [List.mem_filter, List.mem_range] at hi
  omega

/-- **C32** (histories) Whatever calls are made that leave the choices alone - assignments before and after the decision units are set, new decision
units, runs, preval, copies, subsets, rejected calls - all data in the scope have the size of the model. -/
theorem C32_history [DecidableEq U] (K : Kernel F) (env : PyEnv) (py : PyParser) (m : CModel U F) {labels : List (List Name)} (hm : DataFit labels m)
    (ops : List (ModelOp U F)) (hops : ∀ op ∈ ops, LeavesChoices op) : DataFit labels (modelRun K env py m ops) := by
  unfold modelRun
  induction ops generalizing m with
  | nil => exact hm
  | cons op ops ih =>
    rw [List.foldl_cons]
    refine ih _ ?_ fun o ho => hops o (by simp [ho])
    have hop := hops op (by simp)
    obtain ⟨hc, hf⟩ := hm
    cases op with
    | setUnits u =>
      refine ⟨hc, fun n hn e he => ?_⟩
      obtain ⟨e', he', rfl⟩ := List.mem_map.mp he
      rcases e' with ⟨x, s⟩
      cases s with
      | number v => trivial
      | vector o v => exact fits_empty (.vector o v)
      | table o ma al v => exact fits_empty (.table o ma al v)
      | matrix tr rc rr f v => exact fits_empty (.matrix tr rc rr f v)
    | declare x s =>
      simp only [modelStep]
      unfold CModel.declare
      split
      · exact ⟨hc, hf⟩
      · refine ⟨hc, fun n hn e he => ?_⟩
        simp only [dictSet] at he
        split at he
        · obtain ⟨e', he', rfl⟩ := List.mem_map.mp he
          split
          · exact fits_empty s
          · exact hf n hn e' he'
        · rcases List.mem_append.mp he with he | he
          · exact hf n hn e he
          · obtain rfl := List.mem_singleton.mp he; exact fits_empty s
    | assign x d =>
      have hk : (m.assign x d).1.tree = m.tree ∧ (m.assign x d).1.units = m.units := by
        unfold CModel.assign
        split
        · exact ⟨rfl, rfl⟩
        · split <;> exact ⟨rfl, rfl⟩
      simp only [modelStep]
      exact ⟨hk.1 ▸ hc, fun n hn => assign_fits m hc (hk.2 ▸ hn) (hf n (hk.2 ▸ hn)) x d hop⟩
    | clearScope => exact ⟨hc, fun n hn e he => by cases he⟩
    | expr op => exact ⟨hc, hf⟩
    | addChoice x sc => exact hop.elim
    | addNested h x sc => exact hop.elim
    | addChoices names scales => exact hop.elim
    | setScale h v =>
      refine ⟨?_, hf⟩
      simp only [modelStep, CModel.setScale]
      rw [choices_setScale]
      exact hc
    | setExpressions texts => exact ⟨hc, hf⟩
    | setExpressionsText text => exact ⟨hc, hf⟩
    | addPartial tb rr rc out =>
      simp only [modelStep]
      split
      · rename_i h
        obtain ⟨c, h'⟩ := addPartial_keeps h
        rw [h']
        exact ⟨hc, hf⟩
      · exact ⟨hc, hf⟩
    | setPrecision i =>
      simp only [modelStep, CModel.setPrecision]
      split <;> exact ⟨hc, hf⟩
    | run g c =>
      simp only [modelStep]
      obtain ⟨t, h | h⟩ := runUtilities_keeps K m g c
      · rw [h]; exact ⟨hc, hf⟩
      · rw [h]; exact ⟨hc, fun n hn e he => by cases he⟩
    | preval k d c =>
      simp only [modelStep]
      obtain ⟨t, sc, ex, h, hsub, -⟩ := preval_keeps K m k d c
      rw [h]
      exact ⟨hc, fun n hn e he => hf n hn e (hsub e he)⟩
    | copy a b c d e =>
      simp only [modelStep]
      cases hcp : m.copy a b c d e with
      | error er => exact ⟨hc, hf⟩
      | ok m' =>
        unfold CModel.copy at hcp
        split at hcp
        · cases hcp
        · rename_i sc hsc
          cases hcp
          refine ⟨hc, fun n hn => ?_⟩
          simp only at hn ⊢
          split at hsc
          · cases c with
            | true =>
              simp only [Bool.or_true, if_true] at hn
              exact copyScope_each (fun _ _ hs h => copySym_fits (mask := none) hs h) (hf n hn) hsc
            | false =>
              refine copyScope_each (P := fun _ => True) (fun s s' _ h => ?_) (fun _ _ => trivial) hsc
              simp only [Sym.copy, Bool.not_false, if_true] at h
              cases h
              exact fits_empty s
          · cases hsc; intro e he; cases he
    | copySubset ix mask =>
      simp only [modelStep]
      cases hcp : m.copySubset ix mask with
      | error er => exact ⟨hc, hf⟩
      | ok m' =>
        obtain ⟨hu, hlen, sc, cached, hsc, -, rfl⟩ := copySubset_ok hcp
        refine ⟨hc, fun n hn => ?_⟩
        have hn' := hn _ rfl
        rw [selected_length hlen] at hn'
        subst hn'
        exact copyScope_each (fun _ _ hs h => copySym_fits (mask := some mask) hs h) (hf ix.length fun u h => by rw [hu] at h; cases h; rfl) hsc

/-! ## the kept utilities belong to the decision units -/

/-- the kept utilities, if any, are those of the decision units of the model -/
def CacheOwn (m : CModel U F) : Prop := ∀ t, m.cached = some t → m.units = some t.1

/-- the call does not replace the decision units, and no copy takes the utilities without the decision units -/
def KeepsUnits : ModelOp U F → Prop
  | .setUnits _ => False
  | .copy units _ assigned _ utilities => utilities = true → units = true ∨ assigned = true
  | _ => True

omit [FOps F] in
theorem CacheOwn.none {m : CModel U F} (h : m.cached = none) : CacheOwn m := fun t ht => by rw [h] at ht; cases ht

theorem partialUtilities_own {m : CModel U F} (h : CacheOwn m) :
    CacheOwn m.partialUtilities.1 ∧ ∀ t, m.partialUtilities.2 = .ok t → m.units = some t.1 := by
  unfold CModel.partialUtilities
  split
  · exact ⟨h, fun t ht => by cases ht⟩
  · exact ⟨h, fun t ht => by cases ht⟩
  · exact ⟨h, fun t ht => by cases ht⟩
  · rename_i u ch _ hu _
    have hu' : m.units = some u := by
      unfold CModel.decisionUnits at hu
      cases hm : m.units with
      | none => rw [hm] at hu; cases hu
      | some us => rw [hm] at hu; cases hu; rfl
    split
    · rename_i t ht
      exact ⟨h, fun t' h' => by cases h'; exact h t ht⟩
    · refine ⟨fun t ht => ?_, fun t ht => ?_⟩
      · cases ht; exact hu'
      · cases ht; exact hu'

theorem evaluate_own (K : Kernel F) {m : CModel U F} (h : CacheOwn m) (c : Container) : CacheOwn (m.evaluate K c).1 := by
  unfold CModel.evaluate
  split
  · exact h
  · exact h
  · obtain ⟨h1, h2⟩ := partialUtilities_own h
    obtain ⟨t, ht⟩ := partialUtilities_keeps m
    rcases hp : m.partialUtilities with ⟨m', r⟩
    rw [hp] at h1 h2 ht
    simp only at ht
    subst ht
    cases r with
    | error e => exact h1
    | ok p =>
      obtain ⟨ix, u⟩ := p
      have hu := h2 _ rfl
      have ho : ∀ u', CacheOwn { m with cached := some (ix, u') } := fun u' t ht => by cases ht; exact hu
      simp only
      cases symLocals m.scope c.simple with
      | error e => exact h1
      | ok syms =>
        simp only
        split
        · exact ho _
        · split
          · exact ho _
          · split
            · exact ho _
            · exact ho _

theorem addPartial_own [DecidableEq U] {m : CModel U F} (ho : CacheOwn m) {tb : Table U (List Name) F} {rr rc : Bool}
    {out : CModel U F × Except Err Unit} (h : m.AddPartial tb rr rc out) : CacheOwn out.1 := by
  unfold CModel.AddPartial at h
  split at h
  · subst h; exact ho
  · subst h; exact ho
  · split at h
    · subst h; exact ho
    · split at h
      · subst h; exact ho
      · split at h
        · subst h; exact ho
        · obtain ⟨h1, h2⟩ := partialUtilities_own ho
          obtain ⟨c, hc⟩ := partialUtilities_keeps m
          rcases hp : m.partialUtilities with ⟨m1, r⟩
          rw [hp] at h hc h1 h2
          simp only at hc
          subst hc
          cases r with
          | error e => simp only at h; subst h; exact h1
          | ok t =>
            obtain ⟨ix, u⟩ := t
            simp only at h
            obtain ⟨r, -, h⟩ := h
            have hu := h2 _ rfl
            cases r with
            | error e => simp only at h; subst h; exact h1
            | ok mem => simp only at h; subst h; exact fun t ht => by cases ht; exact hu

/-- Whatever calls are made that do not replace the decision units, the kept utilities stay those of the decision units. -/
theorem cacheOwn_modelRun [DecidableEq U] (K : Kernel F) (env : PyEnv) (py : PyParser) (m : CModel U F) (hm : CacheOwn m)
    (ops : List (ModelOp U F)) (hops : ∀ op ∈ ops, KeepsUnits op) : CacheOwn (modelRun K env py m ops) := by
  unfold modelRun
  induction ops generalizing m with
  | nil => exact hm
  | cons op ops ih =>
    rw [List.foldl_cons]
    refine ih _ ?_ fun o ho => hops o (by simp [ho])
    have hop := hops op (by simp)
    cases op with
    | setUnits u => exact hop.elim
    | declare x s =>
      simp only [modelStep]
      unfold CModel.declare
      split <;> exact hm
    | assign x d =>
      simp only [modelStep]
      unfold CModel.assign
      split
      · exact hm
      · split <;> exact hm
    | clearScope => exact hm
    | expr op => exact hm
    | addChoice x sc => exact CacheOwn.none rfl
    | addNested h x sc => exact hm
    | addChoices names scales => exact CacheOwn.none rfl
    | setScale h v => exact hm
    | setExpressions texts => exact hm
    | setExpressionsText text => exact hm
    | addPartial tb rr rc out =>
      simp only [modelStep]
      split
      · rename_i h
        exact addPartial_own hm h
      · exact hm
    | setPrecision i =>
      simp only [modelStep, CModel.setPrecision]
      split <;> exact hm
    | run g c =>
      simp only [modelStep]
      unfold CModel.runUtilities
      split
      · exact hm
      · exact hm
      · rename_i ct _ _
        have h1 := evaluate_own K hm ct
        rcases he : m.evaluate K ct with ⟨m', r⟩
        rw [he] at h1
        cases r with
        | error e => exact h1
        | ok u => cases c <;> exact h1
    | preval k d c =>
      simp only [modelStep]
      unfold CModel.preval
      split
      · exact hm
      · exact hm
      · rename_i sg _ _
        have h1 := evaluate_own K hm ⟨sg.simple, sg.chained, sg.exprs⟩
        rcases he : m.evaluate K ⟨sg.simple, sg.chained, sg.exprs⟩ with ⟨m', r⟩
        rw [he] at h1
        cases r with
        | error e => exact h1
        | ok u =>
          have h2 : ∀ sc ex, CacheOwn { m' with cached := (m'.units.map fun us => (us, u)), scope := sc, exprs := ex } := by
            intro sc ex t ht
            simp only at ht ⊢
            cases hu : m'.units with
            | none => rw [hu] at ht; cases ht
            | some us => rw [hu] at ht; cases ht; rfl
          simp only
          split
          · exact h2 _ _
          · split
            · exact h2 _ _
            · exact h2 _ _
    | copy a b c d e =>
      simp only [modelStep]
      cases hcp : m.copy a b c d e with
      | error er => exact hm
      | ok m' =>
        obtain ⟨sc, -, rfl⟩ := copy_ok hcp
        intro t ht
        simp only at ht ⊢
        cases e with
        | false => cases ht
        | true =>
          rw [if_pos (by rcases hop rfl with h | h <;> simp [h])]
          exact hm t ht
    | copySubset ix mask =>
      simp only [modelStep]
      cases hcp : m.copySubset ix mask with
      | error er => exact hm
      | ok m' =>
        obtain ⟨hu, hlen, sc, cached, -, hcase, rfl⟩ := copySubset_ok hcp
        rcases hcase with ⟨-, rfl⟩ | ⟨t, t', ht, htm, rfl⟩
        · exact CacheOwn.none rfl
        · have := hm t ht
          rw [hu] at this
          cases this
          unfold takeMasked at htm
          rw [if_pos rfl] at htm
          cases htm
          intro t'' h''
          cases h''
          rfl

/-! ## subsets of models built by any calls -/

/-- **C41** (any calls, one group) A model with choices and decision units and without data and utilities is prepared by any calls that leave
the choices and the decision units alone: assignments, changes of the expressions, runs, preval, partial utilities, copies, subsets, rejected
calls. A run of one group of expressions then commutes with copy_subset. -/
theorem C41_calls [DecidableEq U] (s : Setting F R) {env : PyEnv} {py : PyParser} (ix : List U) (mask : List Bool) (p : Nat)
    (build ops : List (ModelOp U F)) {m0 m m' : CModel U F} (hm0 : m0 = modelRun s.K env py (newModel U F p) build)
    {labels : List (List Name)} (hl : choices m0.tree = .ok labels) (hscope : m0.scope = []) (hcached : m0.cached = none)
    (hops : ∀ op ∈ ops, LeavesChoices op ∧ KeepsUnits op) (hm : m = modelRun s.K env py m0 ops)
    (hcopy : m.copySubset ix mask = .ok m') (k : Nat) (threads : Int)
    (clear scale check : Bool) (m1 : CModel U F) (fr nls : Frame F) (ls : Nat → F)
    (hrun : RunStochastic s m (some k) threads clear scale check (m1, .ok (fr, ls, nls)))
    (out : CModel U F × Except Err (Frame F × (Nat → F) × Frame F)) (hrun' : RunStochastic s m' (some k) threads clear scale check out) :
    ∃ ps m1' fr' ls' nls', Selects mask ps ∧ m'.units = some (ps.filterMap fun i => ix[i]?) ∧ (∀ p ∈ ps, p < ix.length) ∧
      out = (m1', .ok (fr', ls', nls')) ∧ fr'.cols = fr.cols ∧ nls'.cols = nls.cols ∧
      ∀ i (_ : i < ps.length), ls' i = ls ps[i] ∧ ∀ j, fr'.val i j = fr.val ps[i] j ∧ nls'.val i j = nls.val ps[i] j := by
  have hfit : DataFit labels m := hm ▸ C32_history s.K env py m0 ⟨hl, fun n _ e he => by rw [hscope] at he; cases he⟩ ops fun o ho => (hops o ho).1
  have hown : CacheOwn m := hm ▸ cacheOwn_modelRun s.K env py m0 (CacheOwn.none hcached) ops fun o ho => (hops o ho).2
  obtain ⟨hu, -⟩ := copySubset_ok hcopy
  refine C41_group s ix mask labels p (build ++ ops) m m' (by rw [hm, hm0]; unfold modelRun; rw [List.foldl_append]) hcopy hfit.1
    (hfit.2 ix.length fun u h => by rw [hu] at h; cases h; rfl)
    (fun t ht => by have := hown t ht; rw [hu] at this; cases this; rfl) k threads clear scale check m1 fr nls ls hrun out hrun'

end Cheval
