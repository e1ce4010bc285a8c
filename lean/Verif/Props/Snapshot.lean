import Verif.Core.AliasLemmas
import Verif.Props.Reachable

/-!
# C66: the data of a symbol are those given to `assign`
-/
namespace Cheval
open FOps Spec

variable {U F : Type} [DecidableEq U] [FOps F]

/-- a new model, and a caller without objects -/
def AModel.fresh (m : CModel U F) : AModel U F := ⟨m, [], Store.empty⟩

theorem store_step (K : Kernel F) (env : PyEnv) (py : PyParser) (a : AModel U F) (op : AOp U F) :
    (a.step K env py op).store = a.store.step op := by
  cases op with
  | assign n o =>
    simp only [AModel.step, AModel.assign]
    split
    · rfl
    · split <;> rfl
  | declare n s => simp only [AModel.step]; split <;> rfl
  | run g c => simp only [AModel.step]; split <;> rfl
  | _ => rfl

theorem store_run (K : Kernel F) (env : PyEnv) (py : PyParser) (ops : List (AOp U F)) (a : AModel U F) :
    (a.run K env py ops).store = ops.foldl Store.step a.store := by
  induction ops generalizing a with
  | nil => rfl
  | cons op ops ih =>
    rw [AModel.run, List.foldl_cons, List.foldl_cons, ← store_step K env py]
    exact ih _

theorem store_inv (K : Kernel F) (env : PyEnv) (py : PyParser) (ops : List (AOp U F)) (a : AModel U F) (h : a.store.Inv) :
    (a.run K env py ops).store.Inv := by
  induction ops generalizing a with
  | nil => exact h
  | cons op ops ih =>
    rw [AModel.run, List.foldl_cons]
    exact ih _ (by rw [store_step]; exact h.step op)

/-- calls that do not rebind a name leave what it holds -/
theorem scope_step (K : Kernel F) (env : PyEnv) (py : PyParser) (a : AModel U F) (op : AOp U F) (name : Str)
    (h : ¬ Rebinds name op) : dictGet (a.step K env py op).scope name = dictGet a.scope name := by
  cases op with
  | assign n o =>
    simp only [AModel.step, AModel.assign]
    split
    · rfl
    · split
      · rfl
      · simp only [dictGet_dictSet]
        rw [if_neg]; exact fun hq => h (by simpa [Rebinds] using hq.symm)
  | declare n s =>
    simp only [AModel.step]
    split
    · rfl
    · simp only [dictGet_dictSet]
      rw [if_neg]; exact fun hq => h (by simpa [Rebinds] using hq.symm)
  | setUnits u => exact absurd trivial h
  | clearScope => exact absurd trivial h
  | run g c =>
    have hc : c = false := by simpa [Rebinds] using h
    subst hc
    simp only [AModel.step]
    split <;> simp
  | _ => rfl

theorem scope_run (K : Kernel F) (env : PyEnv) (py : PyParser) (ops : List (AOp U F)) (a : AModel U F) (name : Str)
    (h : ∀ op ∈ ops, ¬ Rebinds name op) : dictGet (a.run K env py ops).scope name = dictGet a.scope name := by
  induction ops generalizing a with
  | nil => rfl
  | cons op ops ih =>
    rw [AModel.run, List.foldl_cons]
    rw [← scope_step K env py a op name (h op List.mem_cons_self)]
    exact ih _ fun p hp => h p (List.mem_cons_of_mem _ hp)

omit [DecidableEq U] [FOps F] in
theorem Store.content_missing {st : Store U F} {o : Nat} (h : st.objs[o]? = none) : st.content o = ⟨.other, false⟩ := by
  unfold Store.content Store.bufOf Store.buf
  simp [List.getD_eq_getElem?_getD, h]

omit [FOps F] in
theorem assign_other (m : CModel U F) (s : Sym F) : ∃ e, s.assign m .other = .error e := by
  cases s with
  | number v => exact ⟨_, rfl⟩
  | vector o v =>
    simp only [Sym.assign]
    cases m.labels o <;> exact ⟨_, rfl⟩
  | table => exact ⟨_, rfl⟩
  | matrix tr rc rr fill v =>
    simp only [Sym.assign]
    cases m.decisionUnits with
    | error e => exact ⟨e, rfl⟩
    | ok u => cases choices m.tree <;> exact ⟨_, rfl⟩

omit [FOps F] in
theorem aview_get (a : AModel U F) (name : Str) : dictGet a.view.scope name = (dictGet a.scope name).map a.store.resolve := by
  simp only [AModel.view]
  exact dictGet_mapv _ _ _

/-- an assignment that was accepted -/
theorem assign_parts {a : AModel U F} (name : Str) (o : Nat) (hok : (a.assign name o).2 = .ok ()) {s : Sym F}
    (hs : dictGet a.view.scope name = some s) :
    ∃ s' b, s.assign a.view (a.store.content o).data = .ok s' ∧ a.store.objs[o]? = some b ∧
      (a.assign name o).1 = { a with scope := dictSet a.scope name (holds a.view o b (a.store.buf b) s') } ∧
      a.store.content o = a.store.buf b := by
  rw [aview_get] at hs
  cases hq : dictGet a.scope name with
  | none => rw [hq] at hs; cases hs
  | some x =>
    rw [hq] at hs
    injection hs with hs
    subst hs
    unfold AModel.assign at hok ⊢
    simp only [hq] at hok ⊢
    cases hr : (a.store.resolve x).assign a.view (a.store.content o).data with
    | error e => rw [hr] at hok; cases hok
    | ok s' =>
      cases hb : a.store.objs[o]? with
      | none =>
        rw [Store.content_missing hb] at hr
        obtain ⟨e, he⟩ := assign_other a.view (a.store.resolve x)
        rw [he] at hr; cases hr
      | some b =>
        have hc : a.store.content o = a.store.buf b := by rw [Store.content, Store.bufOf_eq hb]
        exact ⟨s', b, rfl, rfl, by simp only [Store.bufOf_eq hb, hc], hc⟩

/-- **C66** What a symbol holds later on, exactly. After an accepted assignment and any later calls that do not rebind the name, whatever the
caller did to the object meanwhile: a symbol over shared memory holds what assigning the present content of that memory would have
given at the time; a table looks at the object as it is now; any other symbol holds what it was given. -/
theorem C66_seen (K : Kernel F) (env : PyEnv) (py : PyParser) (m : CModel U F) (hist later : List (AOp U F)) (name : Str) (o : Nat)
    (a : AModel U F) (ha : a = (AModel.fresh m).run K env py hist) (s : Sym F) (hs : dictGet a.view.scope name = some s)
    (hok : (a.assign name o).2 = .ok ()) (hl : ∀ op ∈ later, ¬ Rebinds name op) :
    ∃ s' seen, s.assign a.view (a.store.content o).data = .ok s' ∧
      dictGet ((a.assign name o).1.run K env py later).view.scope name = some seen ∧
      (SharesMemory a.view s (a.store.content o) → s.assign a.view (oldMemory o (a.store.content o).data later) = .ok seen) ∧
      (∀ byC ma al v, s = .table byC ma al v → seen = .table byC ma al (tableNow (objectNow o (a.store.content o).data later))) ∧
      (¬ SharesMemory a.view s (a.store.content o) → (∀ byC ma al v, s ≠ .table byC ma al v) → seen = s') := by
  have hinv : a.store.Inv := by rw [ha]; exact store_inv K env py hist _ Store.Inv.empty
  obtain ⟨s', b, h1, h2, h3, h4⟩ := assign_parts name o hok hs
  have hst : (a.assign name o).1.store = a.store := by rw [h3]
  refine ⟨s', ((a.assign name o).1.run K env py later).store.resolve (holds a.view o b (a.store.buf b) s'), h1, ?_, ?_, ?_, ?_⟩
  · rw [aview_get, scope_run K env py later _ name hl, h3]
    simp only [dictGet_dictSet, if_true, Option.map_some]
  · intro hsh
    have hold := Store.old_memory later hinv h2
    rw [h4] at h1 hsh ⊢
    rw [← hold, store_run, hst]
    refine resolve_shared h1 hsh ?_
    rw [hold]; exact like_oldMemory o later _
  · rintro byC ma al v rfl
    rw [h4] at h1
    rw [store_run, hst, (resolve_table (st := later.foldl Store.step a.store) (o := o) (b := b) h1).1, Store.object_now later hinv h2]
  · intro hsh ht
    rw [h4] at h1 hsh
    exact resolve_own h1 hsh ht

/-- **C66** (part) The data are those of the time of the assignment if the caller leaves the object alone, and for numbers, text and
nullable columns and matrices with other labels whatever the caller does. Missing: vectors and matrices over the caller's memory and tables
(`C66_vector_refuted`, `C66_series_refuted`, `C66_matrix_refuted`, `C66_table_refuted`). -/
theorem C66_snapshot_partial (K : Kernel F) (env : PyEnv) (py : PyParser) (m : CModel U F) (hist later : List (AOp U F)) (name : Str)
    (o : Nat) (a : AModel U F) (ha : a = (AModel.fresh m).run K env py hist) (s : Sym F) (hs : dictGet a.view.scope name = some s)
    (hok : (a.assign name o).2 = .ok ()) (hl : ∀ op ∈ later, ¬ Rebinds name op)
    (hown : (∀ op ∈ later, LeavesAlone o op) ∨
      (¬ SharesMemory a.view s (a.store.content o) ∧ ∀ byC ma al v, s ≠ .table byC ma al v)) :
    ∃ s', s.assign a.view (a.store.content o).data = .ok s' ∧
      dictGet ((a.assign name o).1.run K env py later).view.scope name = some s' := by
  obtain ⟨s', seen, h1, h2, h3, h4, h5⟩ := C66_seen K env py m hist later name o a ha s hs hok hl
  refine ⟨s', h1, ?_⟩
  rw [h2]
  congr 1
  by_cases ht : ∃ byC ma al v, s = .table byC ma al v
  · obtain ⟨byC, ma, al, v, rfl⟩ := ht
    rcases hown with hal | ⟨_, hn⟩
    · rw [h4 byC ma al v rfl, objectNow_alone o later _ hal]
      exact (resolve_table (st := a.store) (o := o) (b := 0) h1).2.symm
    · exact absurd rfl (hn byC ma al v)
  · push Not at ht
    rcases hown with hal | ⟨hn, _⟩
    · by_cases hsh : SharesMemory a.view s (a.store.content o)
      · have := h3 hsh
        rw [oldMemory_alone o later _ hal, h1] at this
        injection this with this; exact this.symm
      · exact h5 hsh ht
    · exact h5 hn ht

/-! ## a caller who leaves given objects alone -/

/-- what a symbol holds refers to objects in the list -/
def RefersTo (st : Store U F) (given : List Nat) : ASym F → Prop
  | .own _ => True
  | .vector _ _ b => ∃ o ∈ given, st.objs[o]? = some b
  | .matrix _ _ _ _ _ _ b => ∃ o ∈ given, st.objs[o]? = some b
  | .table _ _ _ o => o ∈ given ∧ ∃ b, st.objs[o]? = some b

omit [DecidableEq U] [FOps F] in
theorem RefersTo.mono {st : Store U F} {g g' : List Nat} (h : ∀ x ∈ g, x ∈ g') {s : ASym F} (hs : RefersTo st g s) : RefersTo st g' s := by
  cases s with
  | own => trivial
  | vector => obtain ⟨o, ho, hb⟩ := hs; exact ⟨o, h o ho, hb⟩
  | matrix => obtain ⟨o, ho, hb⟩ := hs; exact ⟨o, h o ho, hb⟩
  | table => exact ⟨h _ hs.1, hs.2⟩

omit [DecidableEq U] [FOps F] in
/-- a store that keeps the objects in the list keeps what refers to them -/
theorem RefersTo.keeps {st st' : Store U F} {g : List Nat}
    (h : ∀ o ∈ g, ∀ b, st.objs[o]? = some b → st'.objs[o]? = some b ∧ st'.buf b = st.buf b) {s : ASym F} (hs : RefersTo st g s) :
    RefersTo st' g s ∧ st'.resolve s = st.resolve s := by
  cases s with
  | own => exact ⟨trivial, rfl⟩
  | vector => obtain ⟨o, ho, hb⟩ := hs; obtain ⟨h1, h2⟩ := h o ho _ hb; exact ⟨⟨o, ho, h1⟩, by simp only [Store.resolve, h2]⟩
  | matrix => obtain ⟨o, ho, hb⟩ := hs; obtain ⟨h1, h2⟩ := h o ho _ hb; exact ⟨⟨o, ho, h1⟩, by simp only [Store.resolve, h2]⟩
  | table x y z o =>
    obtain ⟨ho, b, hb⟩ := hs
    obtain ⟨h1, h2⟩ := h o ho _ hb
    refine ⟨⟨ho, b, h1⟩, ?_⟩
    simp only [Store.resolve, Store.content, Store.bufOf_eq h1, Store.bufOf_eq hb, h2]

omit [FOps F] in
theorem holds_refers (m : CModel U F) {st : Store U F} {o b : Nat} (hb : st.objs[o]? = some b) (buf : Buf U F) (s : Sym F) :
    RefersTo st [o] (holds m o b buf s) := by
  unfold holds
  split
  · split
    · exact ⟨o, by simp, hb⟩
    · split
      · exact ⟨o, by simp, hb⟩
      · trivial
  · exact ⟨by simp, b, hb⟩
  · split
    · refine iteInduction (motive := RefersTo st [o]) (fun _ => ?_) fun _ => ?_
      · exact ⟨o, by simp, hb⟩
      · trivial
    · trivial
  · trivial

/-- right after the assignment the symbol is the one assigned -/
theorem resolve_now {a : AModel U F} {s s' : Sym F} {o b : Nat} (hb : a.store.objs[o]? = some b)
    (h : s.assign a.view (a.store.buf b).data = .ok s') : a.store.resolve (holds a.view o b (a.store.buf b) s') = s' := by
  have hc : a.store.content o = a.store.buf b := by rw [Store.content, Store.bufOf_eq hb]
  by_cases ht : ∃ byC ma al v, s = .table byC ma al v
  · obtain ⟨byC, ma, al, v, rfl⟩ := ht
    obtain ⟨h1, h2⟩ := resolve_table (st := a.store) (o := o) (b := b) h
    rw [h1, hc, h2]
  · push Not at ht
    by_cases hsh : SharesMemory a.view s (a.store.buf b)
    · have := resolve_shared (o := o) (st := a.store) h hsh (.refl _)
      rw [h] at this
      injection this with this; exact this.symm
    · exact resolve_own h hsh ht

/-- assigning an object is assigning its data -/
theorem aview_assign (a : AModel U F) (name : Str) (o : Nat) :
    (a.assign name o).1.view = (a.view.assign name (a.store.content o).data).1 ∧
      (a.assign name o).2 = (a.view.assign name (a.store.content o).data).2 := by
  unfold CModel.assign
  rw [aview_get]
  cases hq : dictGet a.scope name with
  | none => simp [AModel.assign, hq]
  | some x =>
    simp only [Option.map_some]
    cases hr : (a.store.resolve x).assign a.view (a.store.content o).data with
    | error e => simp [AModel.assign, hq, hr]
    | ok s' =>
      have hok : (a.assign name o).2 = .ok () := by simp [AModel.assign, hq, hr]
      obtain ⟨s'', b, h1, h2, h3, h4⟩ := assign_parts name o hok (s := a.store.resolve x) (by rw [aview_get, hq]; rfl)
      rw [hr] at h1; injection h1 with h1; subst h1
      rw [h3]
      refine ⟨?_, hok.symm ▸ rfl⟩
      rw [h4] at hr
      have h5 := resolve_now h2 hr
      generalize holds a.view o b (a.store.buf b) s' = x' at h5 ⊢
      subst h5
      simp only [AModel.view]
      congr 1
      exact dictSet_mapv a.store.resolve a.scope name x'

/-- the objects are what the specification says they are -/
def Agrees (st : Store U F) (n : Nat) (now : Nat → Data U F) : Prop :=
  st.objs.length = n ∧ ∀ o, (st.content o).data = now o

omit [DecidableEq U] [FOps F] in
theorem content_of {st : Store U F} {o b : Nat} (h : st.objs[o]? = some b) : st.content o = st.buf b := by
  rw [Store.content, Store.bufOf_eq h]

omit [DecidableEq U] [FOps F] in
theorem Agrees.create {st : Store U F} (hi : st.Inv) {n : Nat} {now : Nat → Data U F} (h : Agrees st n now) (d : Data U F) (x : Bool) :
    Agrees (st.create d x) (n + 1) fun o => if o = n then d else now o := by
  obtain ⟨rfl, h⟩ := h
  refine ⟨by simp [Store.create], fun o => ?_⟩
  beta_reduce
  by_cases ho : o = st.objs.length
  · subst ho
    have : (st.create d x).objs[st.objs.length]? = some st.bufs.length := by simp [Store.create]
    rw [content_of this]
    simp [Store.create, Store.buf]
  · rw [if_neg ho, ← h o]
    cases hb : st.objs[o]? with
    | some b =>
      obtain ⟨h1, h2⟩ := Store.create_keeps hi hb d x
      rw [content_of h1, content_of hb, h2]
    | none =>
      have : (st.create d x).objs[o]? = none := by
        rw [List.getElem?_eq_none_iff] at hb ⊢
        simp only [Store.create, List.length_append, List.length_singleton]; omega
      rw [Store.content_missing hb, Store.content_missing this]

omit [DecidableEq U] [FOps F] in
theorem Agrees.write {st : Store U F} (hi : st.Inv) {n : Nat} {now : Nat → Data U F} (h : Agrees st n now) (o : Nat) (d : Data U F) :
    Agrees (st.write o d) n fun x => if x = o then (now x).write d else now x := by
  obtain ⟨rfl, h⟩ := h
  refine ⟨rfl, fun x => ?_⟩
  beta_reduce
  rw [← h x]
  cases hb : st.objs[x]? with
  | some b =>
    have hlt : b < st.bufs.length := hi.lt b (List.mem_of_getElem? hb)
    have h1 : (st.write o d).objs[x]? = some b := hb
    rw [content_of h1, content_of hb, Store.write_buf hlt]
    simp only [Store.bufOf_inj hi hb, eq_comm]
  | none =>
    have h1 : (st.write o d).objs[x]? = none := hb
    rw [Store.content_missing h1, Store.content_missing hb]
    simp [Data.write]

omit [DecidableEq U] [FOps F] in
theorem Agrees.rework {st : Store U F} (hi : st.Inv) {n : Nat} {now : Nat → Data U F} (h : Agrees st n now) (o : Nat) (d : Data U F)
    (y : Bool) : Agrees (st.rework o d y) n fun x => if x = o ∧ o < n then d else now x := by
  obtain ⟨rfl, h⟩ := h
  refine ⟨by simp [Store.rework], fun x => ?_⟩
  beta_reduce
  rw [← h x]
  cases hb : st.objs[x]? with
  | some b =>
    by_cases hx : o = x
    · subst hx
      have hlt := (List.getElem?_eq_some_iff.mp hb).1
      have h1 : (st.rework o d y).objs[o]? = some st.bufs.length := by
        simp only [Store.rework]
        rw [List.getElem?_set_self hlt]
      rw [content_of h1, if_pos ⟨rfl, hlt⟩]
      simp [Store.rework, Store.buf]
    · obtain ⟨h1, h2⟩ := Store.rework_keeps hi hb hx d y
      rw [content_of h1, content_of hb, h2, if_neg fun hq => hx hq.1.symm]
  | none =>
    have h1 : (st.rework o d y).objs[x]? = none := by
      rw [List.getElem?_eq_none_iff] at hb ⊢
      simpa [Store.rework] using hb
    rw [Store.content_missing h1, Store.content_missing hb, if_neg]
    rintro ⟨rfl, hlt⟩
    rw [List.getElem?_eq_none_iff] at hb
    omega

omit [FOps F] in
theorem aview_setUnits (a : AModel U F) (u : List U) :
    ({ a with base := a.view.setUnits u, scope := a.scope.map fun e => (e.1, e.2.afterUnits a.store) } : AModel U F).view = a.view.setUnits u := by
  simp only [AModel.view, CModel.setUnits, List.map_map]
  congr 1
  apply List.map_congr_left
  intro e _
  simp only [Function.comp_apply, ASym.afterUnits]
  cases a.store.resolve e.2 <;> rfl

/-- a run on the model with objects is a run on the model -/
theorem aview_run (K : Kernel F) (env : PyEnv) (py : PyParser) (a : AModel U F) (g : Option Nat) (c : Bool) :
    (a.step K env py (.run g c)).view = (a.view.runUtilities K g c).1 := by
  have key : ∀ m : CModel U F, ∃ t, (m.runUtilities K g c).1 = { m with cached := t } ∧ (∃ e, (m.runUtilities K g c).2 = .error e) ∨
      (m.runUtilities K g c).1 = { m with cached := t, scope := if c then [] else m.scope } ∧ ∃ u, (m.runUtilities K g c).2 = .ok u := by
    intro m
    unfold CModel.runUtilities
    split
    · exact ⟨m.cached, .inl ⟨rfl, _, rfl⟩⟩
    · exact ⟨m.cached, .inl ⟨rfl, _, rfl⟩⟩
    · rename_i x _ _
      obtain ⟨t, ht⟩ := evaluate_keeps K m x
      rcases he : m.evaluate K x with ⟨m', r⟩
      rw [he] at ht
      simp only at ht
      subst ht
      cases r with
      | error e => exact ⟨t, .inl ⟨rfl, _, rfl⟩⟩
      | ok u => cases c <;> exact ⟨t, .inr ⟨by simp [CModel.clearScope], u, rfl⟩⟩
  obtain ⟨t, ⟨h1, e, h2⟩ | ⟨h1, u, h2⟩⟩ := key a.view
  · rcases hr : a.view.runUtilities K g c with ⟨m', r⟩
    rw [hr] at h1 h2
    simp only at h1 h2
    subst h1 h2
    simp only [AModel.step, hr]
    rfl
  · rcases hr : a.view.runUtilities K g c with ⟨m', r⟩
    rw [hr] at h1 h2
    simp only at h1 h2
    subst h1 h2
    simp only [AModel.step, hr]
    cases c <;> rfl

theorem handsOff_run (K : Kernel F) (env : PyEnv) (py : PyParser) : ∀ (ops : List (AOp U F)) (a : AModel U F) (given : List Nat) (n : Nat)
    (now : Nat → Data U F), a.store.Inv → (∀ e ∈ a.scope, RefersTo a.store given e.2) → Agrees a.store n now → HandsOff given ops →
    (a.run K env py ops).view = modelRun K env py a.view (callsBy n now ops)
  | [], _, _, _, _, _, _, _, _ => rfl
  | op :: ops, a, given, n, now, hi, hr, hag, hh => by
    have keep : ∀ (st' : Store U F), (∀ o ∈ given, ∀ b, a.store.objs[o]? = some b → st'.objs[o]? = some b ∧ st'.buf b = a.store.buf b) →
        (∀ e ∈ a.scope, RefersTo st' given e.2) ∧ ({ a with store := st' } : AModel U F).view = a.view := by
      intro st' h
      refine ⟨fun e he => ((hr e he).keeps h).1, ?_⟩
      simp only [AModel.view]
      congr 1
      exact List.map_congr_left fun e he => by rw [((hr e he).keeps h).2]
    have hrun : a.run K env py (op :: ops) = (a.step K env py op).run K env py ops := rfl
    rw [hrun]
    cases op with
    | create d x =>
      obtain ⟨h1, h2⟩ := keep (a.store.create d x) fun o _ b hb => Store.create_keeps hi hb d x
      rw [handsOff_run K env py ops (a.step K env py (.create d x)) given (n + 1) _ (hi.create d x) h1 (hag.create hi d x) hh]
      simp only [AModel.step, h2]; rfl
    | write x d =>
      obtain ⟨h1, h2⟩ := keep (a.store.write x d) fun o ho b hb => Store.write_keeps hi hb (by rintro rfl; exact hh.1 ho) d
      rw [handsOff_run K env py ops (a.step K env py (.write x d)) given n _ (hi.write x d) h1 (hag.write hi x d) hh.2]
      simp only [AModel.step, h2]; rfl
    | rework x d y =>
      obtain ⟨h1, h2⟩ := keep (a.store.rework x d y) fun o ho b hb => Store.rework_keeps hi hb (by rintro rfl; exact hh.1 ho) d y
      rw [handsOff_run K env py ops (a.step K env py (.rework x d y)) given n _ (hi.rework x d y) h1 (hag.rework hi x d y) hh.2]
      simp only [AModel.step, h2]; rfl
    | assign name o =>
      have hst : (a.step K env py (.assign name o)).store = a.store := store_step K env py a _
      have hsc : ∀ e ∈ (a.step K env py (.assign name o)).scope, RefersTo a.store (o :: given) e.2 := by
        have hr' : ∀ e ∈ a.scope, RefersTo a.store (o :: given) e.2 := fun e he => (hr e he).mono fun x hx => List.mem_cons_of_mem _ hx
        cases hok : (a.assign name o).2 with
        | error e =>
          simp only [AModel.step, AModel.assign] at hok ⊢
          split
          · exact hr'
          · split
            · exact hr'
            · rename_i h1 _ _ h2
              simp [h1, h2] at hok
        | ok u =>
          simp only [AModel.step]
          cases hq : dictGet a.scope name with
          | none => simp [AModel.assign, hq] at hok
          | some x =>
            obtain ⟨s', b, h1, h2, h3, h4⟩ := assign_parts name o hok (s := a.store.resolve x) (by rw [aview_get, hq]; rfl)
            rw [h3]
            intro e he
            rcases mem_dictSet.mp he with rfl | ⟨he, _⟩
            rotate_left
            · exact hr' e he
            · exact (holds_refers a.view h2 _ _).mono (by simp)
      rw [handsOff_run K env py ops _ (o :: given) n now (hst ▸ hi) (hst ▸ hsc) (hst ▸ hag) hh]
      simp only [AModel.step, (aview_assign a name o).1]
      rw [hag.2 o]; rfl
    | declare name s =>
      have hst : (a.step K env py (.declare name s)).store = a.store := store_step K env py a _
      have hsc : ∀ e ∈ (a.step K env py (.declare name s)).scope, RefersTo a.store given e.2 := by
        simp only [AModel.step]
        split
        · exact hr
        · intro e he
          rcases mem_dictSet.mp he with rfl | ⟨he, _⟩
          · trivial
          · exact hr e he
      rw [handsOff_run K env py ops _ given n now (hst ▸ hi) (hst ▸ hsc) (hst ▸ hag) hh]
      have hv : (a.step K env py (.declare name s)).view = (a.view.declare name s).1 := by
        simp only [AModel.step, CModel.declare]
        split
        · rfl
        · simp only [AModel.view]
          congr 1
          exact dictSet_mapv a.store.resolve a.scope name (.own s.empty)
      rw [hv]; rfl
    | setUnits u =>
      have hsc : ∀ e ∈ (a.step K env py (.setUnits u)).scope, RefersTo a.store given e.2 := by
        intro e he
        simp only [AModel.step, List.mem_map] at he
        obtain ⟨x, _, rfl⟩ := he
        simp only [ASym.afterUnits]
        split <;> trivial
      rw [handsOff_run K env py ops (a.step K env py (.setUnits u)) given n now hi hsc hag hh]
      simp only [AModel.step]
      rw [aview_setUnits]; rfl
    | clearScope =>
      rw [handsOff_run K env py ops (a.step K env py .clearScope) given n now hi (by intro e he; cases he) hag hh]; rfl
    | expr op => rw [handsOff_run K env py ops (a.step K env py (.expr op)) given n now hi hr hag hh]; rfl
    | addChoice name sc => rw [handsOff_run K env py ops (a.step K env py (.addChoice name sc)) given n now hi hr hag hh]; rfl
    | addNested h name sc => rw [handsOff_run K env py ops (a.step K env py (.addNested h name sc)) given n now hi hr hag hh]; rfl
    | run g c =>
      have hst : (a.step K env py (.run g c)).store = a.store := store_step K env py a _
      have hsc : ∀ e ∈ (a.step K env py (.run g c)).scope, RefersTo a.store given e.2 := by
        simp only [AModel.step]
        split
        · simp only
          cases c
          · exact hr
          · intro e he; cases he
        · exact hr
      rw [handsOff_run K env py ops _ given n now (hst ▸ hi) (hst ▸ hsc) (hst ▸ hag) hh]
      have hv : (a.step K env py (.run g c)).view = (a.view.runUtilities K g c).1 := by
        exact aview_run K env py a g c
      rw [hv]; rfl

/-- **C66** If the caller changes no object after it was given to `assign` (before, and other objects, it may), the model is
always the one that results from the same calls with the data as values: the model of all other properties. -/
theorem C66_hands_off (K : Kernel F) (env : PyEnv) (py : PyParser) (m : CModel U F) (hm : m.scope = []) (ops : List (AOp U F))
    (h : HandsOff [] ops) :
    ((AModel.fresh m).run K env py ops).view = modelRun K env py m (callsBy 0 (fun _ => .other) ops) := by
  rw [handsOff_run K env py ops (AModel.fresh m) [] 0 (fun _ => .other) Store.Inv.empty (by intro e he; cases he)
    ⟨rfl, fun o => by rw [Store.content_missing (by simp [AModel.fresh, Store.empty])]⟩ h]
  congr 1
  cases m
  simp only at hm
  subst hm
  rfl

/-! ## refutations -/

/-- the model before the assignment: the units are set, the symbol declared, the object made -/
def snapHist (units : List U) (name : Str) (s : Sym F) (d : Data U F) (direct : Bool) : List (AOp U F) :=
  [.setUnits units, .declare name s, .create d direct]

theorem snap_state (K : Kernel F) (env : PyEnv) (py : PyParser) (m : CModel U F) (units : List U) (name : Str) (hn : name ∉ reserved)
    (s : Sym F) (d : Data U F) (direct : Bool) :
    (AModel.fresh m).run K env py (snapHist units name s d direct) =
      ⟨{ m with units := some units, scope := [] }, [(name, .own s.empty)], ⟨[0], [⟨d, direct⟩]⟩⟩ := by
  simp only [AModel.run, snapHist, List.foldl_cons, List.foldl_nil, AModel.step, if_neg hn]
  rfl

/-- **C66** (refuted) A vector is a view of the array that was assigned: writing to the array changes the symbol, without another assignment. -/
theorem C66_vector_refuted (K : Kernel F) (env : PyEnv) (py : PyParser) (m : CModel U F) (units : List U) (name : Str)
    (hn : name ∉ reserved) (x y : Nat → Val F) :
    let a := (AModel.fresh m).run K env py (snapHist units name (.vector false none) (.array1 units.length x) true)
    (a.assign name 0).2 = .ok () ∧
      dictGet (a.assign name 0).1.view.scope name = some (.vector false (some ⟨units.length, 1, fun i _ => x i⟩)) ∧
      dictGet ((a.assign name 0).1.step K env py (.write 0 (.array1 units.length y))).view.scope name =
        some (.vector false (some ⟨units.length, 1, fun i _ => y i⟩)) := by
  simp only
  rw [snap_state K env py m units name hn]
  simp [AModel.assign, dictGet, Store.resolve, Store.content, Store.bufOf, Store.buf, AModel.view, Sym.assign, CModel.labels,
    CModel.decisionUnits, bind, Except.bind, Except.map, holds, shapeVector, dictSet, AModel.step, Store.write, Data.write, Sym.empty]

/-- **C66** (refuted) The same with a Series of numbers that was assigned: writing cells of the Series changes the symbol. -/
theorem C66_series_refuted (K : Kernel F) (env : PyEnv) (py : PyParser) (m : CModel U F) (units : List U) (name : Str)
    (hn : name ∉ reserved) (x y : Nat → Val F) :
    let d := fun v => (Data.series (units.map Lab.unit) (.ok v) : Data U F)
    let a := (AModel.fresh m).run K env py (snapHist units name (.vector false none) (d x) true)
    (a.assign name 0).2 = .ok () ∧
      dictGet (a.assign name 0).1.view.scope name = some (.vector false (some ⟨units.length, 1, fun i _ => x i⟩)) ∧
      dictGet ((a.assign name 0).1.step K env py (.write 0 (d y))).view.scope name =
        some (.vector false (some ⟨units.length, 1, fun i _ => y i⟩)) := by
  simp only
  rw [snap_state K env py m units name hn]
  simp [AModel.assign, dictGet, Store.resolve, Store.content, Store.bufOf, Store.buf, AModel.view, Sym.assign, CModel.labels,
    CModel.decisionUnits, bind, Except.bind, Except.map, holds, shapeVector, dictSet, AModel.step, Store.write, Data.write, Sym.empty]

/-- **C66** (refuted) A matrix is the array of the DataFrame that was assigned, if its labels are those of the model: writing to the DataFrame
changes the symbol. -/
theorem C66_matrix_refuted (K : Kernel F) (env : PyEnv) (py : PyParser) (m : CModel U F) (units : List U) (cols : List (List Name))
    (hc : choices m.tree = .ok cols) (name : Str) (hn : name ∉ reserved) (rc rr : Bool) (fill : Val F) (x y : Nat → Nat → Val F)
    (cast : Val F → Except Err (Val F)) (t : TableData F) :
    let d := fun v => Data.frame (units.map Lab.unit) (cols.map Lab.choice) v cast t
    let a := (AModel.fresh m).run K env py (snapHist units name (.matrix false rc rr fill none) (d x) true)
    (a.assign name 0).2 = .ok () ∧
      dictGet (a.assign name 0).1.view.scope name = some (.matrix false rc rr fill (some ⟨units.length, cols.length, x⟩)) ∧
      dictGet ((a.assign name 0).1.step K env py (.write 0 (d y))).view.scope name =
        some (.matrix false rc rr fill (some ⟨units.length, cols.length, y⟩)) := by
  simp only
  rw [snap_state K env py m units name hn]
  simp [AModel.assign, dictGet, Store.resolve, Store.content, Store.bufOf, Store.buf, AModel.view, Sym.assign, CModel.labels, hc,
    CModel.decisionUnits, bind, Except.bind, Except.map, holds, assignMatrix, dictSet, AModel.step, Store.write, Data.write, Sym.empty]

/-- **C66** (refuted) A table is the DataFrame that was assigned: sorting it in place (here: two rows swapped, with their labels) after the
assignment makes the symbol look up the values of other decision units, although assigning the sorted DataFrame would be rejected. -/
theorem C66_table_refuted (K : Kernel F) (env : PyEnv) (py : PyParser) (m : CModel U F) (u₁ u₂ : U) (hu : u₁ ≠ u₂) (name c : Str)
    (hn : name ∉ reserved) (x : Nat → Val F) :
    let col := fun (f : Nat → Val F) => (⟨2, false, [c], fun a => if a = c then .ok f else .error .attribute, fun _ _ => .error .attribute⟩ : TableData F)
    let frame := fun (l : List U) (f : Nat → Val F) => Data.frame (l.map Lab.unit) [] (fun i _ => f i) .ok (col f)
    let sorted := frame [u₂, u₁] fun i => x (1 - i)
    let a := (AModel.fresh m).run K env py (snapHist [u₁, u₂] name (.table false [c] true none) (frame [u₁, u₂] x) true)
    let after := (a.assign name 0).1.step K env py (.rework 0 sorted true)
    (a.assign name 0).2 = .ok () ∧
      (dictGet (a.assign name 0).1.view.scope name).map (Sym.getChain ⟨[c], none⟩) = some (.ok (.array ⟨2, 1, fun i _ => x i⟩)) ∧
      (dictGet after.view.scope name).map (Sym.getChain ⟨[c], none⟩) = some (.ok (.array ⟨2, 1, fun i _ => x (1 - i)⟩)) ∧
      (after.assign name 0).2 = .error .assertion := by
  simp only
  rw [snap_state K env py m [u₁, u₂] name hn]
  simp [AModel.assign, dictGet, Store.resolve, Store.content, Store.bufOf, Store.buf, AModel.view, Sym.assign, CModel.labels,
    CModel.decisionUnits, bind, Except.bind, Except.map, holds, dictSet, AModel.step, Store.rework, Sym.empty, Sym.getChain, shapeVector, hu]

/-! ## concrete cases -/

/-- the caller changes an array before, a second array after the assignment of the first -/
example (x y z : Nat → Val F) (u : U) (name : Str) :
    HandsOff [] ([.setUnits [u], .create (.array1 1 x) true, .write 0 (.array1 1 y), .declare name (.vector false none), .assign name 0,
      .create (.array1 1 z) true, .write 1 (.array1 1 y), .rework 1 .other false] : List (AOp U F)) := by
  simp [HandsOff]

/-- which the model sees as one assignment of the array as it was then -/
example (x y z : Nat → Val F) (u : U) (name : Str) :
    callsBy 0 (fun _ => .other) ([.setUnits [u], .create (.array1 1 x) true, .write 0 (.array1 1 y), .declare name (.vector false none),
      .assign name 0, .create (.array1 1 z) true, .write 1 (.array1 1 y), .rework 1 .other false] : List (AOp U F)) =
      [.setUnits [u], .declare name (.vector false none), .assign name (.array1 1 y)] := by
  simp [callsBy, Data.write]

/-- a text column is converted: writing to it later has no effect -/
example (K : Kernel F) (env : PyEnv) (py : PyParser) (m : CModel U F) (u : U) (name : Str) (hn : name ∉ reserved) (x y : Nat → Val F) :
    let a := (AModel.fresh m).run K env py (snapHist [u] name (.vector false none) (.series [.unit u] (.ok x)) false)
    dictGet ((a.assign name 0).1.run K env py [.write 0 (.series [.unit u] (.ok y))]).view.scope name =
      some (.vector false (some ⟨1, 1, fun i _ => x i⟩)) := by
  intro a
  have ha := snap_state K env py m [u] name hn (.vector false none) (.series [.unit u] (.ok x)) false
  have hs : dictGet a.view.scope name = some (.vector false none) := by
    simp only [a]; rw [ha]; simp [AModel.view, dictGet, Store.resolve, Sym.empty]
  have hc : (a.store.content 0) = ⟨.series [.unit u] (.ok x), false⟩ := by
    simp only [a]; rw [ha]; simp [Store.content, Store.bufOf, Store.buf]
  have hasg : (Sym.vector false none).assign a.view (.series [.unit u] (.ok x)) = .ok (.vector false (some ⟨1, 1, fun i _ => x i⟩)) := by
    simp only [a]; rw [ha]
    simp [Sym.assign, CModel.labels, CModel.decisionUnits, AModel.view, bind, Except.bind, Except.map, shapeVector]
  have hok : (a.assign name 0).2 = .ok () := by
    rw [(aview_assign a name 0).2, CModel.assign, hs, hc]; simp only [hasg]
  obtain ⟨s', h1, h2⟩ := C66_snapshot_partial K env py m _ [.write 0 (.series [.unit u] (.ok y))] name 0 a rfl _ hs hok (by simp [Rebinds])
    (.inr ⟨by simp [hc, SharesMemory], by simp⟩)
  rw [hc, hasg] at h1
  injection h1 with h1
  rw [h2, h1]

end Cheval
