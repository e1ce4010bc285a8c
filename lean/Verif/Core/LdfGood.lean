import Verif.Core.LdfLemmas

/-!
# The invariant of linked frames, and lookups under it
-/
namespace Cheval
variable {V : Type}

/-! ## changes of caches only -/

/-- two versions of a frame that differ in the caches of its links only -/
def SameButCaches (f f' : LFrame V) : Prop :=
  f' = { f with links := f'.links } ∧ f'.links.map (fun e => (e.1, e.2.copyMeta)) = f.links.map fun e => (e.1, e.2.copyMeta)

theorem SameButCaches.refl (f : LFrame V) : SameButCaches f f := ⟨rfl, rfl⟩

theorem SameButCaches.trans {f g h : LFrame V} (a : SameButCaches f g) (b : SameButCaches g h) : SameButCaches f h :=
  ⟨by rw [b.1, a.1], b.2.trans a.2⟩

theorem SameButCaches.names {f f' : LFrame V} (h : SameButCaches f f') : f'.links.map (·.1) = f.links.map (·.1) := by
  have := congrArg (List.map (·.1)) h.2
  simpa [List.map_map, Function.comp_def] using this

theorem collect_congr {g g' : Str → Except Err (List V)} : ∀ {ls : List Str}, (∀ l ∈ ls, g l = g' l) → collect g ls = collect g' ls
  | [], _ => rfl
  | l :: ls, h => by
    simp only [collect, h l List.mem_cons_self, collect_congr (ls := ls) fun x hx => h x (List.mem_cons_of_mem _ hx)]

/-- key arrays depend on the index, the named columns and the names of links -/
theorem keys_congr {f f' : LFrame V} {s : KeySpec} (hlv : f'.levels = f.levels) (hix : f'.index = f.index)
    (hc : ∀ ls, s.labels = some ls → s.fromRows = false → ∀ n ∈ ls, f'.keyColumn n = f.keyColumn n) : f'.keys s = f.keys s := by
  unfold LFrame.keys
  cases hl : s.labels with
  | none => simp [hix]
  | some ls =>
    have hr : f'.rows = f.rows := by simp [LFrame.rows, hix]
    have : collect (if s.fromRows = true then f'.level else f'.keyColumn) ls
        = collect (if s.fromRows = true then f.level else f.keyColumn) ls := by
      apply collect_congr
      intro n hn
      by_cases h : s.fromRows = true
      · rw [if_pos h, if_pos h]
        simp only [LFrame.level, hlv, hix]
      · rw [if_neg h, if_neg h]
        exact hc ls hl (by simpa using h) n hn
    simp only [hlv, hr, this]

theorem SameButCaches.keyColumn {f f' : LFrame V} (h : SameButCaches f f') (n : Str) : f'.keyColumn n = f.keyColumn n := by
  have hn := h.names
  have hc : f'.cols = f.cols := by rw [h.1]
  unfold LFrame.keyColumn
  rw [hc, hn]

theorem SameButCaches.keys {f f' : LFrame V} (h : SameButCaches f f') (s : KeySpec) : f'.keys s = f.keys s :=
  keys_congr (by rw [h.1]) (by rw [h.1]) fun _ _ _ n _ => h.keyColumn n

theorem SameButCaches.keyAt {f f' : LFrame V} (h : SameButCaches f f') (s : KeySpec) (i : Nat) : f'.keyAt s i = f.keyAt s i := by
  have h1 : f'.cols = f.cols := by rw [h.1]
  have h2 : f'.index = f.index := by rw [h.1]
  have h3 : f'.levels = f.levels := by rw [h.1]
  unfold LFrame.keyAt LFrame.rows
  rw [h1, h2, h3]

theorem SameButCaches.wf {f f' : LFrame V} (h : SameButCaches f f') (hw : f.Wf) : f'.Wf := by
  have h1 : f'.cols = f.cols := by rw [h.1]
  have h2 : f'.index = f.index := by rw [h.1]
  have h3 : f'.levels = f.levels := by rw [h.1]
  have h4 : f'.linked = f.linked := by rw [h.1]
  refine ⟨?_, ?_, ?_, ?_, ?_⟩
  · rw [h2, h3]; exact hw.index
  · intro e he; rw [h1] at he; rw [LFrame.rows, h2]; exact hw.cols e he
  · rw [h.names, h1]; exact hw.noClash
  · rw [h.names]; exact hw.nodup
  · intro hp; rw [h4] at hp
    have : f'.links.map (·.1) = [] := by rw [h.names, hw.plain hp]; rfl
    simpa using this

theorem SameButCaches.link {f f' : LFrame V} (h : SameButCaches f f') (n : Str) :
    (dictGet f'.links n).map Link.copyMeta = (dictGet f.links n).map Link.copyMeta := by
  have key : ∀ (d d' : List (Str × Link)), d'.map (fun e => (e.1, e.2.copyMeta)) = d.map (fun e => (e.1, e.2.copyMeta)) →
      (dictGet d' n).map Link.copyMeta = (dictGet d n).map Link.copyMeta := by
    intro d
    induction d with
    | nil => intro d' hd; simp only [List.map_nil, List.map_eq_nil_iff] at hd; rw [hd]
    | cons e d ih =>
      intro d' hd
      cases d' with
      | nil => simp at hd
      | cons e' d' =>
        simp only [List.map_cons, List.cons.injEq, Prod.mk.injEq] at hd
        have := ih d' hd.2
        unfold dictGet at this ⊢
        simp only [List.find?_cons, hd.1.1]
        by_cases hn : e.1 = n
        · simp [hn, hd.1.2]
        · simp only [hn, decide_false]; exact this
  exact key _ _ h.2

/-- two worlds that differ in caches only -/
def CacheOnly (w w' : LWorld V) : Prop := w'.classFill = w.classFill ∧ List.Forall₂ SameButCaches w.frames w'.frames

theorem CacheOnly.refl (w : LWorld V) : CacheOnly w w := ⟨rfl, List.forall₂_same.mpr fun f _ => SameButCaches.refl f⟩

theorem forall₂_trans' {A : Type} {R : A → A → Prop} (hR : ∀ a b c, R a b → R b c → R a c) : ∀ {a b c : List A},
    List.Forall₂ R a b → List.Forall₂ R b c → List.Forall₂ R a c
  | _, _, _, .nil, .nil => .nil
  | _, _, _, .cons h t, .cons h' t' => .cons (hR _ _ _ h h') (forall₂_trans' hR t t')

theorem CacheOnly.trans {a b c : LWorld V} (h : CacheOnly a b) (h' : CacheOnly b c) : CacheOnly a c :=
  ⟨h'.1.trans h.1, forall₂_trans' (R := SameButCaches) (fun _ _ _ h1 h2 => SameButCaches.trans h1 h2) h.2 h'.2⟩

theorem forall₂_get? {A B : Type} {R : A → B → Prop} : ∀ {a : List A} {b : List B}, List.Forall₂ R a b → ∀ (i : Nat) {x : A},
    a[i]? = some x → ∃ y, b[i]? = some y ∧ R x y
  | _, _, .nil, i, x, h => by simp at h
  | _, _, .cons h t, 0, x, hx => by simp only [List.getElem?_cons_zero, Option.some.injEq] at hx; subst hx; exact ⟨_, rfl, h⟩
  | _, _, .cons h t, i + 1, x, hx => by simpa using forall₂_get? t i (by simpa using hx)

theorem CacheOnly.frame {w w' : LWorld V} (h : CacheOnly w w') {r : Nat} {f : LFrame V} (hf : w.frames[r]? = some f) :
    ∃ f', w'.frames[r]? = some f' ∧ SameButCaches f f' := forall₂_get? h.2 r hf

theorem CacheOnly.length {w w' : LWorld V} (h : CacheOnly w w') : w'.frames.length = w.frames.length := h.2.length_eq.symm

theorem CacheOnly.none {w w' : LWorld V} (h : CacheOnly w w') {r : Nat} (hf : w.frames[r]? = none) : w'.frames[r]? = none := by
  rw [List.getElem?_eq_none_iff] at hf ⊢
  rw [h.length]; exact hf

theorem CacheOnly.keys {w w' : LWorld V} (h : CacheOnly w w') (r : Nat) (s : KeySpec) : w'.keys r s = w.keys r s := by
  unfold LWorld.keys
  cases hf : w.frames[r]? with
  | none => rw [h.none hf]
  | some f => obtain ⟨f', hf', hs⟩ := h.frame hf; rw [hf']; exact hs.keys s

theorem CacheOnly.keyAt {w w' : LWorld V} (h : CacheOnly w w') (r : Nat) (s : KeySpec) (i : Nat) : w'.keyAt r s i = w.keyAt r s i := by
  unfold LWorld.keyAt
  cases hf : w.frames[r]? with
  | none => rw [h.none hf]
  | some f => obtain ⟨f', hf', hs⟩ := h.frame hf; rw [hf']; simp [hs.keyAt]

theorem CacheOnly.rows {w w' : LWorld V} (h : CacheOnly w w') (r : Nat) :
    w'.frames[r]?.elim 0 LFrame.rows = w.frames[r]?.elim 0 LFrame.rows := by
  cases hf : w.frames[r]? with
  | none => rw [h.none hf]
  | some f => obtain ⟨f', hf', hs⟩ := h.frame hf; rw [hf', hs.1]; rfl

theorem CacheOnly.link {w w' : LWorld V} (h : CacheOnly w w') (r : Nat) (n : Str) :
    (w'.link? r n).map Link.copyMeta = (w.link? r n).map Link.copyMeta := by
  unfold LWorld.link?
  cases hf : w.frames[r]? with
  | none => rw [h.none hf]
  | some f => obtain ⟨f', hf', hs⟩ := h.frame hf; rw [hf']; exact hs.link n

theorem CacheOnly.link_some {w w' : LWorld V} (h : CacheOnly w w') {r : Nat} {n : Str} {l : Link} (hl : w.link? r n = some l) :
    ∃ l', w'.link? r n = some l' ∧ l'.copyMeta = l.copyMeta := by
  have := h.link r n
  rw [hl, Option.map_some, Option.map_eq_some_iff] at this
  exact this

theorem CacheOnly.link_some' {w w' : LWorld V} (h : CacheOnly w w') {r : Nat} {n : Str} {l' : Link} (hl : w'.link? r n = some l') :
    ∃ l, w.link? r n = some l ∧ l'.copyMeta = l.copyMeta := by
  have := h.link r n
  rw [hl, Option.map_some, eq_comm, Option.map_eq_some_iff] at this
  obtain ⟨l, h1, h2⟩ := this
  exact ⟨l, h1, h2.symm⟩

/-- what rows are reached does not depend on caches -/
theorem CacheOnly.reaches {w w' : LWorld V} (h : CacheOnly w w') {r : Nat} {p : List Str} {i t j : Nat} (hr : Reaches w r p i t j) :
    Reaches w' r p i t j := by
  induction hr with
  | here r i => exact .here r i
  | hop hl hk hm _ ih =>
    obtain ⟨l', hl', he⟩ := h.link_some hl
    rename_i l k _ 
    have e1 : l'.other = l.other := congrArg (fun x => x.other) he
    have e2 : l'.selfSpec = l.selfSpec := congrArg (fun x => x.selfSpec) he
    have e3 : l'.otherSpec = l.otherSpec := congrArg (fun x => x.otherSpec) he
    refine .hop hl' (k := k) ?_ ?_ (e1 ▸ ih)
    · rw [h.keyAt, e2]; exact hk
    · rw [h.keyAt, e1, e3]; exact hm

theorem CacheOnly.symm {w w' : LWorld V} (h : CacheOnly w w') : CacheOnly w' w := by
  refine ⟨h.1.symm, ?_⟩
  refine List.Forall₂.flip (List.Forall₂.imp ?_ h.2)
  intro f f' hs
  refine ⟨?_, hs.2.symm⟩
  rw [hs.1]

/-- storing a link that differs from the present one in caches only -/
theorem setLink_cacheOnly {w : LWorld V} {r : Nat} {n : Str} {l l' : Link} (hl : w.link? r n = some l)
    (he : l'.copyMeta = l.copyMeta) (hnd : ∀ f ∈ w.frames, (f.links.map (·.1)).Nodup) : CacheOnly w (w.setLink r n l') := by
  refine ⟨rfl, ?_⟩
  unfold LWorld.link? at hl
  cases hf : w.frames[r]? with
  | none => rw [hf] at hl; simp at hl
  | some f =>
    rw [hf] at hl
    simp only at hl
    have hfm := List.mem_of_getElem? hf
    have hm : SameButCaches f { f with links := dictSet f.links n l' } := by
      refine ⟨rfl, ?_⟩
      simp only
      have hmem : n ∈ f.links.map (·.1) := by
        by_contra hcon
        rw [← dictGet_eq_none] at hcon
        rw [hcon] at hl; simp at hl
      unfold dictSet
      rw [if_pos hmem, List.map_map]
      apply List.map_congr_left
      intro e hem
      simp only [Function.comp]
      by_cases h : e.1 = n
      · have : e.2 = l := by
          have h1 := (dictGet_eq_some (hnd f hfm) (k := n) (v := e.2)).mpr (by rw [← h]; exact hem)
          rw [hl] at h1; exact (Option.some.inj h1).symm
        simp [h, he, this]
      · simp [h]
    unfold LWorld.setLink LWorld.setFrame
    simp only
    generalize w.frames = fs at *
    clear hl
    clear hnd
    induction fs generalizing r with
    | nil => simp at hf
    | cons g fs ih =>
      cases r with
      | zero =>
        simp only [List.getElem?_cons_zero, Option.some.injEq] at hf
        subst hf
        exact .cons hm (List.forall₂_same.mpr fun f _ => SameButCaches.refl f)
      | succ r =>
        exact .cons (SameButCaches.refl g) (ih (by simpa using hf) (List.mem_of_getElem? (by simpa using hf)))

theorem link?_setLink {w : LWorld V} {r : Nat} {n : Str} {l l' : Link} (hl : w.link? r n = some l) :
    (w.setLink r n l').link? r n = some l' := by
  unfold LWorld.link? at hl ⊢
  cases hf : w.frames[r]? with
  | none => rw [hf] at hl; simp at hl
  | some f => simp [LWorld.setLink, LWorld.setFrame, hf, dictGet_dictSet]

variable [DecidableEq V] {E : LEnv V}

/-! ## the invariant -/

/-- the index a link's positions refer to: the target's keys, or its distinct keys for an aggregated link -/
def LEnv.base (E : LEnv V) (l : Link) (ko : List (List V)) : List (List V) := if l.agg then E.uniques ko else ko

/-- a link of frame `f` to frame `g` that is up to date: `ks` and `ko` are the keys of the two frames' rows -/
structure LinkOk (E : LEnv V) (w : LWorld V) (f : LFrame V) (l : Link) (g : LFrame V) (ks ko : List (List V)) : Prop where
  target : w.frames[l.other]? = some g
  chained : l.chained = g.linked
  self : f.keys l.selfSpec = .ok ks
  oth : g.keys l.otherSpec = .ok ko
  uniq : l.agg = false → ko.Nodup
  flat : ∀ fl, l.flat = some fl → fl = getIndexer (E.base l ko) ks
  lazy : l.flat = none → w.keys l.owner l.selfSpec = .ok ks
  grouper : ∀ c, l.grouper = some c → c = E.codes ko
  grouped : l.agg = true → l.flat.isSome = true → l.grouper.isSome = true
  missing : ∀ m, l.missing = some m → ∃ fl, l.flat = some fl ∧ m = missingOf fl

/-- every frame is rectangular and every link is up to date -/
structure LGood (E : LEnv V) (w : LWorld V) : Prop where
  wf : ∀ f ∈ w.frames, f.Wf
  links : ∀ f ∈ w.frames, ∀ e ∈ f.links, ∃ g ks ko, LinkOk E w f e.2 g ks ko

theorem LinkOk.transfer {w w' : LWorld V} {f f' g g' : LFrame V} {l : Link} {ks ko : List (List V)} (h : LinkOk E w f l g ks ko)
    (hg : w'.frames[l.other]? = some g') (hlk : g'.linked = g.linked) (ho : g'.keys l.otherSpec = g.keys l.otherSpec)
    (hs : f'.keys l.selfSpec = f.keys l.selfSpec)
    (hw : l.flat = none → w'.keys l.owner l.selfSpec = w.keys l.owner l.selfSpec) : LinkOk E w' f' l g' ks ko :=
  { h with
    target := hg
    chained := h.chained.trans hlk.symm
    self := hs.trans h.self
    oth := ho.trans h.oth
    lazy := fun hn => (hw hn).trans (h.lazy hn) }

theorem LinkOk.cacheOnly {w w' : LWorld V} {f f' g : LFrame V} {l : Link} {ks ko : List (List V)} (h : LinkOk E w f l g ks ko)
    (hc : CacheOnly w w') (hf : SameButCaches f f') : ∃ g', LinkOk E w' f' l g' ks ko := by
  obtain ⟨g', hg', hs⟩ := hc.frame h.target
  exact ⟨g', h.transfer hg' (by rw [hs.1]) (hs.keys _) (hf.keys _) fun _ => hc.keys _ _⟩

theorem LGood.nodup {w : LWorld V} (h : LGood E w) : ∀ f ∈ w.frames, (f.links.map (·.1)).Nodup := fun f hf => (h.wf f hf).nodup

theorem LGood.linkOk {w : LWorld V} (h : LGood E w) {r : Nat} {n : Str} {l : Link} (hl : w.link? r n = some l) :
    ∃ f g ks ko, w.frames[r]? = some f ∧ dictGet f.links n = some l ∧ LinkOk E w f l g ks ko := by
  unfold LWorld.link? at hl
  cases hf : w.frames[r]? with
  | none => rw [hf] at hl; simp at hl
  | some f =>
    rw [hf] at hl
    obtain ⟨g, ks, ko, hk⟩ := h.links f (List.mem_of_getElem? hf) _ (dictGet_mem hl)
    exact ⟨f, g, ks, ko, rfl, hl, hk⟩

/-- what `precompute` stores -/
theorem precompute_good {w : LWorld V} {f g : LFrame V} {l : Link} {ks ko : List (List V)} (h : LinkOk E w f l g ks ko)
    (hl : w.keys l.owner l.selfSpec = .ok ks) :
    E.precompute w l = .ok { l with flat := some (getIndexer (E.base l ko) ks), grouper := if l.agg then some (E.codes ko) else l.grouper } := by
  have ho : w.keys l.other l.otherSpec = .ok ko := by unfold LWorld.keys; rw [h.target]; exact h.oth
  unfold LEnv.precompute
  rw [hl, ho]
  simp only [LEnv.makeIndexer, LEnv.base]
  by_cases ha : l.agg = true
  · simp [ha]
  · have ha' : l.agg = false := by simpa using ha
    have hnd := h.uniq ha'
    simp only [ha', Bool.false_eq_true, if_false]
    by_cases he : ks = ko
    · subst he
      rw [if_pos rfl, getIndexer_self hnd]
    · rw [if_neg he, if_pos hnd]

theorem linkOk_computed {w : LWorld V} {f g : LFrame V} {l : Link} {ks ko : List (List V)} (h : LinkOk E w f l g ks ko) {m : Option (List Nat)}
    (hm : m = none ∨ m = some (missingOf (getIndexer (E.base l ko) ks))) :
    LinkOk E w f { l with flat := some (getIndexer (E.base l ko) ks), grouper := if l.agg then some (E.codes ko) else l.grouper, missing := m } g ks ko := by
  refine { target := h.target, chained := h.chained, self := h.self, oth := h.oth, uniq := h.uniq, flat := ?_, lazy := ?_, grouper := ?_,
           grouped := ?_, missing := ?_ }
  · intro fl hfl; simp only [Option.some.injEq] at hfl; rw [← hfl]; rfl
  · intro hn; simp at hn
  · intro c hc
    simp only at hc
    by_cases ha : l.agg = true
    · rw [if_pos ha] at hc; simp only [Option.some.injEq] at hc; exact hc.symm
    · rw [if_neg ha] at hc; exact h.grouper c hc
  · intro ha _; simp only at ha ⊢; rw [if_pos ha]; rfl
  · intro x hx
    simp only at hx ⊢
    rcases hm with rfl | rfl
    · simp at hx
    · simp only [Option.some.injEq] at hx; exact ⟨_, rfl, hx.symm⟩

/-- storing an up-to-date version of a link -/
theorem LGood.setLink {w : LWorld V} (h : LGood E w) {r : Nat} {n : Str} {l l' : Link} {f g : LFrame V} {ks ko : List (List V)}
    (hl : w.link? r n = some l) (hf : w.frames[r]? = some f) (he : l'.copyMeta = l.copyMeta) (hk : LinkOk E w f l' g ks ko) :
    CacheOnly w (w.setLink r n l') ∧ LGood E (w.setLink r n l') := by
  have hc := setLink_cacheOnly hl he h.nodup
  refine ⟨hc, ?_, ?_⟩
  · intro f' hf'
    obtain ⟨i, hi⟩ := List.getElem?_of_mem hf'
    obtain ⟨f0, hf0, hs⟩ := hc.symm.frame hi
    have : SameButCaches f0 f' := ⟨by rw [hs.1], hs.2.symm⟩
    exact this.wf (h.wf f0 (List.mem_of_getElem? hf0))
  · intro f' hf' e he'
    obtain ⟨i, hi⟩ := List.getElem?_of_mem hf'
    obtain ⟨f0, hf0, hs⟩ := hc.symm.frame hi
    have hs' : SameButCaches f0 f' := ⟨by rw [hs.1], hs.2.symm⟩
    have hi2 := hi
    simp only [LWorld.setLink, LWorld.setFrame, List.getElem?_modify] at hi2
    by_cases hr : r = i
    · subst hr
      rw [hf] at hi2 hf0
      simp only [if_true, Option.map_eq_map, Option.map_some, Option.some.injEq] at hi2 hf0
      subst hf0
      have : e ∈ dictSet f.links n l' := by rw [← hi2] at he'; exact he'
      rw [mem_dictSet] at this
      rcases this with rfl | ⟨h1, h2⟩
      · obtain ⟨g', hg'⟩ := hk.cacheOnly hc hs'
        exact ⟨g', ks, ko, hg'⟩
      · obtain ⟨g1, ks1, ko1, hk1⟩ := h.links f (List.mem_of_getElem? hf) e h1
        obtain ⟨g', hg'⟩ := hk1.cacheOnly hc hs'
        exact ⟨g', ks1, ko1, hg'⟩
    · simp only [if_neg hr, Option.map_eq_map, Option.map_id_fun', id_eq] at hi2
      rw [hf0] at hi2
      simp only [Option.some.injEq] at hi2
      subst hi2
      obtain ⟨g1, ks1, ko1, hk1⟩ := h.links f0 (List.mem_of_getElem? hf0) e he'
      obtain ⟨g', hg'⟩ := hk1.cacheOnly hc hs'
      exact ⟨g', ks1, ko1, hg'⟩

/-- under the invariant a link always delivers the current positions and exactly the missing rows -/
theorem indexerMissing_good {w : LWorld V} (h : LGood E w) {r : Nat} {n : Str} {l : Link} {f g : LFrame V} {ks ko : List (List V)}
    (hl : w.link? r n = some l) (hf : w.frames[r]? = some f) (hk : LinkOk E w f l g ks ko) :
    ∃ w', E.indexerMissing w r n = (w', .ok (getIndexer (E.base l ko) ks, missingOf (getIndexer (E.base l ko) ks))) ∧
      CacheOnly w w' ∧ LGood E w' := by
  unfold LEnv.indexerMissing
  rw [hl]
  simp only
  have hmeta : ∀ m, ({ l with flat := some (getIndexer (E.base l ko) ks), grouper := if l.agg then some (E.codes ko) else l.grouper, missing := m } : Link).copyMeta = l.copyMeta := fun m => rfl
  cases hfl : l.flat with
  | some fl =>
    have hfe := hk.flat fl hfl
    simp only [Option.isSome_some, if_true]
    rw [hfl]
    simp only
    have hm : l.missing.getD (missingOf fl) = missingOf (getIndexer (E.base l ko) ks) := by
      cases hmi : l.missing with
      | none => simp [hfe]
      | some m =>
        obtain ⟨fl', h1, h2⟩ := hk.missing m hmi
        rw [hfl] at h1
        simp only [Option.some.injEq] at h1
        simp [h2, ← h1, hfe]
    rw [hm]
    refine ⟨_, by rw [← hfe], ?_⟩
    have hl' : ({ l with missing := some (missingOf (getIndexer (E.base l ko) ks)) } : Link) =
        { l with flat := some (getIndexer (E.base l ko) ks), grouper := if l.agg then some (E.codes ko) else l.grouper, missing := some (missingOf (getIndexer (E.base l ko) ks)) } := by
      have hgr : (if l.agg then some (E.codes ko) else l.grouper) = l.grouper := by
        by_cases ha : l.agg = true
        · rw [if_pos ha]
          have := hk.grouped ha (by rw [hfl]; rfl)
          obtain ⟨c, hc⟩ := Option.isSome_iff_exists.mp this
          rw [hc, hk.grouper c hc]
        · rw [if_neg ha]
      rw [hgr, ← hfe, ← hfl]
    have := h.setLink hl hf (hmeta _) (linkOk_computed hk (Or.inr rfl))
    rw [← hl', hfl, ← hfe] at this
    exact this
  | none =>
    simp only [Option.isSome_none, Bool.false_eq_true, if_false]
    rw [precompute_good hk (hk.lazy hfl)]
    simp only
    have hm : l.missing = none := by
      cases hmi : l.missing with
      | none => rfl
      | some m => obtain ⟨fl', h1, _⟩ := hk.missing m hmi; rw [hfl] at h1; simp at h1
    rw [hm]
    refine ⟨_, rfl, ?_⟩
    exact h.setLink hl hf (hmeta _) (linkOk_computed hk (Or.inr rfl))

end Cheval
