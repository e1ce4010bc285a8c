import Verif.Core.LdfHistory

/-!
# Lookups do not see frames added later, and slices of a frame look like the frame's lookups sliced
-/
namespace Cheval
variable {V : Type} [DecidableEq V] {E : LEnv V}

theorem push_frames_lt {w : LWorld V} {f : LFrame V} {q : Nat} (h : q < w.frames.length) : (w.push f).frames[q]? = w.frames[q]? := by
  simp [LWorld.push, List.getElem?_append_left h]

theorem push_link? {w : LWorld V} {f : LFrame V} {q : Nat} (h : q < w.frames.length) (n : Str) : (w.push f).link? q n = w.link? q n := by
  unfold LWorld.link?
  rw [push_frames_lt h]

theorem push_keys_lt {w : LWorld V} {f : LFrame V} {q : Nat} (h : q < w.frames.length) (s : KeySpec) : (w.push f).keys q s = w.keys q s := by
  unfold LWorld.keys
  rw [push_frames_lt h]

theorem push_setFrame {w : LWorld V} {f : LFrame V} {q : Nat} (h : q < w.frames.length) (g : LFrame V → LFrame V) :
    (w.push f).setFrame q g = (w.setFrame q g).push f := by
  have : (w.frames ++ [f]).modify q g = w.frames.modify q g ++ [f] := by
    apply List.ext_getElem?
    intro i
    by_cases hi : i < w.frames.length
    · rw [List.getElem?_modify, List.getElem?_append_left hi, List.getElem?_append_left (by simpa using hi), List.getElem?_modify]
    · have hne : q ≠ i := by omega
      rw [List.getElem?_modify, List.getElem?_append_right (by omega), List.getElem?_append_right (by simpa using hi)]
      simp [hne]
  unfold LWorld.setFrame LWorld.push
  simp [this]

theorem push_setLink {w : LWorld V} {f : LFrame V} {q : Nat} (h : q < w.frames.length) (n : Str) (l : Link) :
    (w.push f).setLink q n l = (w.setLink q n l).push f := push_setFrame h _

theorem setFrame_length (w : LWorld V) (q : Nat) (g : LFrame V → LFrame V) : (w.setFrame q g).frames.length = w.frames.length := by
  simp [LWorld.setFrame]

theorem LGood.link_lt {w : LWorld V} (h : LGood E w) {q : Nat} {n : Str} {l : Link} (hl : w.link? q n = some l) :
    q < w.frames.length ∧ l.other < w.frames.length ∧ (l.flat = none → l.owner < w.frames.length) := by
  obtain ⟨f, g, ks, ko, hf, -, hk⟩ := h.linkOk hl
  refine ⟨(List.getElem?_eq_some_iff.mp hf).1, (List.getElem?_eq_some_iff.mp hk.target).1, fun hn => ?_⟩
  have := hk.lazy hn
  unfold LWorld.keys at this
  cases ho : w.frames[l.owner]? with
  | none => rw [ho] at this; simp at this
  | some x => exact (List.getElem?_eq_some_iff.mp ho).1

/-- a frame pushed later does not change an indexer -/
theorem push_indexerMissing {w : LWorld V} (h : LGood E w) (f : LFrame V) {q : Nat} (hq : q < w.frames.length) (n : Str) :
    E.indexerMissing (w.push f) q n = ((E.indexerMissing w q n).1.push f, (E.indexerMissing w q n).2) := by
  unfold LEnv.indexerMissing
  rw [push_link? hq]
  cases hl : w.link? q n with
  | none => rfl
  | some l =>
    simp only
    obtain ⟨-, ho, how⟩ := h.link_lt hl
    have hpre : l.flat.isSome = false → E.precompute (w.push f) l = E.precompute w l := by
      intro hn
      have hn' : l.flat = none := by simpa using hn
      unfold LEnv.precompute
      rw [push_keys_lt (how hn'), push_keys_lt ho]
    have hcase : (if l.flat.isSome = true then (.ok l : Except Err Link) else E.precompute (w.push f) l) =
        (if l.flat.isSome = true then .ok l else E.precompute w l) := by
      by_cases hs : l.flat.isSome = true
      · simp [hs]
      · rw [if_neg hs, if_neg hs, hpre (by simpa using hs)]
    rw [hcase]
    cases (if l.flat.isSome = true then (.ok l : Except Err Link) else E.precompute w l) with
    | error e => rfl
    | ok l1 =>
      simp only
      cases l1.flat with
      | none => rfl
      | some fl => simp only [push_setLink hq]

theorem keeps_length {w w' : LWorld V} (h : Keeps E w w') : w'.frames.length = w.frames.length := h.1.length

theorem push_resolve (kind : DKind) (fill : V) (f : LFrame V) : ∀ (hist : List (Nat × Str)) {w : LWorld V} (_ : LGood E w)
    (_ : ∀ p ∈ hist, p.1 < w.frames.length) (a : List V),
    E.resolve kind fill (w.push f) hist a = ((E.resolve kind fill w hist a).1.push f, (E.resolve kind fill w hist a).2)
  | [], w, _, _, a => rfl
  | p :: hist, w, h, hlt, a => by
    rw [LEnv.resolve, LEnv.resolve]
    rw [push_indexerMissing h f (hlt p List.mem_cons_self)]
    have hk := indexerMissing_keeps h p.1 p.2
    rcases hi : E.indexerMissing w p.1 p.2 with ⟨w1, e | ⟨fl, m⟩⟩
    · rfl
    · rw [hi] at hk
      simp only at hk ⊢
      cases takeInts a fl with
      | error e => rfl
      | ok b =>
        simp only
        cases E.store kind fill with
        | error e => rfl
        | ok v =>
          simp only
          cases putAll b m v with
          | error e => rfl
          | ok c =>
            simp only
            exact push_resolve kind fill f hist hk.2.1 (fun x hx => by rw [keeps_length hk]; exact hlt x (List.mem_cons_of_mem _ hx)) c

theorem resolve_append (kind : DKind) (fill : V) : ∀ (hist hist' : List (Nat × Str)) (w : LWorld V) (a : List V),
    E.resolve kind fill w (hist ++ hist') a = match E.resolve kind fill w hist a with
      | (w1, .error e) => (w1, .error e)
      | (w1, .ok b) => E.resolve kind fill w1 hist' b
  | [], hist', w, a => rfl
  | p :: hist, hist', w, a => by
    rw [List.cons_append, LEnv.resolve, LEnv.resolve]
    rcases E.indexerMissing w p.1 p.2 with ⟨w1, e | ⟨fl, m⟩⟩
    · rfl
    · simp only
      cases takeInts a fl with
      | error e => rfl
      | ok b =>
        simp only
        cases E.store kind fill with
        | error e => rfl
        | ok v =>
          simp only
          cases putAll b m v with
          | error e => rfl
          | ok c =>
            simp only
            exact resolve_append kind fill hist hist' w1 c

/-- one step over a computed indexer, from above -/
theorem take_put_get {A : Type} {b c : List A} {fl : List Int} {v : A} {a : List A} (hb : takeInts a fl = .ok b)
    (hc : putAll b (missingOf fl) v = .ok c) : c.length = fl.length ∧
      ∀ i : Nat, c[i]? = if fl[i]? = some (-1) then some v else b[i]? := by
  obtain ⟨hl, -⟩ := takeInts_ok hb
  unfold putAll at hc
  split at hc
  · simp only [Except.ok.injEq] at hc
    subst hc
    have key : ∀ i : Nat, ((missingOf fl).foldl (fun b p => b.set p v) b)[i]? = if fl[i]? = some (-1) then some v else b[i]? := by
      intro i
      rw [foldl_set_getElem?]
      simp only [mem_missingOf]
      by_cases h : fl[i]? = some (-1)
      · have : i < b.length := by rw [hl]; exact (List.getElem?_eq_some_iff.mp h).1
        simp [h, this]
      · simp [h]
    refine ⟨?_, key⟩
    have : ∀ (ps : List Nat) (x : List A), (ps.foldl (fun b p => b.set p v) x).length = x.length := by
      intro ps
      induction ps with
      | nil => intro x; rfl
      | cons p ps ih => intro x; simp [ih]
    rw [this, hl]
  · simp at hc

theorem takeInts_iff {A : Type} {a : List A} : ∀ {ix : List Int} {b : List A},
    takeInts a ix = .ok b ↔ ix.map (fun k => (takeAt a.length k).bind fun p => a[p]?) = b.map some
  | [], b => by
    cases b <;> simp [takeInts]
  | k :: ks, b => by
    unfold takeInts
    cases hp : takeAt a.length k with
    | none => cases b <;> simp [hp]
    | some p =>
      simp only
      cases hx : a[p]? with
      | none => cases b <;> simp [hp, hx]
      | some x =>
        cases hr : takeInts a ks with
        | error e =>
          cases b with
          | nil => simp
          | cons y b =>
            simp only [List.map_cons, List.cons.injEq, reduceCtorEq, false_iff, not_and]
            intro _ hm
            rw [takeInts_iff.mpr hm] at hr
            simp at hr
        | ok r =>
          have hm := takeInts_iff.mp hr
          cases b with
          | nil => simp
          | cons y b =>
            simp only [Except.ok.injEq, List.cons.injEq, List.map_cons, hp, Option.bind_some, hx, Option.some.injEq, hm]
            refine and_congr Iff.rfl ⟨fun h => by rw [h], fun h => ?_⟩
            exact List.map_injective_iff.mpr (fun _ _ => Option.some.inj) h

theorem takeInts_pick {A : Type} {a b : List A} {fl ix : List Int} (hb : takeInts a fl = .ok b) (h : InRange fl.length ix) :
    takeInts a (pick fl ix) = .ok (pick b ix) := by
  rw [takeInts_iff] at hb ⊢
  have hl : b.length = fl.length := by simpa using (congrArg List.length hb).symm
  apply List.ext_getElem?
  intro i
  have hg : ∀ j : Nat, (fl[j]?).map (fun k => (takeAt a.length k).bind fun p => a[p]?) = (b[j]?).map some := by
    intro j
    have := congrArg (fun x : List (Option A) => x[j]?) hb
    simpa using this
  rw [List.getElem?_map, List.getElem?_map, pick_get h, pick_get (by rw [hl]; exact h)]
  cases ix[i]? with
  | none => rfl
  | some k => simpa using hg k.toNat

theorem takeInts_inRange {A : Type} {a : List A} {ix : List Int} (h : InRange a.length ix) : takeInts a ix = .ok (pick a ix) := by
  rw [takeInts_iff]
  apply List.ext_getElem?
  intro i
  rw [List.getElem?_map, List.getElem?_map, pick_get h]
  cases hk : ix[i]? with
  | none => rfl
  | some k =>
    obtain ⟨h0, h1⟩ := h k (List.mem_of_getElem? hk)
    simp [takeAt, h0, h1, List.getElem?_eq_getElem h1]

/-- the last step of a lookup on a slice: the sliced indexer gives the sliced result -/
theorem step_pick {A : Type} {a b c : List A} {fl ix : List Int} {v : A} (hb : takeInts a fl = .ok b) (hc : putAll b (missingOf fl) v = .ok c)
    (h : InRange fl.length ix) : ∃ b', takeInts a (pick fl ix) = .ok b' ∧ putAll b' (missingOf (pick fl ix)) v = .ok (pick c ix) := by
  have h1 := takeInts_pick hb h
  refine ⟨_, h1, ?_⟩
  obtain ⟨hl, hg⟩ := take_put_get hb hc
  have hput : ∃ c', putAll (pick b ix) (missingOf (pick fl ix)) v = .ok c' := by
    unfold putAll
    rw [if_pos]
    · exact ⟨_, rfl⟩
    · intro p hp
      have := (List.getElem?_eq_some_iff.mp (mem_missingOf.mp hp)).1
      rwa [(takeInts_ok h1).1]
  obtain ⟨c', hc'⟩ := hput
  obtain ⟨hl', hg'⟩ := take_put_get h1 hc'
  rw [hc']
  congr 1
  apply List.ext_getElem?
  intro i
  have hbl : b.length = fl.length := (takeInts_ok hb).1
  rw [hg', pick_get h, pick_get (by rw [hbl]; exact h), pick_get (by rw [hl]; exact h)]
  cases ix[i]? with
  | none => simp
  | some k => simp only [Option.bind_some]; exact (hg k.toNat).symm

/-- `f'`, just derived from frame `r`, is the rows `ix` of it, with the indexers of its links sliced -/
structure SliceOf (w : LWorld V) (r : Nat) (f f' : LFrame V) (ix : List Int) : Prop where
  frame : w.frames[r]? = some f
  range : InRange f.rows ix
  comp : AllComputed f
  rowsOf : RowsOf f f' ix
  links : copyLinks (some ix) f.links = .ok f'.links

theorem forall₂_dict {A B : Type} {P : A → B → Prop} {n : Str} : ∀ {d : List (Str × A)} {d' : List (Str × B)},
    List.Forall₂ (fun (e : Str × A) (e' : Str × B) => e'.1 = e.1 ∧ P e.2 e'.2) d d' →
    (dictGet d n = none → dictGet d' n = none) ∧ ∀ a, dictGet d n = some a → ∃ b, dictGet d' n = some b ∧ P a b
  | _, _, .nil => ⟨fun _ => rfl, fun a h => by simp [dictGet] at h⟩
  | _, _, .cons (a := e) (b := e') (l₁ := d) (l₂ := d') h t => by
    obtain ⟨h1, h2⟩ := forall₂_dict (n := n) t
    obtain ⟨k, x⟩ := e
    obtain ⟨k', y⟩ := e'
    obtain ⟨rfl, hp⟩ := h
    simp only [dictGet_cons]
    by_cases hk : k' = n
    · simp [hk]; exact hp
    · simpa [hk] using ⟨h1, h2⟩

/-- the links of a slice -/
theorem SliceOf.link {w : LWorld V} {r : Nat} {f f' : LFrame V} {ix : List Int} (hs : SliceOf w r f f' ix) {n : Str} :
    (w.link? r n = none → (w.push f').link? w.frames.length n = none) ∧
    ∀ l, w.link? r n = some l → ∃ fl l', l.flat = some fl ∧ (w.push f').link? w.frames.length n = some l' ∧
      takeInts fl ix = .ok (l'.flat.getD []) ∧ l' = { l with flat := l'.flat, missing := none } ∧ l'.flat.isSome = true := by
  have hd := forall₂_dict (P := fun (l l' : Link) => l.copy (some ix) = .ok l') (n := n) (copyLinks_ok hs.links)
  unfold LWorld.link?
  rw [hs.frame, push_new]
  simp only
  refine ⟨hd.1, fun l hl => ?_⟩
  obtain ⟨l', h1, h2⟩ := hd.2 l hl
  obtain ⟨fl, hfl⟩ := Option.isSome_iff_exists.mp (hs.comp _ (dictGet_mem hl))
  simp only at hfl
  unfold Link.copy at h2
  rw [hfl] at h2
  simp only at h2
  cases ht : takeInts fl ix with
  | error e => rw [ht] at h2; simp at h2
  | ok fl1 =>
    rw [ht] at h2
    simp only [Except.ok.injEq] at h2
    subst h2
    exact ⟨fl, _, hfl, h1, by simp [ht], rfl, rfl⟩

theorem walk_base {w : LWorld V} : ∀ {ns : List Str} {q : Nat} {h : List (Nat × Str)},
    w.walk q ns h = (w.walk q ns []).map fun p => (p.1, p.2 ++ h)
  | [], q, h => rfl
  | n :: ns, q, h => by
    rw [LWorld.walk, LWorld.walk]
    cases w.link? q n with
    | none => rfl
    | some l =>
      simp only
      cases ns with
      | nil => rfl
      | cons m ms =>
        simp only
        cases l.node with
        | leaf => rfl
        | aggr => rfl
        | node =>
          simp only
          rw [walk_base (h := (q, n) :: h), walk_base (h := [(q, n)])]
          cases w.walk l.other (m :: ms) [] with
          | error e => rfl
          | ok p => simp [Except.map]

theorem push_walk {w : LWorld V} (hg : LGood E w) (f : LFrame V) : ∀ {ns : List Str} {q : Nat} {h : List (Nat × Str)}, q < w.frames.length →
    (w.push f).walk q ns h = w.walk q ns h
  | [], _, _, _ => rfl
  | n :: ns, q, h, hq => by
    rw [LWorld.walk, LWorld.walk, push_link? hq]
    cases hl : w.link? q n with
    | none => rfl
    | some l =>
      simp only
      cases ns with
      | nil => rfl
      | cons m ms =>
        simp only
        cases l.node with
        | leaf => rfl
        | aggr => rfl
        | node => exact push_walk hg f (hg.link_lt hl).2.1

theorem walk_hist_lt {w : LWorld V} (hg : LGood E w) {ns : List Str} {q : Nat} {l : Link} {hist : List (Nat × Str)}
    (hw : w.walk q ns [] = .ok (l, hist)) : ∀ p ∈ hist, p.1 < w.frames.length := by
  obtain ⟨ns', n, q', h', rfl, ht, hl, rfl⟩ := walk_trail hw
  intro p hp
  simp only [List.append_nil, List.mem_cons] at hp
  rcases hp with rfl | hp
  · exact (hg.link_lt hl).1
  · clear hw hl
    induction ht with
    | nil => simp at hp
    | snoc t hl' _ ih =>
      rcases List.mem_cons.mp hp with rfl | hp
      · exact (hg.link_lt hl').1
      · exact ih hp

/-- following links from a slice and from the frame it was taken of -/
theorem SliceOf.walk {w : LWorld V} (hg : LGood E w) {r : Nat} {f f' : LFrame V} {ix : List Int} (hs : SliceOf w r f f' ix) {path : List Str}
    {l : Link} {hist : List (Nat × Str)} (hw : w.walk r path [] = .ok (l, hist)) :
    ∃ n h0 l0 l', hist = h0 ++ [(r, n)] ∧ (w.push f').walk w.frames.length path [] = .ok (l', h0 ++ [(w.frames.length, n)]) ∧
      w.link? r n = some l0 ∧ l'.other = l.other ∧ l'.node = l.node ∧ l'.grouper = l.grouper ∧ (∀ p ∈ h0, p.1 < w.frames.length) ∧
      (h0 = [] → path = [n] ∧ l = l0) := by
  cases path with
  | nil => simp [LWorld.walk] at hw
  | cons n ns =>
    rw [LWorld.walk] at hw ⊢
    cases hl : w.link? r n with
    | none => rw [hl] at hw; simp at hw
    | some l0 =>
      obtain ⟨fl, l', h1, h2, h3, h4, h5⟩ := hs.link.2 l0 hl
      have ho : l'.other = l0.other := by rw [h4]
      have hn : l'.node = l0.node := by rw [h4]; rfl
      have hgr : l'.grouper = l0.grouper := by rw [h4]
      rw [hl] at hw
      rw [h2]
      simp only at hw ⊢
      cases ns with
      | nil =>
        simp only [Except.ok.injEq, Prod.mk.injEq] at hw
        obtain ⟨rfl, rfl⟩ := hw
        exact ⟨n, [], l0, l', rfl, rfl, hl, ho, hn, hgr, by simp, fun _ => ⟨rfl, rfl⟩⟩
      | cons m ms =>
        simp only at hw ⊢
        rw [hn, ho]
        cases hnd : l0.node with
        | leaf => rw [hnd] at hw; simp at hw
        | aggr => rw [hnd] at hw; simp at hw
        | node =>
          rw [hnd] at hw
          simp only at hw ⊢
          rw [push_walk hg f' (hg.link_lt hl).2.1]
          rw [walk_base] at hw ⊢
          cases hx : w.walk l0.other (m :: ms) [] with
          | error e => rw [hx] at hw; simp [Except.map] at hw
          | ok p =>
            rw [hx] at hw
            obtain ⟨lx, hh⟩ := p
            simp only [Except.map, Except.ok.injEq, Prod.mk.injEq] at hw ⊢
            obtain ⟨rfl, rfl⟩ := hw
            refine ⟨n, hh, l0, lx, rfl, ⟨rfl, rfl⟩, hl, rfl, rfl, rfl, walk_hist_lt hg hx, fun h0 => ?_⟩
            obtain ⟨_, _, _, _, _, _, _, e⟩ := walk_trail hx
            rw [h0] at e
            simp at e

/-- the indexer of a computed link -/
theorem indexerMissing_computed {w : LWorld V} {r : Nat} {n : Str} {l : Link} {fl : List Int} (hl : w.link? r n = some l) (hf : l.flat = some fl)
    (hm : ∀ m, l.missing = some m → m = missingOf fl) : (E.indexerMissing w r n).2 = .ok (fl, missingOf fl) := by
  unfold LEnv.indexerMissing
  rw [hl]
  simp only [hf, Option.isSome_some, if_true]
  cases hmm : l.missing with
  | none => rfl
  | some m => simp [hm m hmm]

/-- the values of a lookup on a slice are the sliced values of the lookup on the frame -/
theorem SliceOf.resolve {w w1 : LWorld V} (hg : LGood E w) {r : Nat} {f f' : LFrame V} {ix : List Int} (hs : SliceOf w r f f' ix)
    (hk : Keeps E w w1) {n : Str} {l0 : Link} (hl0 : w.link? r n = some l0) {h0 : List (Nat × Str)} (hlt : ∀ p ∈ h0, p.1 < w.frames.length)
    {kind : DKind} {fill : V} {a out : List V} (ho : (E.resolve kind fill w1 (h0 ++ [(r, n)]) a).2 = .ok out) :
    (E.resolve kind fill (w1.push f') (h0 ++ [(w.frames.length, n)]) a).2 = .ok (pick out ix) := by
  rw [resolve_append] at ho ⊢
  rw [push_resolve kind fill f' h0 hk.2.1 (fun p hp => by rw [keeps_length hk]; exact hlt p hp)]
  have hk3 := resolve_keeps kind fill h0 hk.2.1 a
  rcases hr : E.resolve kind fill w1 h0 a with ⟨w3, e | b⟩
  · rw [hr] at ho; simp at ho
  · rw [hr] at ho hk3
    simp only at ho hk3 ⊢
    have hk13 : Keeps E w w3 := hk.trans hk3
    -- the link on the frame
    obtain ⟨fl, l', h1, h2, h3, h4, h5⟩ := hs.link.2 l0 hl0
    obtain ⟨l3, hl3, hfs⟩ := hk13.2.2 r n l0 hl0 (by rw [h1]; rfl)
    obtain ⟨l3', hl3', hcm⟩ := hk13.1.link_some hl0
    rw [hl3] at hl3'
    obtain rfl := Option.some.inj hl3'
    obtain ⟨f0, g0, ks0, ko0, hf0, -, hok0⟩ := hg.linkOk hl0
    obtain ⟨f3, g3, ks3, ko3, hf3, -, hok3⟩ := hk13.2.1.linkOk hl3
    obtain ⟨f3', hf3', hsf⟩ := hk13.1.frame hf0
    rw [hf3] at hf3'
    obtain rfl := Option.some.inj hf3'
    have e1 : l3.other = l0.other := congrArg (fun x => x.other) hcm
    have e2 : l3.agg = l0.agg := congrArg (fun x => x.agg) hcm
    have e3 : l3.selfSpec = l0.selfSpec := congrArg (fun x => x.selfSpec) hcm
    have e4 : l3.otherSpec = l0.otherSpec := congrArg (fun x => x.otherSpec) hcm
    obtain ⟨g3', hg3', hsg⟩ := hk13.1.frame hok0.target
    have hgg : g3 = g3' := by have := hok3.target; rw [e1, hg3'] at this; exact (Option.some.inj this).symm
    subst hgg
    have hks : ks3 = ks0 := by have := hok3.self; rw [e3, hsf.keys, hok0.self] at this; simpa using this.symm
    have hko : ko3 = ko0 := by have := hok3.oth; rw [e4, hsg.keys, hok0.oth] at this; simpa using this.symm
    subst hks
    subst hko
    have hbase : E.base l3 ko3 = E.base l0 ko3 := by simp [LEnv.base, e2]
    obtain ⟨fl3, hfl3⟩ := Option.isSome_iff_exists.mp hfs
    have hfl : fl3 = fl := by rw [hok3.flat fl3 hfl3, hok0.flat fl h1, hbase]
    subst hfl
    have hi3 := indexerMissing_computed (E := E) hl3 hfl3 fun m hm => by
      obtain ⟨x, hx, rfl⟩ := hok3.missing m hm
      rw [hfl3] at hx
      rw [Option.some.inj hx]
    -- the link on the slice
    have hf0' : f0 = f := by have := hs.frame; rw [hf0] at this; exact Option.some.inj this
    subst hf0'
    have hlen : fl3.length = f0.rows := by
      rw [hok0.flat fl3 h1, getIndexer_length, (keys_ok (hg.wf _ (List.mem_of_getElem? hf0)) hok0.self).1]
    have hr3 : InRange fl3.length ix := by rw [hlen]; exact hs.range
    rw [takeInts_inRange hr3] at h3
    obtain ⟨fl', hfl'⟩ := Option.isSome_iff_exists.mp h5
    rw [hfl'] at h3
    simp only [Option.getD_some, Except.ok.injEq] at h3
    subst h3
    have hmis : l'.missing = none := by rw [h4]
    have hl' : (w3.push f').link? w.frames.length n = some l' := by
      have h3' : (w3.push f').frames[w.frames.length]? = some f' := by rw [← keeps_length hk13]; exact push_new w3 f'
      unfold LWorld.link? at h2 ⊢
      rw [push_new] at h2
      rw [h3']
      exact h2
    have hi' := indexerMissing_computed (E := E) hl' hfl' fun m hm => by rw [hmis] at hm; simp at hm
    -- the step
    rw [LEnv.resolve] at ho ⊢
    rcases hq : E.indexerMissing w3 r n with ⟨w4, x⟩
    rcases hq' : E.indexerMissing (w3.push f') w.frames.length n with ⟨w4', x'⟩
    rw [hq] at hi3 ho
    rw [hq'] at hi'
    simp only at hi3 hi'
    subst hi3
    subst hi'
    simp only at ho ⊢
    cases ht : takeInts b fl3 with
    | error e => rw [ht] at ho; simp at ho
    | ok b1 =>
      rw [ht] at ho
      simp only at ho
      cases hv : E.store kind fill with
      | error e => rw [hv] at ho; simp at ho
      | ok v =>
        rw [hv] at ho
        simp only at ho
        cases hp : putAll b1 (missingOf fl3) v with
        | error e => rw [hp] at ho; simp at ho
        | ok c =>
          rw [hp] at ho
          simp only [LEnv.resolve, Except.ok.injEq] at ho
          subst ho
          obtain ⟨b', hb1, hb2⟩ := step_pick ht hp hr3
          simp only [hb1, hb2, LEnv.resolve]

theorem SliceOf.rows {w : LWorld V} {r : Nat} {f f' : LFrame V} {ix : List Int} (hs : SliceOf w r f f' ix) (w1 : LWorld V)
    (hl : w1.frames.length = w.frames.length) : (w1.push f').frames[w.frames.length]?.elim 0 LFrame.rows = ix.length := by
  have : (w1.push f').frames[w.frames.length]? = some f' := by rw [← hl]; exact push_new w1 f'
  rw [this]
  exact hs.rowsOf.rows hs.range

theorem asSeries_pick {A A' B : Type} {n : Nat} {kind : DKind} {x : A × Except Err (List B)} {x' : A' × Except Err (List B)} {ix : List Int} {c : LCol B}
    (hc : (asSeries n kind x).2 = .ok c) (hix : InRange n ix) (hx : ∀ out, x.2 = .ok out → x'.2 = .ok (pick out ix)) :
    (asSeries ix.length kind x').2 = .ok ⟨c.kind, pick c.vals ix⟩ := by
  obtain ⟨w, x⟩ := x
  obtain ⟨w', x'⟩ := x'
  cases x with
  | error e => simp [asSeries] at hc
  | ok out =>
    simp only [asSeries] at hc
    split at hc
    · rename_i hl
      simp only [Except.ok.injEq] at hc
      subst hc
      have := hx out rfl
      simp only at this
      subst this
      subst hl
      simp [asSeries, pick_length hix]
    · simp at hc

/-- `frame[rows].l1...lk.column = frame.l1...lk.column[rows]` -/
theorem SliceOf.lookup {w : LWorld V} (hg : LGood E w) {r : Nat} {f f' : LFrame V} {ix : List Int} (hs : SliceOf w r f f' ix)
    {path : List Str} {col : Str} {c : LCol V} (hc : (E.lookup w r path col).2 = .ok c) :
    (E.lookup (w.push f') w.frames.length path col).2 = .ok ⟨c.kind, pick c.vals ix⟩ := by
  unfold LEnv.lookup at hc ⊢
  cases hw : w.walk r path [] with
  | error e => rw [hw] at hc; simp at hc
  | ok p =>
    obtain ⟨l, hist⟩ := p
    obtain ⟨n, h0, l0, l', rfl, hw', hl0, ho, hn, -, hlt, -⟩ := hs.walk hg hw
    rw [hw] at hc
    rw [hw']
    simp only at hc ⊢
    obtain ⟨ns', n', q', h', -, -, hlq, -⟩ := walk_trail hw
    rw [ho, hn, push_frames_lt (hg.link_lt hlq).2.1]
    cases hgg : w.frames[l.other]? with
    | none => rw [hgg] at hc; simp at hc
    | some g =>
      rw [hgg] at hc
      simp only at hc ⊢
      have hrow : w.frames[r]?.elim 0 LFrame.rows = f.rows := by rw [hs.frame]; rfl
      rw [hrow] at hc
      have hcf : (w.push f').classFill = w.classFill := rfl
      cases hnd : l.node with
      | aggr => rw [hnd] at hc; simp at hc
      | leaf =>
        rw [hnd] at hc
        simp only at hc ⊢
        cases hd : dictGet g.cols col with
        | none => rw [hd] at hc; simp at hc
        | some cc =>
          rw [hd] at hc
          simp only at hc ⊢
          rw [hs.rows w rfl, hcf]
          exact asSeries_pick hc hs.range fun out hout => hs.resolve hg (Keeps.refl hg) hl0 hlt hout
      | node =>
        rw [hnd] at hc
        simp only at hc ⊢
        split at hc
        · simp at hc
        · rename_i hnl
          rw [if_neg hnl]
          cases hd : dictGet g.cols col with
          | none => rw [hd] at hc; simp at hc
          | some cc =>
            rw [hd] at hc
            simp only at hc ⊢
            rw [hs.rows w rfl]
            exact asSeries_pick hc hs.range fun out hout => hs.resolve hg (Keeps.refl hg) hl0 hlt hout

/-- evaluating on a frame does not depend on frames added later -/
def EvPush (E : LEnv V) (ev : LWorld V → Nat → PExpr → LWorld V × Except Err (LCol V)) : Prop :=
  ∀ w f o e, LGood E w → o < w.frames.length → ev (w.push f) o e = ((ev w o e).1.push f, (ev w o e).2)

theorem orColumn_push {ev : LWorld V → Nat → PExpr → LWorld V × Except Err (LCol V)} (hev : EvPush E ev) : EvPush E (orColumn ev) := by
  intro w f o e hg ho
  unfold orColumn
  rw [push_frames_lt ho]
  split
  · rename_i g n _
    cases dictGet g.cols n with
    | none => exact hev w f o _ hg ho
    | some c => simp only; split <;> rfl
  · exact hev w f o _ hg ho

/-- `frame[rows].l1...lk.f(arg) = frame.l1...lk.f(arg)[rows]` -/
theorem SliceOf.aggregate {ev : LWorld V → Nat → PExpr → LWorld V × Except Err (LCol V)} (hev : EvKeeps E ev) (hep : EvPush E ev)
    {w : LWorld V} (hg : LGood E w) {r : Nat} {f f' : LFrame V} {ix : List Int} (hs : SliceOf w r f f' ix)
    {path : List Str} {func : Str} {arg : PExpr} {intFill : V} {c : LCol V} (hc : (E.aggregate ev w r path func arg intFill).2 = .ok c) :
    (E.aggregate ev (w.push f') w.frames.length path func arg intFill).2 = .ok ⟨c.kind, pick c.vals ix⟩ := by
  unfold LEnv.aggregate at hc ⊢
  cases hw : w.walk r path [] with
  | error e => rw [hw] at hc; simp at hc
  | ok p =>
    obtain ⟨l, hist⟩ := p
    obtain ⟨n, h0, l0, l', rfl, hw', hl0, ho, hn, hgr, hlt, hone⟩ := hs.walk hg hw
    rw [hw] at hc
    rw [hw']
    simp only at hc ⊢
    obtain ⟨ns', n', q', h', -, -, hlq, hhist⟩ := walk_trail hw
    have hlo := (hg.link_lt hlq).2.1
    rw [ho, hn, push_frames_lt hlo]
    cases hgg : w.frames[l.other]? with
    | none => rw [hgg] at hc; simp at hc
    | some g =>
      rw [hgg] at hc
      simp only at hc ⊢
      cases hnd : l.node with
      | leaf => rw [hnd] at hc; simp at hc
      | node => rw [hnd] at hc; simp at hc
      | aggr =>
        rw [hnd] at hc
        simp only at hc ⊢
        split at hc
        · simp at hc
        · rename_i hfn
          rw [if_neg hfn, hep w f' l.other arg hg hlo]
          obtain ⟨hk1, -⟩ := hev w l.other arg hg
          rcases hea : ev w l.other arg with ⟨w1, e | cc⟩
          · rw [hea] at hc; simp at hc
          · rw [hea] at hc hk1
            simp only at hc hk1 ⊢
            split at hc
            · simp at hc
            · rename_i h1
              rw [if_neg h1]
              split at hc
              · simp at hc
              · rename_i h2
                rw [if_neg h2]
                have hrow : w1.frames[r]?.elim 0 LFrame.rows = f.rows := by rw [hk1.1.rows, hs.frame]; rfl
                rw [hrow] at hc
                have hfin : ∀ (gr gr' : Option (List Int)), gr' = gr →
                    (match gr with
                      | none => (w1, (.error .type : Except Err (LCol V)))
                      | some codes => if codes.length ≠ cc.vals.length then (w1, .error .value)
                        else asSeries f.rows (E.aggKind func cc.kind)
                          (E.resolve (E.aggKind func cc.kind) (if cc.kind.intLike then intFill else E.nan) w1 (h0 ++ [(r, n)])
                            (E.reduce func cc.kind codes cc.vals))).2 = .ok c →
                    (match gr' with
                      | none => (w1.push f', (.error .type : Except Err (LCol V)))
                      | some codes => if codes.length ≠ cc.vals.length then (w1.push f', .error .value)
                        else asSeries ((w1.push f').frames[w.frames.length]?.elim 0 LFrame.rows) (E.aggKind func cc.kind)
                          (E.resolve (E.aggKind func cc.kind) (if cc.kind.intLike then intFill else E.nan) (w1.push f') (h0 ++ [(w.frames.length, n)])
                            (E.reduce func cc.kind codes cc.vals))).2 = .ok ⟨c.kind, pick c.vals ix⟩ := by
                  intro gr gr' he hh
                  subst he
                  cases gr' with
                  | none => simp at hh
                  | some codes =>
                    simp only at hh ⊢
                    split at hh
                    · simp at hh
                    · rename_i h3
                      rw [if_neg h3, hs.rows w1 (keeps_length hk1)]
                      exact asSeries_pick hh hs.range fun out hout => hs.resolve hg hk1 hl0 hlt hout
                refine hfin _ _ ?_ hc
                cases h0 with
                | nil =>
                  obtain ⟨hp, rfl⟩ := hone rfl
                  simp only [List.nil_append]
                  -- the slice's own grouper, and the frame's after evaluation
                  have hag : l.agg = true := by
                    unfold Link.node at hnd
                    split at hnd
                    · assumption
                    · split at hnd <;> simp at hnd
                  obtain ⟨fl, lx, q1, q2, -, -, -⟩ := hs.link.2 l hl0
                  obtain ⟨l1, hl1, hf1⟩ := hk1.2.2 r n l hl0 (by rw [q1]; rfl)
                  obtain ⟨l1', hl1', hcm⟩ := hk1.1.link_some hl0
                  rw [hl1] at hl1'
                  obtain rfl := Option.some.inj hl1'
                  obtain ⟨fa, ga, ksa, koa, hfa, -, hoka⟩ := hg.linkOk hl0
                  obtain ⟨fb, gb, ksb, kob, hfb, -, hokb⟩ := hk1.2.1.linkOk hl1
                  have e1 : l1.other = l.other := congrArg (fun x => x.other) hcm
                  have e2 : l1.agg = l.agg := congrArg (fun x => x.agg) hcm
                  have e4 : l1.otherSpec = l.otherSpec := congrArg (fun x => x.otherSpec) hcm
                  obtain ⟨g3', hg3', hsg⟩ := hk1.1.frame hoka.target
                  have hge : gb = g3' := by have := hokb.target; rw [e1, hg3'] at this; exact (Option.some.inj this).symm
                  subst hge
                  have hko : kob = koa := by have := hokb.oth; rw [e4, hsg.keys, hoka.oth] at this; simpa using this.symm
                  subst hko
                  obtain ⟨cb, hcb⟩ := Option.isSome_iff_exists.mp (hokb.grouped (e2.trans hag) hf1)
                  obtain ⟨ca, hca⟩ := Option.isSome_iff_exists.mp (hoka.grouped hag (by rw [q1]; rfl))
                  have hll : (w1.push f').link? w.frames.length n = some l' := by
                    have h3' : (w1.push f').frames[w.frames.length]? = some f' := by rw [← keeps_length hk1]; exact push_new w1 f'
                    rw [hp, LWorld.walk] at hw'
                    cases hq : (w.push f').link? w.frames.length n with
                    | none => rw [hq] at hw'; simp at hw'
                    | some ly =>
                      rw [hq] at hw'
                      simp only [List.nil_append, Except.ok.injEq, Prod.mk.injEq, and_true] at hw'
                      subst hw'
                      unfold LWorld.link? at hq ⊢
                      rw [push_new] at hq
                      rw [h3']
                      exact hq
                  rw [hll, hl1]
                  simp only [Option.bind_some]
                  rw [hgr, hca, hcb, hoka.grouper ca hca, hokb.grouper cb hcb]
                | cons p h0 =>
                  simp only [List.cons_append]
                  rw [push_link? (by rw [keeps_length hk1]; exact hlt p List.mem_cons_self)]

end Cheval
