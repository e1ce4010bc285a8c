import Verif.Props.LdfRefresh

/-!
# C49: what `compute_indexers(refresh=True)` gives after an earlier lookup
-/
namespace Cheval
variable {V : Type} [DecidableEq V] {E : LEnv V} {isid : Str → Bool}
  {ev : LWorld V → Nat → PExpr → LWorld V × Except Err (LCol V)}

/-- `precompute` reads keys only -/
theorem precompute_congr {w w' : LWorld V} (hk : ∀ q s, w'.keys q s = w.keys q s) (l : Link) : E.precompute w' l = E.precompute w l := by
  unfold LEnv.precompute
  rw [hk, hk]

/-- the loop of `compute_indexers(refresh=True)` recomputes every link of the frame, one by one, keeping what it does not compute -/
theorem computeLinks_each (r : Nat) : ∀ (ns : List Str) {w : LWorld V}, (∀ f ∈ w.frames, (f.links.map (·.1)).Nodup) → ns.Nodup →
    (∀ n ∈ ns, ∃ l l1, w.link? r n = some l ∧ E.precompute w l = .ok l1 ∧ l1.copyMeta = l.copyMeta) →
    ∃ w', E.computeLinks true r w ns = (w', .ok ()) ∧ CacheOnly w w' ∧
      (∀ n ∈ ns, ∀ l l1, w.link? r n = some l → E.precompute w l = .ok l1 → w'.link? r n = some l1) ∧
      (∀ n, n ∉ ns → w'.link? r n = w.link? r n)
  | [], w, _, _, _ => ⟨w, rfl, CacheOnly.refl w, by simp, fun _ _ => rfl⟩
  | n :: ns, w, hnd, hns, hl => by
    obtain ⟨l, l1, h1, h2, h3⟩ := hl n List.mem_cons_self
    rw [List.nodup_cons] at hns
    have hco := setLink_cacheOnly h1 h3 hnd
    have hnd' : ∀ f ∈ (w.setLink r n l1).frames, (f.links.map (·.1)).Nodup := by
      intro f hf
      obtain ⟨i, hi⟩ := List.getElem?_of_mem hf
      obtain ⟨f0, hf0, hs⟩ := hco.symm.frame hi
      rw [← hs.names]
      exact hnd f0 (List.mem_of_getElem? hf0)
    have hne : ∀ m, m ≠ n → (w.setLink r n l1).link? r m = w.link? r m := fun m hm => by
      rw [link?_setLink_of_ne]
      rintro ⟨-, rfl⟩
      exact hm rfl
    have hpre : ∀ x, E.precompute (w.setLink r n l1) x = E.precompute w x := precompute_congr fun q s => hco.keys q s
    obtain ⟨w', e1, e2, e3, e4⟩ := computeLinks_each r ns hnd' hns.2 (fun m hm => by
      obtain ⟨a, b, c1, c2, c3⟩ := hl m (List.mem_cons_of_mem _ hm)
      refine ⟨a, b, ?_, by rw [hpre]; exact c2, c3⟩
      rw [hne m (fun he => hns.1 (he ▸ hm))]
      exact c1)
    refine ⟨w', ?_, hco.trans e2, ?_, ?_⟩
    · rw [LEnv.computeLinks, h1]
      simp only [Bool.true_or, if_true]
      rw [h2]
      exact e1
    · intro m hm a b ha hb
      rcases List.mem_cons.mp hm with rfl | hm
      · rw [h1] at ha
        cases ha
        rw [h2] at hb
        cases hb
        rw [e4 m hns.1]
        exact link?_setLink h1
      · refine e3 m hm a b ?_ (by rw [hpre]; exact hb)
        rw [hne m (fun he => hns.1 (he ▸ hm))]
        exact ha
    · intro m hm
      simp only [List.mem_cons, not_or] at hm
      rw [e4 m hm.2, hne m hm.1]

/-- `putAll` writes one value at the given positions -/
theorem putAll_get {A : Type} {v : A} : ∀ {ps : List Nat} {a : List A}, (∀ p ∈ ps, p < a.length) →
    ∃ c, putAll a ps v = .ok c ∧ c.length = a.length ∧ ∀ i : Nat, c[i]? = if i ∈ ps then some v else a[i]? := by
  intro ps a h
  refine ⟨ps.foldl (fun b p => b.set p v) a, by simp [putAll]; exact h, ?_⟩
  induction ps generalizing a with
  | nil => simp
  | cons p ps ih =>
    have hp := h p List.mem_cons_self
    obtain ⟨h1, h2⟩ := ih (a := a.set p v) (fun q hq => by rw [List.length_set]; exact h q (List.mem_cons_of_mem _ hq))
    refine ⟨by simpa using h1, fun i => ?_⟩
    rw [List.foldl_cons, h2 i]
    by_cases hi : i ∈ ps
    · simp [hi]
    · by_cases hip : i = p
      · subst hip; simp [hi, hp]
      · simp [hi, hip, Ne.symm hip]

theorem getIndexer_neg {L : Type} [DecidableEq L] {a b : List L} {j : Nat} {x : L} (hj : b[j]? = some x) :
    (getIndexer a b)[j]? = some (-1) ↔ x ∉ a := by
  simp only [getIndexer, List.getElem?_map, hj, Option.map_some, Option.some.injEq]
  by_cases hx : x ∈ a
  · simp only [hx, if_true, not_true, iff_false]
    intro h
    omega
  · simp [hx]

theorem indexerMissing_caches {w : LWorld V} {r : Nat} {n : Str} {w1 : LWorld V} {x : List Int × List Nat}
    (h : E.indexerMissing w r n = (w1, .ok x)) : ∃ l m, w1.link? r n = some l ∧ l.missing = some m := by
  unfold LEnv.indexerMissing at h
  cases hl : w.link? r n with
  | none => rw [hl] at h; simp at h
  | some l =>
    rw [hl] at h
    simp only at h
    split at h
    · simp at h
    · split at h
      · simp at h
      · simp only [Prod.mk.injEq, Except.ok.injEq] at h
        obtain ⟨rfl, -⟩ := h
        exact ⟨_, _, link?_setLink hl, rfl⟩

/-- after a successful lookup over a link its list of missing rows is cached -/
theorem lookup_caches {w : LWorld V} {r : Nat} {n col : Str} {c : LCol V} (h : (E.lookup w r [n] col).2 = .ok c) :
    ∃ l m, (E.lookup w r [n] col).1.link? r n = some l ∧ l.missing = some m := by
  unfold LEnv.lookup at h ⊢
  cases hl : w.link? r n with
  | none => simp [LWorld.walk, hl] at h
  | some l =>
    simp only [LWorld.walk, hl] at h ⊢
    have key : ∀ (k : DKind) (x : V) (a : List V) (N : Nat), (asSeries N k (E.resolve k x w [(r, n)] a)).2 = .ok c →
        ∃ l m, (asSeries N k (E.resolve k x w [(r, n)] a)).1.link? r n = some l ∧ l.missing = some m := by
      intro k x a N hk
      rw [LEnv.resolve] at hk ⊢
      rcases hi : E.indexerMissing w r n with ⟨w1, e | ⟨fl, m⟩⟩
      · rw [hi] at hk; simp [asSeries] at hk
      · have := indexerMissing_caches hi
        simp only
        cases takeInts a fl with
        | error e => exact this
        | ok b =>
          simp only
          cases E.store k x with
          | error e => exact this
          | ok v =>
            simp only
            cases putAll b m v with
            | error e => exact this
            | ok d => exact this
    cases hg : w.frames[l.other]? with
    | none => rw [hg] at h; simp at h
    | some g =>
      rw [hg] at h
      simp only at h ⊢
      cases hn : l.node with
      | aggr => rw [hn] at h; simp at h
      | leaf =>
        rw [hn] at h
        simp only at h ⊢
        cases hc : dictGet g.cols col with
        | none => rw [hc] at h; simp at h
        | some cc => rw [hc] at h; exact key _ _ _ _ h
      | node =>
        rw [hn] at h
        simp only at h ⊢
        split at h
        · simp at h
        · rename_i hcol
          rw [if_neg hcol]
          cases hc : dictGet g.cols col with
          | none => rw [hc] at h; simp at h
          | some cc => rw [hc] at h; exact key _ _ _ _ h

/-- what `precompute` stores, from the keys alone -/
theorem precompute_keys {w : LWorld V} {l : Link} {ks ko : List (List V)} (h1 : w.keys l.owner l.selfSpec = .ok ks)
    (h2 : w.keys l.other l.otherSpec = .ok ko) (h3 : l.agg = false → ko.Nodup) :
    E.precompute w l = .ok { l with flat := some (getIndexer (E.base l ko) ks), grouper := if l.agg then some (E.codes ko) else l.grouper } := by
  unfold LEnv.precompute
  rw [h1, h2]
  simp only [LEnv.makeIndexer, LEnv.base]
  by_cases ha : l.agg = true
  · simp [ha]
  · have ha' : l.agg = false := by simpa using ha
    simp only [ha', Bool.false_eq_true, if_false]
    by_cases he : ks = ko
    · subst he
      rw [if_pos rfl, getIndexer_self (h3 ha')]
    · rw [if_neg he, if_pos (h3 ha')]

/-- replacing a column keeps frames rectangular -/
theorem setColumn_wf {f : LFrame V} (hw : f.Wf) {col : Str} {c : LCol V} (hlen : c.vals.length = f.rows) (hnl : col ∉ f.links.map (·.1)) :
    ({ f with cols := dictSet f.cols col c } : LFrame V).Wf := by
  refine ⟨hw.index, ?_, ?_, hw.nodup, hw.plain⟩
  · intro e he
    rcases mem_dictSet.mp he with rfl | ⟨h1, -⟩
    · exact hlen
    · exact hw.cols e h1
  · intro n hn
    simp only at hn ⊢
    rw [dictSet_keys]
    rintro (rfl | h1)
    · exact hnl hn
    · exact hw.noClash n hn h1

/-- C49, what happens instead: let a lookup over a link have succeeded, then let a column of the frame be replaced - a key column, say - and
let `compute_indexers(refresh=True)` be called. From then on a lookup over the link gives row `i`: the fill value if the OLD key of the row
had no match, whatever the new key is; otherwise the value of the row the NEW key matches; and if the new key matches nothing, the LAST value
of the target's column. -/
theorem C49_cached_effect (hev : EvKeeps E ev) {ops : List (LOp V)} (hs : SafeRun E isid ev E.start ops) {w : LWorld V}
    (hw : w = lrun E isid ev E.start ops) {r : Nat} {f : LFrame V} (hf : w.frames[r]? = some f) (hlin : f.linked = true) {col : Str} {c : LCol V}
    (hlen : c.vals.length = f.rows) (hnl : col ∉ f.links.map (·.1)) (hown : ∀ e ∈ f.links, e.2.owner = r)
    (hself : ∀ e ∈ f.links, e.2.other = r → col ∉ e.2.otherSpec.columns)
    {name cl0 : Str} {c0 : LCol V} (hc0 : (E.lookup w r [name] cl0).2 = .ok c0) :
    ∃ w0 w1 w2, lstep E isid ev w (.lookup r [name] cl0) = (w0, .ok (.series c0)) ∧
      lstep E isid ev w0 (.setColumn r col c) = (w1, .ok .unit) ∧ lstep E isid ev w1 (.computeIndexers r true) = (w2, .ok .unit) ∧
      (∃ f2, w2.frames[r]? = some f2 ∧ f2.cols = dictSet f.cols col c ∧ f2.index = f.index) ∧
      ∀ l g cl cc v, w2.link? r name = some l → l.agg = false → w2.frames[l.other]? = some g → dictGet g.cols cl = some cc →
        E.store cc.kind (w2.fillFor g cl cc.kind) = .ok v → g.rows ≠ 0 →
        ∃ out, (E.lookup w2 r [name] cl).2 = .ok ⟨cc.kind, out⟩ ∧ out.length = f.rows ∧
          ∀ i, i < f.rows → ∃ k k', w.keyAt r l.selfSpec i = some k ∧ w2.keyAt r l.selfSpec i = some k' ∧
            ((∀ j, g.keyAt l.otherSpec j ≠ some k) → out[i]? = some v) ∧
            (∀ j0, g.keyAt l.otherSpec j0 = some k →
              (∀ j, g.keyAt l.otherSpec j = some k' → out[i]? = cc.vals[j]?) ∧
              ((∀ j, g.keyAt l.otherSpec j ≠ some k') → out[i]? = cc.vals.getLast?)) := by
  have h : LGood E w := by rw [hw]; exact good_run hev LGood.start hs
  have hkeep := lookup_keeps h r [name] cl0
  rcases hw0 : E.lookup w r [name] cl0 with ⟨w0, x⟩
  rw [hw0] at hc0 hkeep
  simp only at hc0
  subst hc0
  refine ⟨w0, ?_⟩
  have hca := lookup_caches (E := E) (w := w) (r := r) (n := name) (col := cl0) (c := c0) (by rw [hw0])
  rw [hw0] at hca
  simp only at hca
  obtain ⟨hco0, h0, -⟩ := hkeep
  obtain ⟨f0, hf0, hs0⟩ := hco0.frame hf
  have hcols0 : f0.cols = f.cols := by rw [hs0.1]
  have hix0 : f0.index = f.index := by rw [hs0.1]
  have hrows0 : f0.rows = f.rows := by unfold LFrame.rows; rw [hix0]
  have hlin0 : f0.linked = true := by rw [hs0.1]; exact hlin
  have hnl0 : col ∉ f0.links.map (·.1) := by rw [hs0.names]; exact hnl
  have hmem0 : ∀ e ∈ f0.links, e.2.owner = r ∧ (e.2.other = r → col ∉ e.2.otherSpec.columns) := by
    intro e he
    have : (e.1, e.2.copyMeta) ∈ f0.links.map fun e => (e.1, e.2.copyMeta) := List.mem_map_of_mem (f := fun e : Str × Link => (e.1, e.2.copyMeta)) he
    rw [hs0.2] at this
    obtain ⟨e', he', heq⟩ := List.mem_map.mp this
    simp only [Prod.mk.injEq] at heq
    have a1 : e'.2.owner = e.2.owner := congrArg (fun x => x.owner) heq.2
    have a2 : e'.2.other = e.2.other := congrArg (fun x => x.other) heq.2
    have a3 : e'.2.otherSpec = e.2.otherSpec := congrArg (fun x => x.otherSpec) heq.2
    exact ⟨a1 ▸ hown e' he', fun ho => a3 ▸ hself e' he' (a2.trans ho)⟩
  have hwf0 := h0.wf f0 (List.mem_of_getElem? hf0)
  set w1 := w0.setFrame r fun f => { f with cols := dictSet f.cols col c } with hw1
  have hfr : w1.frames[r]? = some { f0 with cols := dictSet f0.cols col c } := setFrame_self hf0 _
  have hother : ∀ q, q ≠ r → w1.frames[q]? = w0.frames[q]? := fun q hq => by rw [hw1, setFrame_other hq]
  have hwf1 : ∀ x ∈ w1.frames, x.Wf := by
    intro x hx
    obtain ⟨q, hq⟩ := List.getElem?_of_mem hx
    by_cases hqr : q = r
    · subst hqr
      rw [hfr] at hq
      cases hq
      exact setColumn_wf hwf0 (by rw [hlen, hrows0]) hnl0
    · rw [hother q hqr] at hq
      exact h0.wf x (List.mem_of_getElem? hq)
  -- the links of the frame before the refresh
  have hlk : ∀ n l, w0.link? r n = some l → w1.link? r n = some l ∧ ∃ ks ks' ko, f0.keys l.selfSpec = .ok ks ∧ w1.keys r l.selfSpec = .ok ks' ∧
      w0.keys l.other l.otherSpec = .ok ko ∧ w1.keys l.other l.otherSpec = .ok ko ∧ l.owner = r ∧ (l.agg = false → ko.Nodup) ∧ (∀ m, l.missing = some m → m = missingOf (getIndexer (E.base l ko) ks)) ∧
      (∀ g, w1.frames[l.other]? = some g → l.chained = g.linked) := by
    intro n l hl
    obtain ⟨f0', g, ks, ko, hf0', hl', hk⟩ := h0.linkOk hl
    rw [hf0] at hf0'
    cases hf0'
    obtain ⟨ho1, ho2⟩ := hmem0 (n, l) (dictGet_mem hl')
    obtain ⟨ks', hks'⟩ := keys_setColumn hk.self hnl0 c
    refine ⟨?_, ks, ks', ko, hk.self, ?_, ?_, ?_, ho1, hk.uniq, ?_, ?_⟩
    · unfold LWorld.link?; rw [hfr]; exact hl'
    · unfold LWorld.keys; rw [hfr]; exact hks'
    · unfold LWorld.keys; rw [hk.target]; exact hk.oth
    · unfold LWorld.keys
      by_cases ho : l.other = r
      · have ht := hk.target
        rw [ho, hf0] at ht
        cases ht
        rw [ho, hfr]
        refine (keys_of_columns (f := f0) (f' := { f0 with cols := dictSet f0.cols col c }) rfl rfl ?_).trans hk.oth
        intro m hm
        have : m ≠ col := fun he => ho2 ho (he ▸ hm)
        exact ⟨by simp [dictGet_dictSet, this], Iff.rfl⟩
      · rw [hother _ ho, hk.target]; exact hk.oth
    · intro m hm
      obtain ⟨fl, e1, e2⟩ := hk.missing m hm
      rw [e2, hk.flat fl e1]
    · intro g' hg'
      by_cases ho : l.other = r
      · have ht := hk.target
        rw [ho, hf0] at ht
        cases ht
        rw [ho, hfr] at hg'
        cases hg'
        exact hk.chained
      · rw [hother _ ho, hk.target] at hg'
        cases hg'
        exact hk.chained
  have hnames : ({ f0 with cols := dictSet f0.cols col c } : LFrame V).links.map (·.1) = f0.links.map (·.1) := rfl
  obtain ⟨w2, e1, e2, e3, -⟩ := computeLinks_each (E := E) r (f0.links.map (·.1)) (w := w1) (fun x hx => (hwf1 x hx).nodup) hwf0.nodup (fun n hn => by
    obtain ⟨e, he, rfl⟩ := List.mem_map.mp hn
    have hl : w0.link? r e.1 = some e.2 := by
      unfold LWorld.link?
      rw [hf0]
      exact dictGet_of_nodup hwf0.nodup he
    obtain ⟨b1, ks, ks', ko, b2, b3, -, b4, b5, b6, -⟩ := hlk _ _ hl
    exact ⟨e.2, _, b1, precompute_keys (by rw [b5]; exact b3) b4 b6, rfl⟩)
  obtain ⟨f2, hf2, hs2⟩ := e2.frame hfr
  have hrow2 : w2.rows r = f.rows := by
    have : w2.rows r = w1.rows r := e2.rows r
    rw [this, LWorld.rows, hfr]
    exact hrows0
  refine ⟨w1, w2, ?_, ?_, ?_, ⟨f2, hf2, by rw [hs2.1]; simp [hcols0], by rw [hs2.1]; exact hix0⟩, ?_⟩
  · simp [lstep, hw0, Except.map]
  · simp [lstep, LWorld.setColumn, hf0, hlen, hrows0, hw1, Except.map]
  · simp only [lstep, LEnv.computeIndexers, hfr, hlin0, Bool.not_true, Bool.false_eq_true, if_false]
    rw [e1]
    rfl
  · intro l g cl cc v hl ha hg hc hv hne
    obtain ⟨l0, m, hl0, hm0⟩ := hca
    obtain ⟨b1, ks, ks', ko, b2, b3, b0, b4, b5, b6, b7, b8⟩ := hlk _ _ hl0
    have hmem : name ∈ f0.links.map (·.1) := by
      unfold LWorld.link? at hl0
      rw [hf0] at hl0
      exact List.mem_map_of_mem (f := fun e : Str × Link => e.1) (dictGet_mem hl0)
    have hl2 := e3 name hmem l0 _ b1 (precompute_keys (by rw [b5]; exact b3) b4 b6)
    rw [hl] at hl2
    cases hl2
    simp only at ha hg ⊢
    have hbase : E.base l0 ko = ko := by simp [LEnv.base, ha]
    have hmm := b7 m hm0
    rw [hbase] at hmm hl
    obtain ⟨g1, hg1, hsg⟩ := e2.symm.frame hg
    have hchain : l0.chained = g.linked := by rw [b8 g1 hg1, hsg.1]
    have hgwf : g.Wf := by
      obtain ⟨g3, hg3, hsg3⟩ := e2.frame hg1
      rw [hg] at hg3
      cases hg3
      exact hsg3.wf (hwf1 g1 (List.mem_of_getElem? hg1))
    have hcl : cl ∉ g.links.map (·.1) := fun hx => hgwf.noClash cl hx (List.mem_map_of_mem (f := fun e : Str × LCol V => e.1) (dictGet_mem hc))
    have hkeyso : g.keys l0.otherSpec = .ok ko := by
      have := e2.keys l0.other l0.otherSpec
      rw [b4] at this
      unfold LWorld.keys at this
      rw [hg] at this
      exact this
    obtain ⟨hko1, hko2⟩ := keys_ok hgwf hkeyso
    have hf2wf : f2.Wf := hs2.wf (hwf1 _ (List.mem_of_getElem? hfr))
    have hks2 : f2.keys l0.selfSpec = .ok ks' := by
      have := e2.keys r l0.selfSpec
      rw [b3] at this
      unfold LWorld.keys at this
      rw [hf2] at this
      exact this
    obtain ⟨hks1, hks3⟩ := keys_ok hf2wf hks2
    obtain ⟨hk01, hk02⟩ := keys_ok hwf0 b2
    have hcvl : cc.vals.length = ko.length := by rw [hko1]; exact hgwf.cols _ (dictGet_mem hc)
    have hkone : ko ≠ [] := fun he => hne (by rw [← hko1, he]; rfl)
    have hf2rows : f2.rows = f.rows := by
      have := hrow2
      rw [LWorld.rows, hf2] at this
      exact this
    obtain ⟨b, hb⟩ := (takeInts_getIndexer_iff (a := cc.vals) (ks := ks') hcvl).mpr (.inl hkone)
    have hbl := (takeInts_ok hb).1
    rw [getIndexer_length, hks1, hf2rows] at hbl
    obtain ⟨out, hput, hol, hog⟩ := putAll_get (v := v) (ps := m) (a := b) (by
      intro p hp
      rw [hmm, mem_missingOf] at hp
      have := (List.getElem?_eq_some_iff.mp hp).1
      rw [getIndexer_length, hk01, hrows0] at this
      rw [hbl]
      exact this)
    refine ⟨out, ?_, by rw [hol, hbl], ?_⟩
    · have hunf : E.lookup w2 r [name] cl = asSeries (w2.rows r) cc.kind (E.resolve cc.kind (w2.fillFor g cl cc.kind) w2 [(r, name)] cc.vals) := by
        unfold LEnv.lookup
        simp only [LWorld.walk, hl]
        simp only [hg]
        unfold LWorld.fillFor Link.node
        simp only
        rw [ha, hchain]
        cases hlk : g.linked with
        | false => simp [hc, LWorld.rows]
        | true => simp only [Bool.false_eq_true, if_false, if_true, if_neg hcl, hc, LWorld.rows]
      have hres : (E.resolve cc.kind (w2.fillFor g cl cc.kind) w2 [(r, name)] cc.vals).2 = .ok out := by
        rw [LEnv.resolve]
        simp only [LEnv.indexerMissing, hl, Option.isSome_some, if_true, hm0, Option.getD_some]
        rw [hb, hv]
        simp only
        rw [hput]
        rfl
      rw [hunf]
      rcases hx : E.resolve cc.kind (w2.fillFor g cl cc.kind) w2 [(r, name)] cc.vals with ⟨w3, y⟩
      rw [hx] at hres
      simp only at hres
      subst hres
      simp [asSeries, hrow2, hol, hbl]
    · intro i hi
      have hki : ks[i]? = some (ks[i]'(by rw [hk01, hrows0]; exact hi)) := List.getElem?_eq_getElem _
      have hki' : ks'[i]? = some (ks'[i]'(by rw [hks1, hf2rows]; exact hi)) := List.getElem?_eq_getElem _
      generalize ks[i]'(by rw [hk01, hrows0]; exact hi) = k at hki
      generalize ks'[i]'(by rw [hks1, hf2rows]; exact hi) = k' at hki'
      have hmi : i ∈ m ↔ k ∉ ko := by rw [hmm, mem_missingOf]; exact getIndexer_neg hki
      have hin : ∀ x, x ∉ ko ↔ ∀ j, g.keyAt l0.otherSpec j ≠ some x := by
        intro x
        constructor
        · intro hx j hj
          rw [← hko2] at hj
          exact hx (List.mem_of_getElem? hj)
        · intro hx hxm
          obtain ⟨j, hj⟩ := List.getElem?_of_mem hxm
          rw [hko2] at hj
          exact hx j hj
      refine ⟨k, k', ?_, ?_, ?_, ?_⟩
      · have := hk02 i
        rw [hki, hs0.keyAt] at this
        simp [LWorld.keyAt, hf, ← this]
      · have := hks3 i
        rw [hki'] at this
        simp [LWorld.keyAt, hf2, ← this]
      · intro hno
        rw [hog, if_pos (hmi.mpr ((hin k).mpr hno))]
      · intro j0 hj0
        have hkm : k ∈ ko := by rw [← hko2] at hj0; exact List.mem_of_getElem? hj0
        rw [hog, if_neg (fun hx => hmi.mp hx hkm)]
        have hbi := congrArg (fun a : List (Option V) => a[i]?) (takeInts_iff.mp hb)
        simp only [List.getElem?_map, getIndexer, hki', Option.map_some] at hbi
        refine ⟨fun j hj => ?_, fun hno => ?_⟩
        · rw [← hko2] at hj
          have := (applyIx_get (a := cc.vals) (v := v) hcvl hki').1 j (b6 ha) hj
          have hkm' := List.mem_of_getElem? hj
          rw [if_pos hkm'] at hbi
          have hnm : i ∉ missingOf (getIndexer ko ks') := by
            rw [mem_missingOf, getIndexer_neg hki']
            exact fun hx => hx hkm'
          have hp := take_put (v := v) (hcvl ▸ getIndexer_positions ko ks') hb
          obtain ⟨d, hd1, -, hd3⟩ := putAll_get (v := v) (ps := missingOf (getIndexer ko ks')) (a := b) (by
            intro p hp'
            rw [mem_missingOf] at hp'
            have := (List.getElem?_eq_some_iff.mp hp').1
            rw [getIndexer_length, hks1, hf2rows] at this
            rw [hbl]; exact this)
          rw [hp] at hd1
          cases hd1
          rw [hd3 i, if_neg hnm] at this
          exact this
        · rw [if_neg ((hin k').mpr hno)] at hbi
          have htk : takeAt cc.vals.length (-1) = some (cc.vals.length - 1) := by
            have : 0 < cc.vals.length := by rw [hcvl]; exact List.length_pos_iff.mpr hkone
            unfold takeAt
            rw [if_neg (by omega), if_pos (by omega)]
            congr 1
            omega
          rw [htk, Option.bind_some, ← List.getLast?_eq_getElem?] at hbi
          cases hbv : b[i]? with
          | none => rw [hbv] at hbi; simp at hbi
          | some z => rw [hbv] at hbi; simpa using hbi.symm

/-- so the refresh is right exactly for the rows that had a match before and have one now, or had none and have none - unless the values
happen to agree -/
theorem C49_cached_right (hev : EvKeeps E ev) {ops : List (LOp V)} (hs : SafeRun E isid ev E.start ops) {w : LWorld V}
    (hw : w = lrun E isid ev E.start ops) {r : Nat} {f : LFrame V} (hf : w.frames[r]? = some f) (hlin : f.linked = true) {col : Str} {c : LCol V}
    (hlen : c.vals.length = f.rows) (hnl : col ∉ f.links.map (·.1)) (hown : ∀ e ∈ f.links, e.2.owner = r)
    (hself : ∀ e ∈ f.links, e.2.other = r → col ∉ e.2.otherSpec.columns)
    {name cl0 : Str} {c0 : LCol V} (hc0 : (E.lookup w r [name] cl0).2 = .ok c0) :
    ∃ w0 w1 w2, lstep E isid ev w (.lookup r [name] cl0) = (w0, .ok (.series c0)) ∧
      lstep E isid ev w0 (.setColumn r col c) = (w1, .ok .unit) ∧ lstep E isid ev w1 (.computeIndexers r true) = (w2, .ok .unit) ∧
      ∀ l g cl cc v, w2.link? r name = some l → l.agg = false → w2.frames[l.other]? = some g → dictGet g.cols cl = some cc →
        E.store cc.kind (w2.fillFor g cl cc.kind) = .ok v → g.rows ≠ 0 →
        ∃ out, (E.lookup w2 r [name] cl).2 = .ok ⟨cc.kind, out⟩ ∧ out.length = f.rows ∧
          ∀ i, i < f.rows → ∃ k k', w.keyAt r l.selfSpec i = some k ∧ w2.keyAt r l.selfSpec i = some k' ∧
            (((∃ j, g.keyAt l.otherSpec j = some k) ↔ ∃ j, g.keyAt l.otherSpec j = some k') →
              (∀ j, g.keyAt l.otherSpec j = some k' → out[i]? = cc.vals[j]?) ∧
              ((∀ j, g.keyAt l.otherSpec j ≠ some k') → out[i]? = some v)) := by
  obtain ⟨w0, w1, w2, e1, e2, e3, -, e4⟩ := C49_cached_effect hev hs hw hf hlin hlen hnl hown hself hc0
  refine ⟨w0, w1, w2, e1, e2, e3, fun l g cl cc v hl ha hg hc hv hne => ?_⟩
  obtain ⟨out, o1, o2, o3⟩ := e4 l g cl cc v hl ha hg hc hv hne
  refine ⟨out, o1, o2, fun i hi => ?_⟩
  obtain ⟨k, k', h1, h2, h3, h4⟩ := o3 i hi
  refine ⟨k, k', h1, h2, fun hiff => ⟨fun j hj => ?_, fun hno => ?_⟩⟩
  · obtain ⟨j0, hj0⟩ := hiff.mpr ⟨j, hj⟩
    exact (h4 j0 hj0).1 j hj
  · refine h3 fun j hj => ?_
    obtain ⟨j', hj'⟩ := hiff.mp ⟨j, hj⟩
    exact hno j' hj'

/-- C49, without the refresh: once a link was followed, replacing columns of its frame - key columns too - changes no lookup over it -/
theorem C49_unrefreshed (hev : EvKeeps E ev) {ops : List (LOp V)} (hs : SafeRun E isid ev E.start ops) {w : LWorld V}
    (hw : w = lrun E isid ev E.start ops) {r : Nat} {f : LFrame V} (hf : w.frames[r]? = some f) {col : Str} {c : LCol V}
    (hlen : c.vals.length = f.rows) {name cl0 : Str} {c0 : LCol V} (hc0 : (E.lookup w r [name] cl0).2 = .ok c0)
    (hfar : ∀ l, w.link? r name = some l → l.other ≠ r) :
    ∃ w0 w1, lstep E isid ev w (.lookup r [name] cl0) = (w0, .ok (.series c0)) ∧
      lstep E isid ev w0 (.setColumn r col c) = (w1, .ok .unit) ∧ (E.lookup w1 r [name] cl0).2 = .ok c0 ∧
      ∀ cl, (E.lookup w1 r [name] cl).2 = (E.lookup w0 r [name] cl).2 := by
  have h : LGood E w := by rw [hw]; exact good_run hev LGood.start hs
  have hkeep := lookup_keeps h r [name] cl0
  rcases hw0 : E.lookup w r [name] cl0 with ⟨w0, x⟩
  rw [hw0] at hc0 hkeep
  simp only at hc0
  subst hc0
  have hca := lookup_caches (E := E) (w := w) (r := r) (n := name) (col := cl0) (c := c0) (by rw [hw0])
  rw [hw0] at hca
  simp only at hca
  obtain ⟨hco0, h0, -⟩ := hkeep
  obtain ⟨f0, hf0, hs0⟩ := hco0.frame hf
  have hrows0 : f0.rows = f.rows := by unfold LFrame.rows; rw [show f0.index = f.index by rw [hs0.1]]
  obtain ⟨l, m, hl, hm⟩ := hca
  obtain ⟨f0', g, ks, ko, hf0', hl', hk⟩ := h0.linkOk hl
  rw [hf0] at hf0'
  cases hf0'
  obtain ⟨fl, hfl, -⟩ := hk.missing m hm
  have hne : l.other ≠ r := by
    obtain ⟨l', e1, e2⟩ := hco0.link_some' hl
    rw [show l.other = l'.other from congrArg (fun x => x.other) e2]
    exact hfar l' e1
  generalize hw1 : (w0.setFrame r fun f => { f with cols := dictSet f.cols col c }) = w1
  have hfr : w1.frames[r]? = some { f0 with cols := dictSet f0.cols col c } := by rw [← hw1]; exact setFrame_self hf0 _
  have hl1 : w1.link? r name = some l := by unfold LWorld.link?; rw [hfr]; exact hl'
  have hcf : w1.classFill = w0.classFill := by rw [← hw1]; rfl
  have hall : ∀ cl, (E.lookup w1 r [name] cl).2 = (E.lookup w0 r [name] cl).2 := by
    intro cl
    have hres : ∀ (k : DKind) (x : V) (a : List V) (N : Nat), (asSeries N k (E.resolve k x w1 [(r, name)] a)).2 = (asSeries N k (E.resolve k x w0 [(r, name)] a)).2 := by
      intro k x a N
      have : (E.resolve k x w1 [(r, name)] a).2 = (E.resolve k x w0 [(r, name)] a).2 := by
        rw [LEnv.resolve, LEnv.resolve]
        simp only [LEnv.indexerMissing, hl, hl1, hfl, Option.isSome_some, if_true, hm, Option.getD_some]
        cases takeInts a fl with
        | error e => rfl
        | ok b =>
          simp only
          cases E.store k x with
          | error e => rfl
          | ok v =>
            simp only
            cases putAll b m v with
            | error e => rfl
            | ok d => rfl
      rcases hx : E.resolve k x w1 [(r, name)] a with ⟨a1, b1⟩
      rcases hy : E.resolve k x w0 [(r, name)] a with ⟨a2, b2⟩
      rw [hx, hy] at this
      simp only at this
      subst this
      cases b1 <;> rfl
    unfold LEnv.lookup
    simp only [LWorld.walk, hl, hl1]
    rw [show w1.frames[l.other]? = w0.frames[l.other]? by rw [← hw1, setFrame_other hne], hk.target]
    simp only [hfr, hf0, Option.elim_some, hcf]
    have hr1 : LFrame.rows { f0 with cols := dictSet f0.cols col c } = f0.rows := rfl
    cases l.node with
    | aggr => rfl
    | leaf =>
      simp only
      cases dictGet g.cols cl with
      | none => rfl
      | some cc => exact hres _ _ _ _
    | node =>
      simp only
      split
      · rfl
      · cases dictGet g.cols cl with
        | none => rfl
        | some cc => exact hres _ _ _ _
  refine ⟨w0, w1, by simp [lstep, hw0, Except.map], by simp [lstep, LWorld.setColumn, hf0, hlen, hrows0, hw1, Except.map], ?_, hall⟩
  rw [hall, lookup_cache hco0.symm h0 h, hw0]

/-! ## concrete histories -/

/-- a case: the persons of `lxFresh` look at their households' incomes and then move; the refreshed link serves what `C49_cached_effect` says -/
example : ∃ w2, lrun lxE lxId lxEv lxE.start (lxFresh ++ [.lookup 2 [lxHh] lxInc, lxMove, .computeIndexers 2 true]) = w2 ∧
    lxVals (lxE.lookup w2 2 [lxHh] lxInc) = .ok [5, 7, 7, 0] := by
  obtain ⟨f, hf⟩ := Option.isSome_iff_exists.mp (show ((lrun lxE lxId lxEv lxE.start lxFresh).frames[2]?).isSome = true by decide)
  have hlin : ((lrun lxE lxId lxEv lxE.start lxFresh).frames[2]?).map (·.linked) = some true := by decide
  have hrows : ((lrun lxE lxId lxEv lxE.start lxFresh).frames[2]?).map (·.rows) = some 4 := by decide
  have hnm : ((lrun lxE lxId lxEv lxE.start lxFresh).frames[2]?).map (fun f => decide (lxH ∉ f.links.map (·.1) ∧ (∀ e ∈ f.links, e.2.owner = 2 ∧ e.2.other ≠ 2))) = some true := by decide
  rw [hf] at hlin hrows hnm
  simp only [Option.map_some, Option.some.injEq, decide_eq_true_eq] at hlin hrows hnm
  obtain ⟨w0, w1, w2, e1, e2, e3, -, e4⟩ := C49_cached_effect (isid := lxId) lxEv_keeps (safeRunCheck_ok (ops := lxFresh) (by decide)) rfl hf hlin
    (col := lxH) (c := ⟨.int, [10, 77, 30, 20]⟩) (by rw [hrows]; rfl) hnm.1 (fun e he => (hnm.2 e he).1) (fun e he ho => absurd ho (hnm.2 e he).2)
    (name := lxHh) (cl0 := lxInc) (c0 := ⟨.int, [6, 5, 5, 0]⟩) (by decide)
  have hrun : lrun lxE lxId lxEv lxE.start (lxFresh ++ [.lookup 2 [lxHh] lxInc, lxMove, .computeIndexers 2 true]) = w2 := by
    unfold lrun at e1 ⊢
    rw [List.foldl_append]
    simp only [List.foldl_cons, List.foldl_nil, lxMove]
    rw [e1]
    simp only
    rw [e2]
    simp only
    rw [e3]
  exact ⟨w2, hrun, by rw [← hrun]; decide⟩

end Cheval
