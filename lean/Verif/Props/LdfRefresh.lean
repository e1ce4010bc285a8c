import Verif.Props.LdfLookups
import Verif.Props.LdfFinalize

/-!
# C49: refreshing links
-/
namespace Cheval
variable {V : Type} [DecidableEq V] {E : LEnv V} {isid : Str → Bool}
  {ev : LWorld V → Nat → PExpr → LWorld V × Except Err (LCol V)}

/-- forget the indexers of the links that are not in `S` -/
def eraseFlat (S : List Str) (ls : List (Str × Link)) : List (Str × Link) :=
  ls.map fun e => if e.1 ∈ S then e else (e.1, { e.2 with flat := none })

def LWorld.erase (w : LWorld V) (r : Nat) (S : List Str) : LWorld V := w.setFrame r fun f => { f with links := eraseFlat S f.links }

theorem eraseFlat_names (S : List Str) (ls : List (Str × Link)) : (eraseFlat S ls).map (·.1) = ls.map (·.1) := by
  simp only [eraseFlat, List.map_map]
  apply List.map_congr_left
  intro e _
  simp only [Function.comp]
  split <;> rfl

theorem eraseFlat_get (S : List Str) (n : Str) : ∀ (ls : List (Str × Link)),
    dictGet (eraseFlat S ls) n = (dictGet ls n).map fun l => if n ∈ S then l else { l with flat := none }
  | [] => rfl
  | e :: ls => by
    have ih := eraseFlat_get S n ls
    obtain ⟨k, l⟩ := e
    unfold eraseFlat at ih ⊢
    rw [List.map_cons, dictGet_cons, dictGet_cons]
    by_cases hk : k = n
    · subst hk
      by_cases hs : k ∈ S <;> simp [hs]
    · have : (if (k, l).1 ∈ S then (k, l) else (k, ({ l with flat := none } : Link))).1 = k := by split <;> rfl
      rw [this, if_neg hk, if_neg hk]
      exact ih

theorem eraseFlat_set {S : List Str} {n : Str} {ls : List (Str × Link)} (hn : n ∈ ls.map (·.1)) (l : Link) :
    dictSet (eraseFlat S ls) n l = eraseFlat (n :: S) (dictSet ls n l) := by
  unfold dictSet
  rw [if_pos (by rw [eraseFlat_names]; exact hn), if_pos hn]
  unfold eraseFlat
  rw [List.map_map, List.map_map]
  apply List.map_congr_left
  rintro ⟨k, l0⟩ _
  simp only [Function.comp]
  by_cases hk : k = n
  · subst hk
    by_cases hs : k ∈ S <;> simp [hs]
  · by_cases hs : k ∈ S <;> simp [hs, hk]

theorem eraseFlat_all {S : List Str} {ls : List (Str × Link)} (h : ∀ n ∈ ls.map (·.1), n ∈ S) : eraseFlat S ls = ls := by
  unfold eraseFlat
  conv_rhs => rw [← List.map_id ls]
  apply List.map_congr_left
  intro e he
  rw [if_pos (h e.1 (List.mem_map_of_mem he))]
  rfl

theorem erase_frame {w : LWorld V} {r : Nat} {f : LFrame V} (hf : w.frames[r]? = some f) (S : List Str) :
    (w.erase r S).frames[r]? = some { f with links := eraseFlat S f.links } := setFrame_self hf _

theorem erase_link {w : LWorld V} {r : Nat} (S : List Str) (n : Str) :
    (w.erase r S).link? r n = (w.link? r n).map fun l => if n ∈ S then l else { l with flat := none } := by
  unfold LWorld.link?
  cases hf : w.frames[r]? with
  | none => rw [LWorld.erase, setFrame_none hf, hf]; rfl
  | some f => rw [erase_frame hf]; exact eraseFlat_get S n f.links

theorem erase_same (S : List Str) (f : LFrame V) (s : KeySpec) : LFrame.keys { f with links := eraseFlat S f.links } s = f.keys s := by
  refine keys_congr rfl rfl fun ls _ _ n _ => ?_
  unfold LFrame.keyColumn
  simp only [eraseFlat_names]

theorem erase_keys (w : LWorld V) (r : Nat) (S : List Str) (q : Nat) (s : KeySpec) : (w.erase r S).keys q s = w.keys q s := by
  unfold LWorld.keys
  by_cases hq : q = r
  · subst hq
    cases hf : w.frames[q]? with
    | none => rw [LWorld.erase, setFrame_none hf, hf]
    | some f => rw [erase_frame hf]; exact erase_same S f s
  · rw [LWorld.erase, setFrame_other hq]

theorem erase_setLink {w : LWorld V} {r : Nat} {n : Str} {l0 : Link} (hl : w.link? r n = some l0) (S : List Str) (l : Link) :
    (w.erase r S).setLink r n l = (w.setLink r n l).erase r (n :: S) := by
  cases hf : w.frames[r]? with
  | none => unfold LWorld.link? at hl; rw [hf] at hl; simp at hl
  | some f =>
    have hn : n ∈ f.links.map (·.1) := by
      unfold LWorld.link? at hl
      rw [hf] at hl
      exact List.mem_map_of_mem (f := fun e : Str × Link => e.1) (dictGet_mem hl)
    unfold LWorld.setLink LWorld.erase LWorld.setFrame
    simp only [List.modify_modify_eq, LWorld.mk.injEq, and_true]
    apply List.ext_getElem?
    intro i
    rw [List.getElem?_modify, List.getElem?_modify]
    by_cases hi : r = i
    · subst hi
      simp [hf, eraseFlat_set hn]
    · simp [hi]

/-- refreshing all links whose list of missing rows was never cached brings them up to date -/
theorem refresh_loop (r : Nat) : ∀ (ns S : List Str) {w : LWorld V}, LGood E (w.erase r S) → ns.Nodup → (∀ n ∈ ns, n ∉ S) →
    (∀ n ∈ ns, ∃ l, w.link? r n = some l ∧ l.missing = none) →
    ∃ w', E.computeLinks true r w ns = (w', .ok ()) ∧ CacheOnly w w' ∧ LGood E (w'.erase r (ns.reverse ++ S))
  | [], S, w, h, _, _, _ => ⟨w, rfl, CacheOnly.refl w, h⟩
  | n :: ns, S, w, h, hnd, hS, hl => by
    obtain ⟨l, hln, hm⟩ := hl n List.mem_cons_self
    have hnS := hS n List.mem_cons_self
    have hle : (w.erase r S).link? r n = some { l with flat := none } := by rw [erase_link, hln]; simp [hnS]
    obtain ⟨f, g, ks, ko, hf, -, hk⟩ := h.linkOk hle
    have hpre := precompute_good hk (hk.lazy rfl)
    have hpw : E.precompute w l = E.precompute (w.erase r S) { l with flat := none } := by
      unfold LEnv.precompute
      rw [erase_keys, erase_keys]
      simp only
      cases w.keys l.owner l.selfSpec with
      | error e => rfl
      | ok a =>
        simp only
        cases w.keys l.other l.otherSpec with
        | error e => rfl
        | ok b => rfl
    rw [LEnv.computeLinks]
    simp only [hln, Bool.true_or, if_true]
    rw [hpw, hpre]
    simp only
    have hok := linkOk_computed hk (m := none) (Or.inl rfl)
    have hset := h.setLink hle hf (l' := { l with flat := some (getIndexer (E.base { l with flat := none } ko) ks), grouper := if l.agg then some (E.codes ko) else l.grouper, missing := none }) (by simp [Link.copyMeta]) hok
    rw [erase_setLink hln] at hset
    have hnd' : ∀ f ∈ w.frames, (f.links.map (·.1)).Nodup := by
      intro f0 hf0
      obtain ⟨q, hq⟩ := List.getElem?_of_mem hf0
      by_cases hqr : q = r
      · subst hqr
        have := h.nodup _ (List.mem_of_getElem? (erase_frame hq S))
        simpa [eraseFlat_names] using this
      · have h1 : (w.erase r S).frames[q]? = some f0 := by rw [LWorld.erase, setFrame_other hqr]; exact hq
        exact h.nodup _ (List.mem_of_getElem? h1)
    have hmeq : ({ l with flat := some (getIndexer (E.base { l with flat := none } ko) ks), grouper := if l.agg then some (E.codes ko) else l.grouper } : Link) =
        { l with flat := some (getIndexer (E.base { l with flat := none } ko) ks), grouper := if l.agg then some (E.codes ko) else l.grouper, missing := none } := by
      rw [← hm]
    have hco := setLink_cacheOnly (l' := { l with flat := some (getIndexer (E.base { l with flat := none } ko) ks), grouper := if l.agg then some (E.codes ko) else l.grouper, missing := none }) hln (by simp [Link.copyMeta]) hnd'
    rw [hmeq]
    rw [List.nodup_cons] at hnd
    obtain ⟨w', e1, e2, e3⟩ := refresh_loop r ns (n :: S) hset.2 hnd.2
      (fun m hm' hms => by
        rcases List.mem_cons.mp hms with rfl | hms
        · exact hnd.1 hm'
        · exact hS m (List.mem_cons_of_mem _ hm') hms)
      (fun m hm' => by
        obtain ⟨lm, h1, h2⟩ := hl m (List.mem_cons_of_mem _ hm')
        refine ⟨lm, ?_, h2⟩
        rw [link?_setLink_of_ne]
        · exact h1
        · rintro ⟨-, rfl⟩; exact hnd.1 hm')
    exact ⟨w', e1, hco.trans e2, by simpa using e3⟩

theorem collect_total {g : Str → Except Err (List V)} : ∀ {ls : List Str}, (∀ n ∈ ls, ∃ a, g n = .ok a) → ∃ as, collect g ls = .ok as
  | [], _ => ⟨[], rfl⟩
  | n :: ls, h => by
    obtain ⟨a, ha⟩ := h n List.mem_cons_self
    obtain ⟨as, has⟩ := collect_total (ls := ls) fun m hm => h m (List.mem_cons_of_mem _ hm)
    exact ⟨a :: as, by simp [collect, ha, has]⟩

/-- replacing a column leaves keys readable -/
theorem keys_setColumn {f : LFrame V} {s : KeySpec} {ks : List (List V)} (h : f.keys s = .ok ks) {col : Str} (hnl : col ∉ f.links.map (·.1)) (c : LCol V) :
    ∃ ks', LFrame.keys { f with cols := dictSet f.cols col c } s = .ok ks' := by
  unfold LFrame.keys at h ⊢
  cases hl : s.labels with
  | none => exact ⟨_, rfl⟩
  | some ls =>
    rw [hl] at h
    simp only at h ⊢
    split at h
    · simp at h
    · rename_i hlev
      rw [if_neg hlev]
      by_cases hr : s.fromRows = true
      · rw [if_pos hr] at h ⊢
        exact ⟨ks, h⟩
      · rw [if_neg hr] at h ⊢
        cases hc : collect f.keyColumn ls with
        | error e => rw [hc] at h; simp at h
        | ok as =>
          have hF := collect_ok hc
          have htot : ∃ as', collect (LFrame.keyColumn { f with cols := dictSet f.cols col c }) ls = .ok as' := by
            apply collect_total
            intro n hn
            obtain ⟨i, hi⟩ := List.getElem?_of_mem hn
            obtain ⟨a, -, ha⟩ := forall₂_get? hF i hi
            unfold LFrame.keyColumn at ha ⊢
            simp only [dictGet_dictSet]
            by_cases hnc : n = col
            · subst hnc
              simp [hnl]
            · rw [if_neg (by simpa using hnc)]
              exact ⟨a, ha⟩
          obtain ⟨as', has'⟩ := htot
          rw [has']
          cases as' with
          | nil =>
            cases ls with
            | nil => simp only [collect, Except.ok.injEq] at hc; subst hc; rw [show collect f.keyColumn [] = .ok [] from rfl] at h; simp at h
            | cons n ls => have := (collect_ok has'); cases this
          | cons a as' => exact ⟨_, rfl⟩

/-- after a column of frame `r` was replaced, and the indexers of its links forgotten, everything is up to date -/
theorem setColumn_erased {w : LWorld V} (h : LGood E w) {r : Nat} {f : LFrame V} (hf : w.frames[r]? = some f) {col : Str} {c : LCol V}
    (hlen : c.vals.length = f.rows) (hnl : col ∉ f.links.map (·.1)) (hown : ∀ e ∈ f.links, e.2.owner = r ∧ e.2.missing = none)
    (hoth : ∀ q x, w.frames[q]? = some x → ∀ e ∈ x.links, (e.2.other = r → col ∉ e.2.otherSpec.columns) ∧
      (q ≠ r → e.2.owner = r → col ∉ e.2.selfSpec.columns)) :
    LGood E ((w.setFrame r fun f => { f with cols := dictSet f.cols col c }).erase r []) := by
  have hw := h.wf f (List.mem_of_getElem? hf)
  have hks : ∀ s : KeySpec, col ∉ s.columns → LFrame.keys { f with cols := dictSet f.cols col c } s = f.keys s := by
    intro s hs
    refine keys_of_columns (f := f) (f' := { f with cols := dictSet f.cols col c }) rfl rfl ?_
    intro n hn
    have : n ≠ col := fun he => hs (he ▸ hn)
    exact ⟨by simp [dictGet_dictSet, this], Iff.rfl⟩
  have hfr : (w.setFrame r fun f => { f with cols := dictSet f.cols col c }).frames[r]? = some { f with cols := dictSet f.cols col c } := setFrame_self hf _
  have hfe := erase_frame hfr ([] : List Str)
  have hother : ∀ q, q ≠ r → ((w.setFrame r fun f => { f with cols := dictSet f.cols col c }).erase r []).frames[q]? = w.frames[q]? := by
    intro q hq
    rw [LWorld.erase, setFrame_other hq, setFrame_other hq]
  have hke : ∀ s, LFrame.keys { { f with cols := dictSet f.cols col c } with links := eraseFlat [] f.links } s =
      LFrame.keys { f with cols := dictSet f.cols col c } s := fun s => erase_same [] { f with cols := dictSet f.cols col c } s
  -- the target of a link, and its keys
  have htgt : ∀ (q : Nat) (x : LFrame V), w.frames[q]? = some x → ∀ e ∈ x.links, ∀ (g : LFrame V) (ko : List (List V)), w.frames[e.2.other]? = some g → g.keys e.2.otherSpec = .ok ko →
      ∃ g', ((w.setFrame r fun f => { f with cols := dictSet f.cols col c }).erase r []).frames[e.2.other]? = some g' ∧ g'.linked = g.linked ∧
        g'.keys e.2.otherSpec = .ok ko := by
    intro q x hx e he g ko hg hk
    by_cases ho : e.2.other = r
    · rw [ho] at hg ⊢
      rw [hf] at hg
      cases hg
      refine ⟨_, hfe, rfl, ?_⟩
      rw [hke, hks _ ((hoth q x hx e he).1 ho)]
      exact hk
    · exact ⟨g, by rw [hother _ ho]; exact hg, rfl, hk⟩
  constructor
  · intro x hx
    obtain ⟨q, hq⟩ := List.getElem?_of_mem hx
    by_cases hqr : q = r
    · subst hqr
      rw [hfe] at hq
      cases hq
      refine ⟨hw.index, ?_, ?_, by simpa [eraseFlat_names] using hw.nodup, fun hl => by simp [hw.plain hl, eraseFlat]⟩
      · intro e he
        rcases mem_dictSet.mp he with rfl | ⟨h1, -⟩
        · exact hlen
        · exact hw.cols e h1
      · intro n hn
        simp only [eraseFlat_names] at hn
        rw [dictSet_keys]
        rintro (rfl | h1)
        · exact hnl hn
        · exact hw.noClash n hn h1
    · rw [hother q hqr] at hq
      exact h.wf x (List.mem_of_getElem? hq)
  · intro x hx e he
    obtain ⟨q, hq⟩ := List.getElem?_of_mem hx
    by_cases hqr : q = r
    · subst hqr
      rw [hfe] at hq
      cases hq
      simp only [eraseFlat, List.not_mem_nil, if_false, List.mem_map] at he
      obtain ⟨e0, he0, rfl⟩ := he
      obtain ⟨g, ks, ko, hk⟩ := h.links f (List.mem_of_getElem? hf) e0 he0
      obtain ⟨g', h1, h2, h3⟩ := htgt q f hf e0 he0 g ko hk.target hk.oth
      obtain ⟨ks', hks'⟩ := keys_setColumn hk.self hnl c
      refine ⟨g', ks', ko, ?_⟩
      obtain ⟨ho1, ho2⟩ := hown e0 he0
      exact { target := h1, chained := hk.chained.trans h2.symm, self := (hke e0.2.selfSpec).trans hks',
              oth := h3, uniq := hk.uniq,
              flat := fun fl hfl => by simp at hfl,
              lazy := fun _ => by
                simp only [ho1]
                rw [erase_keys]
                unfold LWorld.keys
                rw [hfr]
                exact hks',
              grouper := hk.grouper, grouped := fun _ hx => by simp at hx,
              missing := fun m hm => by simp only [ho2] at hm; simp at hm }
    · have hq0 := hq
      rw [hother q hqr] at hq
      obtain ⟨g, ks, ko, hk⟩ := h.links x (List.mem_of_getElem? hq) e he
      obtain ⟨g', h1, h2, h3⟩ := htgt q x hq e he g ko hk.target hk.oth
      refine ⟨g', ks, ko, hk.transfer h1 h2 (h3.trans hk.oth.symm) rfl fun hn => ?_⟩
      rw [erase_keys]
      unfold LWorld.keys
      by_cases ho : e.2.owner = r
      · rw [ho, hfr, hf]
        exact hks _ ((hoth q x hq e he).2 hqr ho)
      · rw [setFrame_other ho]

/-- C49, the part that holds: after any history of safe operations, if a column of a frame is replaced - also a key column - and then
`compute_indexers(refresh=True)` is called on the frame, every lookup over a link of it that needs no aggregation follows the
new keys - provided no lookup over the frame's links was made before, the links were made on this frame (it is no slice), and
the column is not a key of links from other frames or of slices. -/
theorem C49_refresh_partial (hev : EvKeeps E ev) {ops : List (LOp V)} (hs : SafeRun E isid ev E.start ops) {w : LWorld V}
    (hw : w = lrun E isid ev E.start ops) {r : Nat} {f : LFrame V} (hf : w.frames[r]? = some f) (hlin : f.linked = true) {col : Str} {c : LCol V}
    (hlen : c.vals.length = f.rows) (hnl : col ∉ f.links.map (·.1)) (hown : ∀ e ∈ f.links, e.2.owner = r ∧ e.2.missing = none)
    (hoth : ∀ q x, w.frames[q]? = some x → ∀ e ∈ x.links, (e.2.other = r → col ∉ e.2.otherSpec.columns) ∧
      (q ≠ r → e.2.owner = r → col ∉ e.2.selfSpec.columns)) :
    ∃ w1 w2, lstep E isid ev w (.setColumn r col c) = (w1, .ok .unit) ∧ lstep E isid ev w1 (.computeIndexers r true) = (w2, .ok .unit) ∧
      (∃ f2, w2.frames[r]? = some f2 ∧ f2.cols = dictSet f.cols col c ∧ f2.index = f.index ∧
        f2.links.map (fun e => (e.1, e.2.copyMeta)) = f.links.map fun e => (e.1, e.2.copyMeta)) ∧
      (∀ q, q ≠ r → w2.frames[q]? = w.frames[q]?) ∧
      ∀ name l g cl cc v, w2.link? r name = some l → l.agg = false → w2.frames[l.other]? = some g → dictGet g.cols cl = some cc →
        E.store cc.kind (w2.fillFor g cl cc.kind) = .ok v → g.rows ≠ 0 →
        ∃ out, (E.lookup w2 r [name] cl).2 = .ok ⟨cc.kind, out⟩ ∧ out.length = f.rows ∧
          ∀ i, i < f.rows → ∃ k, w2.keyAt r l.selfSpec i = some k ∧ (∀ j, g.keyAt l.otherSpec j = some k → out[i]? = cc.vals[j]?) ∧
            ((∀ j, g.keyAt l.otherSpec j ≠ some k) → out[i]? = some v) := by
  have h : LGood E w := by rw [hw]; exact good_run hev LGood.start hs
  have her := setColumn_erased h hf hlen hnl hown hoth
  set w1 := w.setFrame r fun f => { f with cols := dictSet f.cols col c } with hw1
  have hfr : w1.frames[r]? = some { f with cols := dictSet f.cols col c } := setFrame_self hf _
  have hnd := (h.wf f (List.mem_of_getElem? hf)).nodup
  obtain ⟨w2, e1, e2, e3⟩ := refresh_loop r (f.links.map (·.1)) [] her hnd (by simp) (fun n hn => by
    obtain ⟨e, he, rfl⟩ := List.mem_map.mp hn
    refine ⟨e.2, ?_, (hown e he).2⟩
    unfold LWorld.link?
    rw [hfr]
    exact dictGet_of_nodup hnd he)
  obtain ⟨f2, hf2, hs2⟩ := e2.frame hfr
  have hgood : LGood E w2 := by
    have : w2.erase r ((f.links.map (·.1)).reverse ++ []) = w2 := by
      unfold LWorld.erase LWorld.setFrame
      have : w2.frames.modify r (fun f_1 => { f_1 with links := eraseFlat ((f.links.map (·.1)).reverse ++ []) f_1.links }) = w2.frames := by
        apply List.ext_getElem?
        intro i
        rw [List.getElem?_modify]
        by_cases hi : r = i
        · subst hi
          rw [hf2]
          simp only [if_true, Option.map_eq_map, Option.map_some, Option.some.injEq]
          rw [eraseFlat_all]
          intro n hn
          have := hs2.names
          rw [this] at hn
          simpa using hn
        · simp [hi]
      rw [this]
    rw [this] at e3
    exact e3
  have hrow : w2.rows r = f.rows := by
    unfold LWorld.rows
    rw [hf2]
    show f2.rows = f.rows
    unfold LFrame.rows
    rw [hs2.1]
  refine ⟨w1, w2, ?_, ?_, ⟨f2, hf2, by rw [hs2.1], by rw [hs2.1], hs2.2⟩, ?_, ?_⟩
  · simp [lstep, LWorld.setColumn, hf, hlen, hw1, Except.map]
  · simp only [lstep, LEnv.computeIndexers, hfr, hlin, Bool.not_true, Bool.false_eq_true, if_false]
    rw [e1]
    rfl
  · intro q hq
    have hcl : ∀ (ns : List Str) (x : LWorld V), (E.computeLinks true r x ns).1.frames[q]? = x.frames[q]? := by
      intro ns
      induction ns with
      | nil => intro x; rfl
      | cons n ns ih =>
        intro x
        rw [LEnv.computeLinks]
        cases x.link? r n with
        | none => rfl
        | some l =>
          simp only [Bool.true_or, if_true]
          cases E.precompute x l with
          | error e => rfl
          | ok l1 => simp only; rw [ih, LWorld.setLink, setFrame_other hq]
    have := hcl (f.links.map (·.1)) w1
    rw [e1] at this
    rw [this, hw1, setFrame_other hq]
  · intro name l g cl cc v hl ha hg hc hv hne
    obtain ⟨h1, -⟩ := lookup_single hgood hl ha hg hc hv
    obtain ⟨w', out, o1, o2, o3⟩ := h1 (.inl hne)
    refine ⟨out, by rw [o1], by rw [o2, hrow], fun i hi => ?_⟩
    obtain ⟨k, k1, k2, k3, -⟩ := o3 i (by rw [hrow]; exact hi)
    exact ⟨k, k1, k2, k3⟩

/-! ## concrete histories -/

/-- persons linked to households, nothing looked up yet -/
def lxFresh : List (LOp Int) := lxNew ++ [.linkTo 2 1 lxHh { onSelf := some [lxH] }]

/-- the persons move: new household keys -/
def lxMove : LOp Int := .setColumn 2 lxH ⟨.int, [10, 77, 30, 20]⟩

/-- a case: the hypotheses hold, and the refreshed link serves the new households -/
example : SafeRun lxE lxId lxEv lxE.start lxFresh ∧
    (∀ f, (lrun lxE lxId lxEv lxE.start lxFresh).frames[2]? = some f → ∀ e ∈ f.links, e.2.owner = 2 ∧ e.2.missing = none) ∧
    lxVals (lxE.lookup (lrun lxE lxId lxEv lxE.start (lxFresh ++ [lxMove, .computeIndexers 2 true])) 2 [lxHh] lxInc) = .ok [5, 0, 7, 6] ∧
    lxVals (lxE.lookup (lrun lxE lxId lxEv lxE.start (lxFresh ++ [lxMove])) 2 [lxHh] lxInc) = .ok [6, 5, 5, 0] := by
  refine ⟨safeRunCheck_ok (by decide), ?_, by decide, by decide⟩
  rintro f hf e he
  simp only [show (lrun lxE lxId lxEv lxE.start lxFresh).frames[2]? = some _ from rfl, Option.some.injEq] at hf
  subst hf
  revert e
  decide

/-- C49 fails after an earlier lookup: `compute_indexers(refresh=True)` renews the positions but not the cached list of missing rows. The
person who is now in household 20 (row 3) still gets the fill value, and the person who is now in no household (row 1) gets
the income of the last household. -/
theorem C49_cached_refuted :
    let w := lrun lxE lxId lxEv lxE.start (lxFresh ++ [.lookup 2 [lxHh] lxInc, lxMove, .computeIndexers 2 true])
    lxVals (lxE.lookup w 2 [lxHh] lxInc) = .ok [5, 7, 7, 0] := by decide

/-- C49 fails on slices: refreshing the links of persons 3 and 1 (frame 3) computes positions for all rows of the persons, and the
next lookup raises ValueError. -/
theorem C49_slice_refuted :
    let w := lrun lxE lxId lxEv lxE.start (lxFresh ++ [.select 2 [3, 1] (fun _ => []) (fun _ _ => 0)])
    let w1 := (lstep lxE lxId lxEv w (.computeIndexers 3 true)).1
    (lstep lxE lxId lxEv w (.computeIndexers 3 true)).2.isOk = true ∧
    lxVals (lxE.lookup w 3 [lxHh] lxInc) = .ok [0, 5] ∧ (lxE.lookup w1 3 [lxHh] lxInc).2 = .error .value := by decide

/-- ... and with as many rows as its parent in another order, the slice silently gets its parent's values -/
theorem C49_permuted_refuted :
    let w := lrun lxE lxId lxEv lxE.start (lxFresh ++ [.select 2 [3, 2, 1, 0] (fun _ => []) (fun _ _ => 0)])
    let w1 := (lstep lxE lxId lxEv w (.computeIndexers 3 true)).1
    lxVals (lxE.lookup w 3 [lxHh] lxInc) = .ok [0, 5, 5, 6] ∧ lxVals (lxE.lookup w1 3 [lxHh] lxInc) = .ok [6, 5, 5, 0] := by decide

end Cheval
