import Verif.Core.LdfDerive

/-!
# In-place changes of a frame under the invariant
-/
namespace Cheval
variable {V : Type}

theorem setFrame_self {w : LWorld V} {r : Nat} {f : LFrame V} (hf : w.frames[r]? = some f) (g : LFrame V → LFrame V) :
    (w.setFrame r g).frames[r]? = some (g f) := by
  simp [LWorld.setFrame, hf]

theorem setFrame_other {w : LWorld V} {r q : Nat} (h : q ≠ r) (g : LFrame V → LFrame V) : (w.setFrame r g).frames[q]? = w.frames[q]? := by
  simp only [LWorld.setFrame, List.getElem?_modify]
  simp [Ne.symm h]

variable [DecidableEq V] {E : LEnv V}

/-- changing a frame in a way that keeps the keys its links and the links to it rely on -/
theorem LGood.setFrame {w : LWorld V} (h : LGood E w) {r : Nat} {f : LFrame V} (hf : w.frames[r]? = some f) {g : LFrame V → LFrame V}
    (hw : (g f).Wf) (hlk : (g f).linked = f.linked)
    (hoth : ∀ q ∈ w.frames, ∀ e ∈ q.links, e.2.other = r → (g f).keys e.2.otherSpec = f.keys e.2.otherSpec)
    (hown : ∀ q ∈ w.frames, ∀ e ∈ q.links, e.2.owner = r → (g f).keys e.2.selfSpec = f.keys e.2.selfSpec)
    (hlinks : ∀ e ∈ (g f).links, (e ∈ f.links ∧ (g f).keys e.2.selfSpec = f.keys e.2.selfSpec) ∨
      ∃ g' ks ko, LinkOk E (w.setFrame r g) (g f) e.2 g' ks ko) : LGood E (w.setFrame r g) := by
  have tr : ∀ q ∈ w.frames, ∀ q', ∀ e ∈ q.links, q'.keys e.2.selfSpec = q.keys e.2.selfSpec →
      ∃ g' ks ko, LinkOk E (w.setFrame r g) q' e.2 g' ks ko := by
    intro q hq q' e he hs
    obtain ⟨t, ks, ko, hk⟩ := h.links q hq e he
    have howner : e.2.flat = none → (w.setFrame r g).keys e.2.owner e.2.selfSpec = w.keys e.2.owner e.2.selfSpec := by
      intro _
      unfold LWorld.keys
      by_cases ho : e.2.owner = r
      · rw [ho, setFrame_self hf, hf]; exact hown q hq e he ho
      · rw [setFrame_other ho]
    by_cases ht : e.2.other = r
    · have htf : t = f := by have := hk.target; rw [ht, hf] at this; exact (Option.some.inj this).symm
      subst htf
      exact ⟨g t, ks, ko, hk.transfer (by rw [ht]; exact setFrame_self hf g) hlk (hoth q hq e he ht) hs howner⟩
    · exact ⟨t, ks, ko, hk.transfer (by rw [setFrame_other ht]; exact hk.target) rfl rfl hs howner⟩
  have mem : ∀ q ∈ (w.setFrame r g).frames, q = g f ∨ q ∈ w.frames := by
    intro q hq
    obtain ⟨i, hi⟩ := List.getElem?_of_mem hq
    by_cases hr : i = r
    · subst hr; rw [setFrame_self hf] at hi; exact Or.inl (Option.some.inj hi).symm
    · rw [setFrame_other hr] at hi; exact Or.inr (List.mem_of_getElem? hi)
  constructor
  · intro q hq
    rcases mem q hq with rfl | hq
    · exact hw
    · exact h.wf q hq
  · intro q hq e he
    rcases mem q hq with rfl | hq
    · rcases hlinks e he with ⟨h1, h2⟩ | h3
      · exact tr f (List.mem_of_getElem? hf) (g f) e h1 h2
      · exact h3
    · exact tr q hq q e he rfl

/-- `set_column_fill`, `set_fill_defaults`, `reset_fill_defaults` and the like touch no keys -/
theorem LGood.setFills {w : LWorld V} (h : LGood E w) {r : Nat} {f : LFrame V} (hf : w.frames[r]? = some f) (fl : LFrame V → DKind → V)
    (cf : LFrame V → List (Str × V)) : LGood E (w.setFrame r fun f => { f with filler := fl f, colFills := cf f }) := by
  have hw := h.wf f (List.mem_of_getElem? hf)
  have hks : ∀ s, LFrame.keys { f with filler := fl f, colFills := cf f } s = f.keys s := fun s => keys_congr rfl rfl fun _ _ _ _ _ => rfl
  exact h.setFrame hf ⟨hw.index, hw.cols, hw.noClash, hw.nodup, hw.plain⟩ rfl (fun _ _ e _ _ => hks _) (fun _ _ e _ _ => hks _)
    fun e he => Or.inl ⟨he, hks _⟩

/-- the columns the links of the world rely on, at frame `r` -/
def KeyColumn (w : LWorld V) (r : Nat) (col : Str) : Prop :=
  (∃ q ∈ w.frames, ∃ e ∈ q.links, (e.2.other = r ∧ col ∈ e.2.otherSpec.columns) ∨ (e.2.owner = r ∧ col ∈ e.2.selfSpec.columns)) ∨
  ∃ f, w.frames[r]? = some f ∧ ∃ e ∈ f.links, col ∈ e.2.selfSpec.columns

theorem LGood.setColumn {w : LWorld V} (h : LGood E w) {r : Nat} {f : LFrame V} (hf : w.frames[r]? = some f) {col : Str} {c : LCol V}
    (hc : c.vals.length = f.rows) (hnl : col ∉ f.links.map (·.1)) (hk : ¬ KeyColumn w r col) :
    LGood E (w.setFrame r fun f => { f with cols := dictSet f.cols col c }) := by
  have hw := h.wf f (List.mem_of_getElem? hf)
  have hks : ∀ s : KeySpec, col ∉ s.columns → LFrame.keys { f with cols := dictSet f.cols col c } s = f.keys s := by
    intro s hs
    refine keys_of_columns (f := f) (f' := { f with cols := dictSet f.cols col c }) rfl rfl ?_
    intro n hn
    have : n ≠ col := fun he => hs (he ▸ hn)
    exact ⟨by simp [dictGet_dictSet, this], Iff.rfl⟩
  refine h.setFrame hf ⟨hw.index, ?_, ?_, hw.nodup, hw.plain⟩ rfl ?_ ?_ ?_
  · intro e he
    rcases mem_dictSet.mp he with rfl | ⟨h1, -⟩
    · exact hc
    · exact hw.cols e h1
  · intro n hn
    rw [dictSet_keys]
    rintro (rfl | h1)
    · exact hnl hn
    · exact hw.noClash n hn h1
  · intro q hq e he ho
    exact hks _ fun hm => hk (Or.inl ⟨q, hq, e, he, Or.inl ⟨ho, hm⟩⟩)
  · intro q hq e he ho
    exact hks _ fun hm => hk (Or.inl ⟨q, hq, e, he, Or.inr ⟨ho, hm⟩⟩)
  · intro e he
    exact Or.inl ⟨he, hks _ fun hm => hk (Or.inr ⟨f, hf, e, he, hm⟩)⟩

/-- what a successful `_LinkMeta.create` establishes -/
theorem createLink_ok {r o : Nat} {f g : LFrame V} {ss os : KeySpec} {pre : Bool} {l : Link} (h : E.createLink r o f g ss os pre = .ok l) :
    ∃ ks ko flag, f.keys ss = .ok ks ∧ g.keys os = .ok ko ∧ aggFlag ks ko = .ok flag ∧ l.agg = flag ∧ l.owner = r ∧ l.other = o ∧
      l.selfSpec = ss ∧ l.otherSpec = os ∧ l.chained = g.linked ∧ l.missing = none ∧
      (pre = true → l.flat = some (getIndexer (E.base l ko) ks) ∧ (flag = true → l.grouper = some (E.codes ko)) ∧ (flag = false → l.grouper = none)) ∧
      (pre = false → l.flat = none ∧ l.grouper = none) := by
  unfold LEnv.createLink at h
  split at h
  · simp at h
  · cases hks : f.keys ss with
    | error e => rw [hks] at h; simp at h
    | ok ks =>
      rw [hks] at h
      simp only at h
      cases hko : g.keys os with
      | error e => rw [hko] at h; simp at h
      | ok ko =>
        rw [hko] at h
        simp only at h
        cases hfl : aggFlag ks ko with
        | error e => rw [hfl] at h; simp at h
        | ok flag =>
          rw [hfl] at h
          simp only at h
          refine ⟨ks, ko, flag, rfl, rfl, hfl, ?_⟩
          cases pre with
          | false =>
            simp only [Bool.false_eq_true, if_false, Except.ok.injEq] at h
            subst h
            exact ⟨rfl, rfl, rfl, rfl, rfl, rfl, rfl, fun hp => by simp at hp, fun _ => ⟨rfl, rfl⟩⟩
          | true =>
            simp only [if_true] at h
            unfold LEnv.makeIndexer at h
            cases flag with
            | true =>
              simp only [if_true, Except.ok.injEq] at h
              subst h
              exact ⟨rfl, rfl, rfl, rfl, rfl, rfl, rfl, fun _ => ⟨rfl, fun _ => rfl, fun hh => by simp at hh⟩, fun hp => by simp at hp⟩
            | false =>
              have hnd : ko.Nodup := by
                unfold aggFlag at hfl
                split at hfl
                · rename_i hh; exact hh.2
                · split at hfl
                  · simp at hfl
                  · split at hfl
                    · assumption
                    · simp at hfl
              simp only [Bool.false_eq_true, if_false] at h
              by_cases heq : ks = ko
              · rw [if_pos heq] at h
                simp only [Except.ok.injEq] at h
                subst h
                refine ⟨rfl, rfl, rfl, rfl, rfl, rfl, rfl, fun _ => ⟨?_, fun hh => by simp at hh, fun _ => rfl⟩, fun hp => by simp at hp⟩
                simp only [LEnv.base, Bool.false_eq_true, if_false]
                subst heq
                rw [getIndexer_self hnd]
              · rw [if_neg heq, if_pos hnd] at h
                simp only [Except.ok.injEq] at h
                subst h
                exact ⟨rfl, rfl, rfl, rfl, rfl, rfl, rfl, fun _ => ⟨rfl, fun hh => by simp at hh, fun _ => rfl⟩, fun hp => by simp at hp⟩

theorem aggFlag_false {ks ko : List (List V)} (h : aggFlag ks ko = .ok false) : ko.Nodup := by
  unfold aggFlag at h
  split at h
  · rename_i hh; exact hh.2
  · split at h
    · simp at h
    · split at h
      · assumption
      · simp at h

/-- adding a link named unlike every column -/
theorem LGood.addLink {w : LWorld V} (h : LGood E w) {r o : Nat} {f g : LFrame V} (hf : w.frames[r]? = some f) (hg : w.frames[o]? = some g)
    (hlin : f.linked = true) {ss os : KeySpec} {pre : Bool} {l : Link} (hc : E.createLink r o f g ss os pre = .ok l) {name : Str}
    (hn : name ∉ f.cols.map (·.1)) (idf : LFrame V → List Str) :
    LGood E (w.setFrame r fun f => { f with links := dictSet f.links name l, identified := idf f }) := by
  have hw := h.wf f (List.mem_of_getElem? hf)
  have hks : ∀ s : KeySpec, LFrame.keys { f with links := dictSet f.links name l, identified := idf f } s = f.keys s := by
    intro s
    refine keys_congr (f := f) (f' := { f with links := dictSet f.links name l, identified := idf f }) rfl rfl ?_
    intro ls _ _ n _
    unfold LFrame.keyColumn
    cases hd : dictGet f.cols n with
    | none => rfl
    | some c =>
      have hne : n ≠ name := by
        rintro rfl
        exact hn (List.mem_map_of_mem (dictGet_mem hd))
      simp only [dictSet_keys, hne, false_or]
  refine h.setFrame hf ⟨hw.index, hw.cols, ?_, dictSet_keys_nodup hw.nodup _ _, ?_⟩ rfl (fun _ _ _ _ _ => hks _) (fun _ _ _ _ _ => hks _) ?_
  · intro n hn'
    rw [dictSet_keys] at hn'
    rcases hn' with rfl | h1
    · exact hn
    · exact hw.noClash n h1
  · intro hp; simp only at hp; rw [hlin] at hp; simp at hp
  · intro e he
    rcases mem_dictSet.mp he with rfl | ⟨h1, -⟩
    · right
      obtain ⟨ks, ko, flag, h1, h2, h3, h4, h5, h6, h7, h8, h9, h10, h11, h12⟩ := createLink_ok hc
      have hgw : ∃ g', (w.setFrame r fun f => { f with links := dictSet f.links name l, identified := idf f }).frames[o]? = some g' ∧
          g'.linked = g.linked ∧ g'.keys os = g.keys os := by
        by_cases hor : o = r
        · subst hor
          have : f = g := by rw [hf] at hg; exact Option.some.inj hg
          subst this
          exact ⟨_, setFrame_self hf _, rfl, hks _⟩
        · exact ⟨g, by rw [setFrame_other hor]; exact hg, rfl, rfl⟩
      obtain ⟨g', hg', hgl, hgk⟩ := hgw
      refine ⟨g', ks, ko, ?_⟩
      refine { target := by rw [h6]; exact hg', chained := h9.trans hgl.symm, self := by rw [h7, hks]; exact h1,
               oth := by rw [h8, hgk]; exact h2, uniq := ?_, flat := ?_, lazy := ?_, grouper := ?_, grouped := ?_, missing := ?_ }
      · intro ha; rw [h4] at ha; subst ha; exact aggFlag_false h3
      · intro fl hfl
        cases pre with
        | true => rw [(h11 rfl).1] at hfl; exact (Option.some.inj hfl).symm
        | false => rw [(h12 rfl).1] at hfl; simp at hfl
      · intro _
        unfold LWorld.keys
        rw [h5, setFrame_self hf, h7]
        simp only [hks]
        exact h1
      · intro c hcc
        cases pre with
        | true =>
          cases flag with
          | true => rw [(h11 rfl).2.1 rfl] at hcc; exact (Option.some.inj hcc).symm
          | false => rw [(h11 rfl).2.2 rfl] at hcc; simp at hcc
        | false => rw [(h12 rfl).2] at hcc; simp at hcc
      · intro ha hs
        cases pre with
        | true => rw [h4] at ha; rw [(h11 rfl).2.1 ha]; rfl
        | false => rw [(h12 rfl).1] at hs; simp at hs
      · intro m hm; rw [h10] at hm; simp at hm
    · exact Or.inl ⟨h1, hks _⟩

end Cheval
