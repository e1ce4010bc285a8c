import Verif.Props.LdfExample

/-!
# C44: the aggregation requirement of a link
-/
namespace Cheval
variable {V : Type} [DecidableEq V] {E : LEnv V} {isid : Str → Bool}
  {ev : LWorld V → Nat → PExpr → LWorld V × Except Err (LCol V)}

/-- no two rows of the frame have the same key -/
def UniqueKeys (f : LFrame V) (s : KeySpec) : Prop := ∀ i j k, f.keyAt s i = some k → f.keyAt s j = some k → i = j

theorem uniqueKeys_iff {f : LFrame V} (hw : f.Wf) {s : KeySpec} {ks : List (List V)} (h : f.keys s = .ok ks) : UniqueKeys f s ↔ ks.Nodup := by
  obtain ⟨-, h2⟩ := keys_ok hw h
  constructor
  · intro hu
    rw [List.nodup_iff_getElem?_ne_getElem?]
    intro i j hij hj he
    have hk : ks[j]? = some ks[j] := List.getElem?_eq_getElem hj
    have := hu i j ks[j] (by rw [← h2, he, hk]) (by rw [← h2, hk])
    omega
  · intro hn i j k hi hj
    rw [← h2] at hi hj
    exact (List.getElem?_inj (List.getElem?_eq_some_iff.mp hi).1 hn).mp (hi.trans hj.symm)

/-- C44: after any history of safe operations, an accepted `link_to` returns "aggregation required" exactly when this
frame's keys are unique and the target's are not, and then at least one side is unique. -/
theorem C44_flag (hev : EvKeeps E ev) {ops : List (LOp V)} (hs : SafeRun E isid ev E.start ops) {w : LWorld V}
    (hw : w = lrun E isid ev E.start ops) {r o : Nat} {f g : LFrame V} (hf : w.frames[r]? = some f) (hg : w.frames[o]? = some g)
    {name : Str} {a : LinkArgs} {ss os : KeySpec} (ha : a.specs = .ok (ss, os)) {b : Bool} (h : (E.linkTo isid w r o name a).2 = .ok b) :
    (b = true ↔ UniqueKeys f ss ∧ ¬ UniqueKeys g os) ∧ (UniqueKeys f ss ∨ UniqueKeys g os) := by
  have hgood : LGood E w := by rw [hw]; exact good_run hev LGood.start hs
  unfold LEnv.linkTo at h
  rw [ha] at h
  simp only [hf, hg] at h
  split at h
  · simp at h
  · cases hc : E.createLink r o f g ss os a.precompute with
    | error e => rw [hc] at h; simp at h
    | ok l =>
      rw [hc] at h
      simp only [Except.ok.injEq] at h
      obtain ⟨ks, ko, flag, h1, h2, h3, h4, -⟩ := createLink_ok hc
      rw [uniqueKeys_iff (hgood.wf f (List.mem_of_getElem? hf)) h1, uniqueKeys_iff (hgood.wf g (List.mem_of_getElem? hg)) h2, ← h, h4]
      unfold aggFlag at h3
      by_cases hk : ks.Nodup <;> by_cases hko : ko.Nodup <;> simp [hk, hko] at h3 ⊢ <;> exact h3

/-- C44: when the keys of neither side are unique, `link_to` raises (RuntimeError if nothing else is wrong). -/
theorem C44_many_to_many (hev : EvKeeps E ev) {ops : List (LOp V)} (hs : SafeRun E isid ev E.start ops) {w : LWorld V}
    (hw : w = lrun E isid ev E.start ops) {r o : Nat} {f g : LFrame V} (hf : w.frames[r]? = some f) (hg : w.frames[o]? = some g)
    {name : Str} {a : LinkArgs} {ss os : KeySpec} (ha : a.specs = .ok (ss, os)) (h1 : ¬ UniqueKeys f ss) (h2 : ¬ UniqueKeys g os) :
    (∃ e, (E.linkTo isid w r o name a).2 = .error e) ∧
    ∀ ks ko, f.linked = true → f.nlevels ss = g.nlevels os → f.keys ss = .ok ks → g.keys os = .ok ko →
      (E.linkTo isid w r o name a).2 = .error .runtime := by
  have hgood : LGood E w := by rw [hw]; exact good_run hev LGood.start hs
  constructor
  · cases hx : (E.linkTo isid w r o name a).2 with
    | error e => exact ⟨e, rfl⟩
    | ok b => exact absurd (C44_flag hev hs hw hf hg ha hx).2 (by simp [h1, h2])
  · intro ks ko hlin hn hk hko
    rw [uniqueKeys_iff (hgood.wf f (List.mem_of_getElem? hf)) hk] at h1
    rw [uniqueKeys_iff (hgood.wf g (List.mem_of_getElem? hg)) hko] at h2
    have hfl : aggFlag ks ko = .error .runtime := by simp [aggFlag, h1, h2]
    simp [LEnv.linkTo, ha, hf, hg, hlin, LEnv.createLink, hn, hk, hko, hfl]

/-- C44: a `link_to` that raises, for whatever reason, changes nothing. -/
theorem C44_rejected (w : LWorld V) (r o : Nat) (name : Str) (a : LinkArgs) (e : Err) (h : (E.linkTo isid w r o name a).2 = .error e) :
    (E.linkTo isid w r o name a).1 = w := by
  unfold LEnv.linkTo at h ⊢
  cases hs : a.specs with
  | error e' => rfl
  | ok p =>
    obtain ⟨ss, os⟩ := p
    rw [hs] at h
    simp only at h ⊢
    cases hf : w.frames[r]? with
    | none => rfl
    | some f =>
      cases hg : w.frames[o]? with
      | none => rfl
      | some g =>
        rw [hf, hg] at h
        simp only at h ⊢
        split
        · rfl
        · rename_i hl
          rw [if_neg hl] at h
          cases hc : E.createLink r o f g ss os a.precompute with
          | error e' => rfl
          | ok l => rw [hc] at h; simp at h

/-- C44: an accepted `link_to` adds exactly the link described by its arguments: other frames, the data of this frame and its
other links are as they were. -/
theorem C44_accepted (w : LWorld V) (r o : Nat) (name : Str) (a : LinkArgs) (b : Bool) (h : (E.linkTo isid w r o name a).2 = .ok b) :
    ∃ ss os l, a.specs = .ok (ss, os) ∧ (E.linkTo isid w r o name a).1.link? r name = some l ∧
      l.owner = r ∧ l.other = o ∧ l.selfSpec = ss ∧ l.otherSpec = os ∧ l.agg = b ∧
      (∀ q n, (q, n) ≠ (r, name) → (E.linkTo isid w r o name a).1.link? q n = w.link? q n) ∧
      (∀ q, q ≠ r → (E.linkTo isid w r o name a).1.frames[q]? = w.frames[q]?) ∧
      ∃ f f', w.frames[r]? = some f ∧ (E.linkTo isid w r o name a).1.frames[r]? = some f' ∧
        f'.levels = f.levels ∧ f'.index = f.index ∧ f'.cols = f.cols ∧ f'.filler = f.filler ∧ f'.colFills = f.colFills := by
  unfold LEnv.linkTo at h ⊢
  cases hs : a.specs with
  | error e' => rw [hs] at h; simp at h
  | ok p =>
    obtain ⟨ss, os⟩ := p
    rw [hs] at h
    simp only at h ⊢
    cases hf : w.frames[r]? with
    | none => rw [hf] at h; simp at h
    | some f =>
      cases hg : w.frames[o]? with
      | none => rw [hf, hg] at h; simp at h
      | some g =>
        rw [hf, hg] at h
        simp only at h ⊢
        split at h
        · simp at h
        · rename_i hl
          rw [if_neg hl]
          cases hc : E.createLink r o f g ss os a.precompute with
          | error e' => rw [hc] at h; simp at h
          | ok l =>
            rw [hc] at h
            simp only [Except.ok.injEq] at h ⊢
            obtain ⟨ks, ko, flag, h1, h2, h3, h4, h5, h6, h7, h8, -⟩ := createLink_ok hc
            refine ⟨ss, os, l, rfl, ?_, h5, h6, h7, h8, h, ?_, fun q hq => setFrame_other hq _, f, _, rfl, setFrame_self hf _, rfl, rfl, rfl, rfl, rfl⟩
            · unfold LWorld.link?
              rw [setFrame_self hf]
              simp [dictGet_dictSet]
            · intro q n hqn
              unfold LWorld.link?
              by_cases hq : q = r
              · subst hq
                rw [setFrame_self hf, hf]
                simp only [dictGet_dictSet]
                rw [if_neg]
                intro hn
                exact hqn (by rw [hn])
              · rw [setFrame_other hq]

/-- cases of C44: persons to households (no aggregation), households to persons (aggregation), persons to persons by household
(many to many) and contradictory arguments -/
example : lxW.link? 2 lxP = none ∧
    (lxE.linkTo lxId lxW 2 1 lxP { onSelf := some [lxH] }).2 = .ok false ∧
    (lxE.linkTo lxId lxW 1 2 lxHh { onOther := some [lxH] }).2 = .ok true ∧
    (lxE.linkTo lxId lxW 2 2 lxP { on := some [lxH] }).2 = .error .runtime ∧
    (lxE.linkTo lxId lxW 2 2 lxP { on := some [lxH], levels := some [lxP] }).2 = .error .linkageSpec := by decide

end Cheval
