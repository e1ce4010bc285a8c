import Verif.Props.LdfFlag

/-!
# C61: link_to accepts exactly the well specified links
-/
namespace Cheval
variable {V : Type} [DecidableEq V] {E : LEnv V} {isid : Str → Bool}
  {ev : LWorld V → Nat → PExpr → LWorld V × Except Err (LCol V)}

namespace Spec

/-- the keys of one side of a link, from the documented arguments: `on` (both sides) or `on_self`/`on_other` (one side) name columns, `levels`
or `self_levels`/`other_levels` name levels of the index, the common argument overriding the one of the side; with none of them the keys
are the whole index; columns and levels together describe nothing -/
inductive SideKeys (on levels onSide sideLevels : Option (List Str)) : KeySpec → Prop
  | columns (cs : List Str) (h : on = some cs ∨ on = none ∧ onSide = some cs) (h1 : levels = none) (h2 : sideLevels = none) :
      SideKeys on levels onSide sideLevels ⟨some cs, false⟩
  | levels (ls : List Str) (h : levels = some ls ∨ levels = none ∧ sideLevels = some ls) (h1 : on = none) (h2 : onSide = none) :
      SideKeys on levels onSide sideLevels ⟨some ls, true⟩
  | index (h1 : on = none) (h2 : levels = none) (h3 : onSide = none) (h4 : sideLevels = none) :
      SideKeys on levels onSide sideLevels ⟨none, true⟩

/-- the keys can be read from the frame: the columns exist and are not hidden by links of the same name; the levels exist, are not
ambiguous and not more than the index has -/
def Readable (f : LFrame V) (s : KeySpec) : Prop :=
  match s.labels with
  | none => True
  | some ls => ls ≠ [] ∧
    if s.fromRows then ls.length ≤ f.levels.length ∧ ∀ l ∈ ls, f.levels.count (some l) = 1
    else ∀ l ∈ ls, l ∈ f.cols.map (·.1) ∧ l ∉ f.links.map (·.1)

/-- the number of parts of a key -/
def parts (f : LFrame V) (s : KeySpec) : Nat := match s.labels with
  | none => f.levels.length
  | some ls => ls.length

end Spec

open Spec

/-- C61: the arguments of link_to are understood as documented, and refused exactly when a side is described both by columns and by
levels -/
theorem C61_arguments (a : LinkArgs) :
    (∀ ss os, a.specs = .ok (ss, os) ↔ SideKeys a.on a.levels a.onSelf a.selfLevels ss ∧ SideKeys a.on a.levels a.onOther a.otherLevels os) ∧
    (∀ e, a.specs = .error e → e = .linkageSpec) := by
  rcases a with ⟨on, levels, onSelf, onOther, selfLevels, otherLevels, pre⟩
  constructor
  · intro ss os
    constructor
    · intro h
      cases on <;> cases levels <;> cases onSelf <;> cases onOther <;> cases selfLevels <;> cases otherLevels <;>
        simp [LinkArgs.specs, KeySpec.make] at h ⊢ <;> obtain ⟨rfl, rfl⟩ := h <;> constructor <;>
        first
          | exact .index rfl rfl rfl rfl
          | exact .columns _ (.inl rfl) rfl rfl
          | exact .columns _ (.inr ⟨rfl, rfl⟩) rfl rfl
          | exact .levels _ (.inl rfl) rfl rfl
          | exact .levels _ (.inr ⟨rfl, rfl⟩) rfl rfl
    · rintro ⟨h1, h2⟩
      cases on <;> cases levels <;> cases onSelf <;> cases onOther <;> cases selfLevels <;> cases otherLevels <;>
        cases h1 <;> cases h2 <;> simp_all [LinkArgs.specs, KeySpec.make]
  · intro e h
    cases on <;> cases levels <;> cases onSelf <;> cases onOther <;> cases selfLevels <;> cases otherLevels <;>
      first | cases h; done | exact (Except.error.inj h).symm

theorem collect_ok_iff (g : Str → Except Err (List V)) (ls : List Str) :
    (∃ r, collect g ls = .ok r ∧ r.length = ls.length) ↔ ∀ l ∈ ls, ∃ a, g l = .ok a := by
  induction ls with
  | nil => simp [collect]
  | cons l ls ih =>
    simp only [List.forall_mem_cons, ← ih, collect]
    cases hl : g l with
    | error e => simp
    | ok a =>
      cases hc : collect g ls with
      | error e => simp
      | ok r => simp

/-- the keys of a frame can be computed exactly when they are readable -/
theorem keys_iff (f : LFrame V) (s : KeySpec) : (∃ ks, f.keys s = .ok ks) ↔ Readable f s := by
  unfold LFrame.keys Readable
  cases s.labels with
  | none => simp
  | some ls =>
    simp only
    have hne : ∀ g : Str → Except Err (List V), (∃ ks, (match collect g ls with
        | .error e => Except.error e
        | .ok [] => .error .value
        | .ok arrays => .ok (zipKeys f.rows arrays)) = .ok ks) ↔ ls ≠ [] ∧ ∀ l ∈ ls, ∃ a, g l = .ok a := by
      intro g
      rw [← collect_ok_iff]
      cases hc : collect g ls with
      | error e => simp
      | ok r =>
        have hlen : r.length = ls.length := by
          induction ls generalizing r with
          | nil => cases hc; rfl
          | cons l ls ih =>
            simp only [collect] at hc
            cases hl : g l with
            | error e => rw [hl] at hc; cases hc
            | ok a =>
              rw [hl] at hc
              simp only at hc
              cases hc2 : collect g ls with
              | error e => rw [hc2] at hc; cases hc
              | ok r2 => rw [hc2] at hc; cases hc; simp [ih r2 hc2]
        cases r with
        | nil =>
          have : ls = [] := List.length_eq_zero_iff.mp (by simpa using hlen.symm)
          simp [this]
        | cons x xs =>
          have : ls ≠ [] := by rintro rfl; simp at hlen
          simp [this, hlen]
    by_cases hr : s.fromRows = true
    · simp only [hr, Bool.true_and, if_true, decide_eq_true_eq]
      by_cases hlt : f.levels.length < ls.length
      · have : ¬ ls.length ≤ f.levels.length := by omega
        simp [hlt, this]
      · rw [if_neg hlt]
        refine (hne f.level).trans ?_
        have hl : ∀ l, (∃ a, f.level l = .ok a) ↔ f.levels.count (some l) = 1 := by
          intro l
          unfold LFrame.level
          by_cases h1 : 1 < f.levels.count (some l)
          · simp [h1]; omega
          · by_cases h2 : some l ∈ f.levels
            · have := List.count_pos_iff.mpr h2
              simp [h1, h2]; omega
            · have := List.count_eq_zero.mpr h2
              simp [h1, h2]; omega
        simp only [hl]
        constructor
        · rintro ⟨h1, h2⟩; exact ⟨h1, by omega, h2⟩
        · rintro ⟨h1, -, h2⟩; exact ⟨h1, h2⟩
    · have hr' : s.fromRows = false := by simpa using hr
      simp only [hr', Bool.false_and, Bool.false_eq_true, if_false]
      refine (hne f.keyColumn).trans ?_
      have hl : ∀ l, (∃ a, f.keyColumn l = .ok a) ↔ l ∈ f.cols.map (·.1) ∧ l ∉ f.links.map (·.1) := by
        intro l
        unfold LFrame.keyColumn
        cases hd : dictGet f.cols l with
        | none =>
          have : l ∉ f.cols.map (·.1) := by
            rw [← dictGet_eq_none]; exact hd
          simp only [reduceCtorEq, exists_false, this, false_and]
        | some c =>
          have : l ∈ f.cols.map (·.1) := by
            by_contra hcon
            rw [← dictGet_eq_none] at hcon
            rw [hcon] at hd; cases hd
          by_cases h2 : l ∈ f.links.map (·.1)
          · simp only [h2, if_true, reduceCtorEq, exists_false, not_true, and_false]
          · simp only [h2, if_false, this, not_false_eq_true, and_self, Except.ok.injEq, exists_eq']
      simp only [hl]

/-- C61: after any history of safe operations, link_to returns exactly when the frame is a LinkedDataFrame, no side is described both by
columns and by levels, both keys can be read from their frames and have the same number of parts, and the keys of one side are unique -/
theorem C61_accepts (hev : EvKeeps E ev) {ops : List (LOp V)} (hs : SafeRun E isid ev E.start ops) {w : LWorld V}
    (hw : w = lrun E isid ev E.start ops) {r o : Nat} {f g : LFrame V} (hf : w.frames[r]? = some f) (hg : w.frames[o]? = some g)
    (name : Str) (a : LinkArgs) :
    (∃ b, (E.linkTo isid w r o name a).2 = .ok b) ↔
      f.linked = true ∧ ∃ ss os, SideKeys a.on a.levels a.onSelf a.selfLevels ss ∧ SideKeys a.on a.levels a.onOther a.otherLevels os ∧
        Readable f ss ∧ Readable g os ∧ parts f ss = parts g os ∧ (UniqueKeys f ss ∨ UniqueKeys g os) := by
  have hgood : LGood E w := by rw [hw]; exact good_run hev LGood.start hs
  have hpf : ∀ (f : LFrame V) (s : KeySpec), f.nlevels s = parts f s := fun _ _ => rfl
  constructor
  · rintro ⟨b, h⟩
    have h0 := h
    unfold LEnv.linkTo at h
    cases hsp : a.specs with
    | error e => rw [hsp] at h; cases h
    | ok p =>
      obtain ⟨ss, os⟩ := p
      rw [hsp] at h
      simp only [hf, hg] at h
      split at h
      · cases h
      · rename_i hlin
        cases hc : E.createLink r o f g ss os a.precompute with
        | error e => rw [hc] at h; cases h
        | ok l =>
          obtain ⟨ks, ko, flag, h1, h2, -⟩ := createLink_ok hc
          obtain ⟨hss, hos⟩ := ((C61_arguments a).1 ss os).mp hsp
          refine ⟨by simpa using hlin, ss, os, hss, hos, (keys_iff f ss).mp ⟨_, h1⟩, (keys_iff g os).mp ⟨_, h2⟩, ?_,
            (C44_flag hev hs hw hf hg hsp h0).2⟩
          unfold LEnv.createLink at hc
          split at hc
          · cases hc
          · rename_i hn
            rw [← hpf, ← hpf]; exact not_ne_iff.mp hn
  · rintro ⟨hlin, ss, os, hss, hos, hr1, hr2, hp, hu⟩
    have hsp := ((C61_arguments a).1 ss os).mpr ⟨hss, hos⟩
    obtain ⟨ks, hks⟩ := (keys_iff f ss).mpr hr1
    obtain ⟨ko, hko⟩ := (keys_iff g os).mpr hr2
    rw [uniqueKeys_iff (hgood.wf f (List.mem_of_getElem? hf)) hks, uniqueKeys_iff (hgood.wf g (List.mem_of_getElem? hg)) hko] at hu
    rw [← hpf, ← hpf] at hp
    obtain ⟨flag, hfl, hag⟩ : ∃ flag, aggFlag ks ko = .ok flag ∧ (flag = false → ko.Nodup) := by
      unfold aggFlag
      by_cases hk : ks.Nodup <;> by_cases hk2 : ko.Nodup <;> simp [hk, hk2] at hu ⊢
    unfold LEnv.linkTo
    simp only [hsp, hf, hg, hlin, Bool.not_true, Bool.false_eq_true, if_false, LEnv.createLink, hp, ne_eq, not_true, hks, hko, hfl]
    cases a.precompute with
    | false => exact ⟨_, rfl⟩
    | true =>
      simp only [if_true, LEnv.makeIndexer]
      cases flag with
      | true => exact ⟨_, rfl⟩
      | false =>
        simp only [Bool.false_eq_true, if_false]
        split_ifs <;> first | exact ⟨_, rfl⟩ | exact absurd (hag rfl) (by assumption)

/-- C61: a column or level that does not exist, or more levels than the index has, is reported as a LinkageSpecificationError (the
documentation says KeyError) -/
theorem C61_missing (w : LWorld V) {r o : Nat} {f g : LFrame V} (hf : w.frames[r]? = some f) (hg : w.frames[o]? = some g)
    (hlin : f.linked = true) (name : Str) (a : LinkArgs) (ss os : KeySpec) (ha : a.specs = .ok (ss, os)) (hp : parts f ss = parts g os)
    (l : Str) (ls : List Str) (hls : ss.labels = some (l :: ls))
    (hmiss : if ss.fromRows then some l ∉ f.levels else l ∉ f.cols.map (·.1)) :
    E.linkTo isid w r o name a = (w, .error .linkageSpec) := by
  have hk : f.keys ss = .error .linkageSpec := by
    unfold LFrame.keys
    rw [hls]
    simp only
    by_cases hr : ss.fromRows = true
    · simp only [hr, Bool.true_and, decide_eq_true_eq, if_true] at hmiss ⊢
      split_ifs
      · rfl
      · have : f.level l = .error .linkageSpec := by
          unfold LFrame.level
          rw [if_neg (by rw [List.count_eq_zero.mpr hmiss]; omega), if_neg hmiss]
        simp only [collect, this]
    · have hr' : ss.fromRows = false := by simpa using hr
      simp only [hr', Bool.false_and, Bool.false_eq_true, if_false] at hmiss ⊢
      have : f.keyColumn l = .error .linkageSpec := by
        unfold LFrame.keyColumn
        rw [dictGet_eq_none.mpr hmiss]
      simp only [collect, this]
  have hn : f.nlevels ss = g.nlevels os := hp
  simp [LEnv.linkTo, ha, hf, hg, hlin, LEnv.createLink, hn, hk]

/-- cases of C61: accepted links by columns and by levels; refused: columns and levels for one side, an unknown column, keys of different
length -/
example : (lxE.linkTo lxId lxW 2 1 lxP { onSelf := some [lxH] }).2 = .ok false ∧
    (lxE.linkTo lxId lxW 2 1 lxP { on := some [lxH], otherLevels := some [lxP] }).2 = .error .linkageSpec ∧
    (lxE.linkTo lxId lxW 2 1 lxP { onSelf := some [lxP, lxH] }).2 = .error .assertion ∧
    lxE.linkTo lxId lxW 2 1 lxP { onSelf := some [['?']] } = (lxW, .error .linkageSpec) := by
  refine ⟨by decide, by decide, by decide, ?_⟩
  exact C61_missing lxW (f := lxW.frames[2]) (g := lxW.frames[1]) rfl rfl rfl _ _ _ _ rfl (by decide) _ _ rfl (by decide)

end Cheval
