import Verif.Core.Model
import Verif.Spec.Utilities
import Verif.Core.ExprSound
import Verif.Core.DictLemmas
import Mathlib.Tactic.Linarith
import Mathlib.Data.Rat.Lemmas

/-!
# C28, C29: dict literals
-/
namespace Cheval
open Spec

theorem pad_length {d : Nat} {p : List Name} (h : p.length ≤ d) : (pad d p).length = d := by
  simp [pad]; omega

theorem nlevels_eq {paths : List (List Name)} {d : Nat} {labels : List (List Name)} (h : Labelled paths d labels) :
    nlevels labels = d := by
  obtain ⟨hl, _, hne, ⟨hd, _⟩, _⟩ := h
  subst hl
  cases paths with
  | nil => simp at hne
  | cons p ps => simp only [nlevels, List.map_cons, List.headD_cons]; exact pad_length (hd p (by simp))

theorem no_dot_path {paths : List (List Name)} {d : Nat} {labels : List (List Name)} (h : Labelled paths d labels) {p : List Name}
    (hp : p ∈ paths) : ['.'] ∉ p := by
  intro hm
  exact absurd (List.mem_singleton.mpr rfl) ((h.names p hp).2 _ hm).1

/-- padding is invertible on dot-free paths -/
theorem append_dots_inj {p q : List Name} {a b : Nat} (hp : ['.'] ∉ p) (hq : ['.'] ∉ q)
    (h : p ++ List.replicate a ['.'] = q ++ List.replicate b ['.']) : p = q := by
  induction p generalizing q with
  | nil =>
    cases q with
    | nil => rfl
    | cons y ys =>
      have : y ∈ List.replicate a (['.'] : Name) := by
        simp only [List.nil_append] at h; rw [h]; simp
      rw [List.eq_of_mem_replicate this] at hq; simp at hq
  | cons x xs ih =>
    cases q with
    | nil =>
      have : x ∈ List.replicate b (['.'] : Name) := by
        simp only [List.nil_append] at h; rw [← h]; simp
      rw [List.eq_of_mem_replicate this] at hp; simp at hp
    | cons y ys =>
      simp only [List.cons_append, List.cons.injEq] at h
      simp only [List.mem_cons, not_or] at hp hq
      rw [h.1, ih hp.2 hq.2 h.2]

theorem prefix_pad {p q : List Name} {d : Nat} (hp : ['.'] ∉ p) (hq : ['.'] ∉ q) (hl : p.length ≤ d) (hql : q.length ≤ d) :
    ((pad d q).take p.length = p) ↔ p <+: q := by
  have hlen := pad_length hql
  constructor
  · intro h
    have h1 : p <+: pad d q := by rw [← h]; exact List.take_prefix _ _
    by_cases hc : p.length ≤ q.length
    · exact List.prefix_of_prefix_length_le h1 (List.prefix_append _ _) hc
    · exfalso
      obtain ⟨t, ht⟩ := h1
      have : p[q.length]? = some ['.'] := by
        have h2 : (p ++ t)[q.length]? = p[q.length]? := by rw [List.getElem?_append_left (by omega)]
        have hd : q.length < d := by omega
        rw [← h2, ht, pad, List.getElem?_append_right (le_refl _)]
        simp [hd]
      exact hp (List.mem_of_getElem? this)
  · intro h
    have h1 : p <+: pad d q := h.trans (List.prefix_append _ _)
    exact (List.prefix_iff_eq_take.mp h1).symm

section pos
variable {paths : List (List Name)} {d : Nat} {labels : List (List Name)}

theorem label_get (h : Labelled paths d labels) (j : Nat) (hj : j < paths.length) : labels[j]? = some (pad d paths[j]) := by
  rw [h.labels]; simp [hj]

theorem mem_positionsOf {key : List Name} {j : Nat} : j ∈ positionsOf labels key ↔ labels[j]? = some key := by
  simp only [positionsOf, List.mem_filter, List.mem_range, decide_eq_true_eq]
  constructor
  · exact fun h => h.2
  · intro h
    exact ⟨by by_contra hc; rw [List.getElem?_eq_none (by omega)] at h; simp at h, h⟩

/-- the column of a choice -/
theorem positionsOf_pad (h : Labelled paths d labels) {key : List Name} (hk : ['.'] ∉ key) {j : Nat} (hj : j < paths.length) :
    j ∈ positionsOf labels (key ++ List.replicate (d - key.length) ['.']) ↔ paths[j] = key := by
  rw [mem_positionsOf, label_get h j hj, Option.some_inj]
  constructor
  · intro he
    exact append_dots_inj (no_dot_path h (List.getElem_mem hj)) hk he
  · intro he; rw [← he]; rfl

theorem positionsOf_lt (h : Labelled paths d labels) {key : List Name} {j : Nat} (hj : j ∈ positionsOf labels key) : j < paths.length := by
  have := List.mem_range.mp (List.mem_filter.mp hj).1
  rwa [h.labels, List.length_map] at this

theorem positionsOf_nil (h : Labelled paths d labels) {key : List Name} (hk : ['.'] ∉ key) :
    positionsOf labels (key ++ List.replicate (d - key.length) ['.']) = [] ↔ key ∉ paths := by
  rw [List.eq_nil_iff_forall_not_mem]
  constructor
  · intro hn hm
    obtain ⟨j, hj, rfl⟩ := List.getElem_of_mem hm
    exact hn j ((positionsOf_pad h hk hj).mpr rfl)
  · intro hn j hj
    have hjl := positionsOf_lt h hj
    rw [positionsOf_pad h hk hjl] at hj
    exact hn (hj ▸ List.getElem_mem hjl)

theorem mem_positionsBelow (h : Labelled paths d labels) {key : List Name} (hk : ['.'] ∉ key) (hl : key.length ≤ d) {j : Nat}
    (hj : j < paths.length) : j ∈ positionsBelow labels key ↔ key <+: paths[j] := by
  have hlab : labels.length = paths.length := by rw [h.labels]; simp
  simp only [positionsBelow, List.mem_filter, List.mem_range, decide_eq_true_eq, hlab, hj, true_and]
  rw [List.getD_eq_getElem?_getD, label_get h j hj, Option.getD_some]
  exact prefix_pad hk (no_dot_path h (List.getElem_mem hj)) hl (h.depth.1 _ (List.getElem_mem hj))

end pos

theorem stem_dotfree {key : List Str} (h : ['.'] ∉ key) : ['.'] ∉ stem key := by
  intro hm
  exact h ((List.takeWhile_sublist _).subset hm)

theorem stem_of_not_wild {key : List Str} (h : wild key = false) : stem key = key := by
  have : ['_'] ∉ key := by simpa [wild] using h
  rw [stem]
  clear h
  induction key with
  | nil => rfl
  | cons x xs ih =>
    simp only [List.mem_cons, not_or] at this
    rw [List.takeWhile_cons, if_pos (by simpa using fun hc => this.1 hc.symm), ih this.2]

/-- what an entry does to the column of a choice: nothing (`none`) or a new value -/
def touch (e : List Str × ℚ) (path : List Name) : Option ℚ :=
  if keyMeans e.1 path then some e.2 else if wild e.1 ∧ path = stem e.1 then some 0 else none

theorem insertDictVal_spec {paths : List (List Name)} {d : Nat} {labels : List (List Name)} (h : Labelled paths d labels)
    (key : List Str) (hk : KeyOk key) (v : ℚ) (arr : Nat → ℚ) :
    (KnownKey paths d key → ∃ row, insertDictVal labels key v arr = .ok row ∧
      ∀ j (hj : j < paths.length), row j = (touch (key, v) paths[j]).getD (arr j)) ∧
    (¬ KnownKey paths d key → insertDictVal labels key v arr = .error .key ∨ insertDictVal labels key v arr = .error .assertion) := by
  have hnl := nlevels_eq h
  by_cases hkd : ['.'] ∈ key
  · -- the string "."
    obtain ⟨x, rfl⟩ := List.length_eq_one_iff.mp (hk.resolve_left (by simpa using hkd))
    obtain rfl : (['.'] : Str) = x := by simpa using hkd
    have hw : wild [(['.'] : Str)] = false := by decide
    have hn : ¬ KnownKey paths d [['.']] := by
      simp only [KnownKey, hw, Bool.false_eq_true, if_false]
      intro hm; exact no_dot_path h hm (by simp)
    refine ⟨fun hc => absurd hc hn, fun _ => Or.inl ?_⟩
    have hpos : ∀ k, positionsOf labels ([['.']] ++ List.replicate k ['.']) = [] := by
      intro k
      rw [List.eq_nil_iff_forall_not_mem]
      intro j hj
      have hjl := positionsOf_lt h hj
      rw [mem_positionsOf, label_get h j hjl, Option.some_inj] at hj
      obtain ⟨y, ys, hy⟩ := List.exists_cons_of_ne_nil (h.names _ (List.getElem_mem hjl)).1
      rw [hy] at hj
      simp only [pad, List.cons_append, List.cons.injEq] at hj
      have := no_dot_path h (List.getElem_mem hjl)
      rw [hy, hj.1] at this; simp at this
    unfold insertDictVal
    have h1 := hpos 0
    simp only [List.replicate_zero, List.append_nil] at h1
    have h2 := hpos (d - 1)
    by_cases hd1 : d = 1
    · simp [hnl, hd1, h1]
    · have h3 : List.takeWhile (fun k => decide (k ≠ ['_'])) [(['.'] : Str)] = [['.']] := by decide
      have h4 : ['_'] ∉ [(['.'] : Str)] := by decide
      rw [hnl, if_neg hd1]
      simp only [h3, if_neg h4, List.length_singleton, h2]
  have hsd := stem_dotfree hkd
  unfold insertDictVal
  rw [hnl]
  by_cases hd1 : d = 1
  · rw [if_pos hd1]
    -- multinomial models
    by_cases hlen : key.length = 1
    · rw [if_neg (by omega : ¬ key.length ≠ 1)]
      have hpd : key ++ List.replicate (d - key.length) (['.'] : Name) = key := by rw [hd1, hlen]; simp
      have hnil := positionsOf_nil h hkd
      have hpos := fun j hj => positionsOf_pad h hkd (j := j) (hj := hj)
      rw [hpd] at hnil hpos
      have hkn : KnownKey paths d key ↔ key ∈ paths := by
        unfold KnownKey
        cases hw : wild key with
        | false => simp
        | true =>
          simp only [if_true]
          have hu : ['_'] ∈ key := by simpa [wild] using hw
          constructor
          · intro hc; omega
          · intro hc; exact absurd rfl ((h.names _ hc).2 _ hu).2
      rw [hkn]
      constructor
      · intro hm
        have hne : positionsOf labels key ≠ [] := fun hc => (hnil.mp hc) hm
        obtain ⟨x, xs, hx⟩ := List.exists_cons_of_ne_nil hne
        refine ⟨setCells arr (positionsOf labels key) v, ?_, ?_⟩
        · rw [hx]
        · intro j hj
          have hw : wild key = false := by
            by_contra hc
            have hu : ['_'] ∈ key := by simpa [wild] using hc
            exact absurd rfl ((h.names _ hm).2 _ hu).2
          simp only [setCells, hpos j hj, touch, keyMeans, hw, Bool.false_eq_true, if_false, decide_eq_true_eq, false_and]
          by_cases hc : paths[j] = key <;> simp [hc]
      · intro hm
        rw [hnil.mpr hm]; exact Or.inl rfl
    · rw [if_pos hlen]
      refine ⟨?_, fun _ => Or.inr rfl⟩
      intro hkn
      exfalso
      unfold KnownKey at hkn
      split at hkn
      · omega
      · have h1 := (h.depth.1 _ hkn)
        have h2 := (h.names _ hkn).1
        have : key.length ≠ 0 := by simpa using h2
        omega
  · rw [if_neg hd1]
    simp only []
    change (_ → ∃ row, (if ['_'] ∈ key then
        (if d < (stem key).length then _ else _) else _) = _ ∧ _) ∧ _
    have hd2 : 1 < d := by
      obtain ⟨p, hp, hpl⟩ := h.depth.2
      have := (h.names p hp).1
      have : p.length ≠ 0 := by simpa using this
      omega
    by_cases hu : ['_'] ∈ key
    · have hw : wild key = true := by simpa [wild] using hu
      have hkn : KnownKey paths d key ↔ stem key ∈ paths := by simp [KnownKey, hw, hd2]
      rw [hkn, if_pos hu]
      by_cases hlen : d < (stem key).length
      · rw [if_pos hlen]
        refine ⟨fun hm => ?_, fun _ => Or.inl ?_⟩
        · exact absurd (h.depth.1 _ hm) (by omega)
        · rw [if_pos hu]; exact if_pos hlen
      · have hnil := positionsOf_nil h hsd
        constructor
        · intro hm
          rw [if_neg hlen]
          have hb : positionsBelow labels (stem key) ≠ [] := by
            obtain ⟨j, hj, he⟩ := List.getElem_of_mem hm
            have : j ∈ positionsBelow labels (stem key) := (mem_positionsBelow h hsd (by omega) hj).mpr (by rw [he])
            exact List.ne_nil_of_mem this
          have hq : positionsOf labels (stem key ++ List.replicate (d - (stem key).length) ['.']) ≠ [] :=
            fun hc => hnil.mp hc hm
          obtain ⟨x, xs, hx⟩ := List.exists_cons_of_ne_nil hb
          obtain ⟨y, ys, hy⟩ := List.exists_cons_of_ne_nil hq
          refine ⟨setCells (setCells arr (positionsBelow labels (stem key)) v)
            (positionsOf labels (stem key ++ List.replicate (d - (stem key).length) ['.'])) 0, ?_, ?_⟩
          · change (match positionsBelow labels (stem key), positionsOf labels (stem key ++ List.replicate (d - (stem key).length) ['.']) with
              | [], _ => _ | _, [] => _ | ps, qs => _) = _
            rw [hx, hy]
          · intro j hj
            simp only [setCells, positionsOf_pad h hsd hj, mem_positionsBelow h hsd (by omega : (stem key).length ≤ d) hj, touch,
              keyMeans, hw, if_true, decide_eq_true_eq, true_and]
            by_cases hc : paths[j] = stem key
            · simp [hc]
            · by_cases hc2 : stem key <+: paths[j] <;> simp [hc, hc2]
        · intro hm
          left
          rw [if_pos hu]
          change (if d < (stem key).length then _ else _) = _
          rw [if_neg hlen]
          change (match positionsBelow labels (stem key), positionsOf labels (stem key ++ List.replicate (d - (stem key).length) ['.']) with
              | [], _ => _ | _, [] => _ | ps, qs => _) = _
          rw [hnil.mpr hm]
          cases positionsBelow labels (stem key) <;> rfl
    · have hw : wild key = false := by simpa [wild] using hu
      have hst := stem_of_not_wild hw
      have hkn : KnownKey paths d key ↔ key ∈ paths := by simp [KnownKey, hw]
      have hnil := positionsOf_nil h hkd
      rw [hkn, if_neg hu, if_neg hu]
      have hst' : List.takeWhile (fun k => decide (k ≠ ['_'])) key = key := hst
      simp only [hst']
      constructor
      · intro hm
        have hne : positionsOf labels (key ++ List.replicate (d - key.length) ['.']) ≠ [] := fun hc => (hnil.mp hc) hm
        obtain ⟨x, xs, hx⟩ := List.exists_cons_of_ne_nil hne
        refine ⟨setCells arr (positionsOf labels (key ++ List.replicate (d - key.length) ['.'])) v, ?_, ?_⟩
        · rw [hx]
        · intro j hj
          simp only [setCells, positionsOf_pad h hkd hj, touch, keyMeans, hw, Bool.false_eq_true, if_false, decide_eq_true_eq, false_and]
          by_cases hc : paths[j] = key <;> simp [hc]
      · intro hm
        rw [hnil.mpr hm]; exact Or.inl rfl

/-- the value after a sequence of entries: the last entry touching the choice decides -/
def lastTouch (lit : Literal) (path : List Name) (init : ℚ) : ℚ := lit.foldl (fun v e => (touch e path).getD v) init

theorem dictRow_fold {paths : List (List Name)} {d : Nat} {labels : List (List Name)} (h : Labelled paths d labels)
    (lit : Literal) (hk : ∀ e ∈ lit, KeyOk e.1) (arr : Nat → ℚ) :
    ((∀ e ∈ lit, KnownKey paths d e.1) →
      ∃ row, lit.foldlM (fun arr e => insertDictVal labels e.1 e.2 arr) arr = .ok row ∧
        ∀ j (hj : j < paths.length), row j = lastTouch lit paths[j] (arr j)) ∧
    ((∃ e ∈ lit, ¬ KnownKey paths d e.1) →
      lit.foldlM (fun arr e => insertDictVal labels e.1 e.2 arr) arr = .error .key ∨
      lit.foldlM (fun arr e => insertDictVal labels e.1 e.2 arr) arr = .error .assertion) := by
  induction lit generalizing arr with
  | nil => exact ⟨fun _ => ⟨arr, rfl, fun _ _ => rfl⟩, by simp⟩
  | cons e es ih =>
    obtain ⟨h1, h2⟩ := insertDictVal_spec h e.1 (hk e (by simp)) e.2 arr
    by_cases hke : KnownKey paths d e.1
    · obtain ⟨row, hr, hrow⟩ := h1 hke
      obtain ⟨h3, h4⟩ := ih (fun e' he => hk e' (by simp [he])) row
      simp only [List.foldlM_cons, hr, bind, Except.bind] at *
      constructor
      · intro hall
        obtain ⟨row', hr', hrow'⟩ := h3 (fun e' he => hall e' (by simp [he]))
        refine ⟨row', hr', fun j hj => ?_⟩
        rw [hrow' j hj, hrow j hj]; rfl
      · rintro ⟨e', he', hn⟩
        rcases List.mem_cons.mp he' with rfl | hm
        · exact absurd hke hn
        · exact h4 ⟨e', hm, hn⟩
    · constructor
      · intro hall; exact absurd (hall e (by simp)) hke
      · intro _
        rcases h2 hke with h2 | h2 <;> simp [List.foldlM_cons, h2, bind, Except.bind]

/-! ## C28 -/

/-- **C28 (what the code computes)** A literal whose keys all name choices denotes the row in which each choice has the value
given by the last entry touching it: an entry `A.B` touches the choice `A.B`, an entry `A._` gives its value to all choices
nested in `A` and also sets `A` itself to 0; 0 if no entry touches the choice. -/
theorem C28_row {paths : List (List Name)} {d : Nat} {labels : List (List Name)} (h : Labelled paths d labels)
    (lit : Literal) (hk : ∀ e ∈ lit, KeyOk e.1) (hall : ∀ e ∈ lit, KnownKey paths d e.1) :
    ∃ row, dictRow labels lit = .ok row ∧ ∀ j (hj : j < paths.length), row j =
      match lit.reverse.find? (fun e => keyMeans e.1 paths[j] || (wild e.1 && decide (paths[j] = stem e.1))) with
      | some e => if keyMeans e.1 paths[j] then e.2 else 0
      | none => 0 := by
  obtain ⟨row, hr, hrow⟩ := (dictRow_fold h lit hk fun _ => 0).1 hall
  refine ⟨row, hr, fun j hj => ?_⟩
  rw [hrow j hj]
  generalize paths[j] = path
  clear hr hrow hall hk h
  induction lit using List.reverseRecOn with
  | nil => rfl
  | append_singleton l e ih =>
    simp only [lastTouch, List.foldl_append, List.foldl_cons, List.foldl_nil, List.reverse_append, List.reverse_cons,
      List.reverse_nil, List.nil_append, List.singleton_append, List.find?_cons] at ih ⊢
    by_cases hm : keyMeans e.1 path = true
    · simp [touch, hm]
    · by_cases hw : wild e.1 = true ∧ path = stem e.1
      · obtain ⟨hw1, rfl⟩ := hw
        have hm' : keyMeans e.1 (stem e.1) = false := by simpa using hm
        simp [touch, hm', hw1]
      · have hb : (wild e.1 && decide (path = stem e.1)) = false := by
          simpa using hw
        simp only [touch, hm, hw, if_false, Option.getD_none, hb, Bool.or_self, Bool.false_eq_true]
        exact ih

/-- **C28 (partial)** Provided no entry for a choice `A` precedes an entry `A._`, the row has at each choice the value of the
last entry standing for it, and 0 elsewhere. -/
theorem C28_dict_partial {paths : List (List Name)} {d : Nat} {labels : List (List Name)} (h : Labelled paths d labels)
    (lit : Literal) (hk : ∀ e ∈ lit, KeyOk e.1) (hall : ∀ e ∈ lit, KnownKey paths d e.1) (hr : NoReset lit) :
    ∃ row, dictRow labels lit = .ok row ∧ ∀ j (hj : j < paths.length), row j = dictValue lit paths[j] := by
  obtain ⟨row, hr', hrow⟩ := (dictRow_fold h lit hk fun _ => 0).1 hall
  refine ⟨row, hr', fun j hj => ?_⟩
  rw [hrow j hj]
  generalize paths[j] = path
  clear hr' hrow hall hk h
  induction lit using List.reverseRecOn with
  | nil => rfl
  | append_singleton l e ih =>
    have hrl : NoReset l := fun l₁ e' l₂ he hw e'' hm => hr l₁ e' (l₂ ++ [e]) (by rw [he]; simp) hw e'' hm
    have ih := ih hrl
    simp only [lastTouch, dictValue, List.foldl_append, List.foldl_cons, List.foldl_nil, List.reverse_append, List.reverse_cons,
      List.reverse_nil, List.nil_append, List.singleton_append, List.find?_cons] at ih ⊢
    by_cases hm : keyMeans e.1 path = true
    · simp [touch, hm]
    · by_cases hw : wild e.1 = true ∧ path = stem e.1
      · have hn := hr l e [] (by simp) hw.1
        have hf : l.reverse.find? (fun e => keyMeans e.1 path) = none := by
          rw [List.find?_eq_none]
          intro x hx
          rw [hw.2, hn x (by simpa using hx)]; simp
        simp [touch, hm, hw.1, hw.2 ▸ hf, ← hw.2]
        rw [hf]
      · simp only [touch, hm, hw, if_false, Option.getD_none, Bool.false_eq_true]
        exact ih

/-- **C28 (unknown keys)** A literal with a key that names no choice raises KeyError, or AssertionError for dotted keys in
a multinomial model. -/
theorem C28_unknown {paths : List (List Name)} {d : Nat} {labels : List (List Name)} (h : Labelled paths d labels)
    (lit : Literal) (hk : ∀ e ∈ lit, KeyOk e.1) (hn : ∃ e ∈ lit, ¬ KnownKey paths d e.1) :
    dictRow labels lit = .error .key ∨ dictRow labels lit = .error .assertion :=
  (dictRow_fold h lit hk fun _ => 0).2 hn

/-! a nested model with choices R, R.A, R.A.x, R.A.y, R.B, S -/
def nR : Name := ['R']
def nS : Name := ['S']
def nA : Name := ['A']
def nB : Name := ['B']
def nX : Name := ['x']
def nY : Name := ['y']
def exPaths : List (List Name) := [[nR], [nR, nA], [nR, nA, nX], [nR, nA, nY], [nR, nB], [nS]]

theorem exLabelled : Labelled exPaths 3 (exPaths.map (pad 3)) :=
  ⟨rfl, by decide, by decide, by decide, by decide⟩

/-- `{R._: 5, R.B: 2, S: 1}` meets the hypotheses of `C28_dict_partial`: R gets 0, R.A, R.A.x, R.A.y get 5, R.B gets 2, S gets 1 -/
example : let lit : Literal := [([nR, ['_']], 5), ([nR, nB], 2), ([nS], 1)]
    (∀ e ∈ lit, KeyOk e.1) ∧ (∀ e ∈ lit, KnownKey exPaths 3 e.1) ∧ NoReset lit ∧
    exPaths.map (dictValue lit) = [0, 5, 5, 5, 2, 1] := by
  refine ⟨?_, ?_, ?_, ?_⟩
  · unfold KeyOk; decide
  · unfold KnownKey; decide
  · intro l₁ e l₂ he hw
    match l₁, he with
    | [], _ => simp
    | [_], he =>
      simp only [List.cons_append, List.nil_append, List.cons.injEq] at he
      rw [← he.2.1] at hw; exact absurd hw (by decide)
    | [_, _], he =>
      simp only [List.cons_append, List.nil_append, List.cons.injEq] at he
      rw [← he.2.2.1] at hw; exact absurd hw (by decide)
    | _ :: _ :: _ :: _, he =>
      simp only [List.cons_append, List.cons.injEq] at he
      have := congrArg List.length he.2.2.2; simp at this
  · decide +kernel

/-- **C28 (violated)** `{R.A: 1, R.A._: 2}` in the model above: the second entry does not stand for `R.A`, yet it resets the
value 1 given to it by the first one. So does `R.A._` after `R._`. -/
theorem C28_reset_refuted :
    (∃ row, dictRow (exPaths.map (pad 3)) [([nR, nA], 1), ([nR, nA, ['_']], 2)] = .ok row ∧ row 1 = 0 ∧
      dictValue [([nR, nA], 1), ([nR, nA, ['_']], 2)] [nR, nA] = 1) ∧
    (∃ row, dictRow (exPaths.map (pad 3)) [([nR, ['_']], 1), ([nR, nA, ['_']], 2)] = .ok row ∧ row 1 = 0 ∧
      dictValue [([nR, ['_']], 1), ([nR, nA, ['_']], 2)] [nR, nA] = 1) := by
  constructor
  · obtain ⟨row, h1, h2⟩ := C28_row exLabelled [([nR, nA], 1), ([nR, nA, ['_']], 2)] (by unfold KeyOk; decide)
      (by unfold KnownKey; decide)
    refine ⟨row, h1, ?_, by decide +kernel⟩
    rw [h2 1 (by decide)]; decide +kernel
  · obtain ⟨row, h1, h2⟩ := C28_row exLabelled [([nR, ['_']], 1), ([nR, nA, ['_']], 2)] (by unfold KeyOk; decide)
      (by unfold KnownKey; decide)
    refine ⟨row, h1, ?_, by decide +kernel⟩
    rw [h2 1 (by decide)]; decide +kernel

/-- **C28 (violated for values)** The values are stored in single precision. Whatever the rounding, its results are dyadic
fractions, so the value 0.1 is not kept although the array and the utilities are in double precision. -/
theorem C28_rounded_refuted (env : PyEnv) (hm : env.mode ≠ .utilities) (hf : ∀ x, ∃ k : Nat, (env.f32 x).den = 2 ^ k) :
    ∃ s e' lit, visit env (.dict (.cons (.name nA) (.num (1 / 10)) .nil)) (freshParser [] []) = (s, .ok e') ∧
      s.dicts = [(dictPrefix ++ decimal 0, lit)] ∧ dictGet lit [nA] ≠ some (1 / 10) := by
  refine ⟨⟨[], [], [], [(dictPrefix ++ decimal 0, [([nA], env.f32 (1 / 10))])], []⟩, .name (dictPrefix ++ decimal 0),
    [([nA], env.f32 (1 / 10))], ?_, rfl, ?_⟩
  · simp only [visit, visitDict, hm, if_false, dictItems, dictKey, dictSet]
    rfl
  · intro hc
    have hc : env.f32 (1 / 10) = 1 / 10 := by simpa [dictGet] using hc
    obtain ⟨k, hk⟩ := hf (1 / 10)
    rw [hc] at hk
    have h10 : ((1 : ℚ) / 10).den = 10 := by decide +kernel
    rw [h10] at hk
    have : (5 : Nat) ∣ 2 ^ k := ⟨2, by omega⟩
    have := (by decide : Nat.Prime 5).dvd_of_dvd_pow this
    omega

/-! ## C29 -/

theorem dictItems_read (env : PyEnv) : ∀ (items : PItems) (l acc : Literal), readItems items = some l →
    dictItems env items acc = .ok (l.foldl (fun a e => dictSet a e.1 (env.f32 e.2)) acc)
  | .nil, l, acc, h => by simp only [readItems, Option.some.injEq] at h; subst h; rfl
  | .star _ _, l, acc, h => by simp [readItems] at h
  | .cons k v rest, l, acc, h => by
    simp only [readItems] at h
    split at h
    · rename_i key x l' h1 h2
      simp only [Option.some.injEq] at h; subst h
      rw [dictItems, dictKey_readKey k _ h1]
      exact dictItems_read env rest l' _ h2
    · rename_i key x l' h1 h2
      simp only [Option.some.injEq] at h; subst h
      rw [dictItems, dictKey_readKey k _ h1]
      exact dictItems_read env rest l' _ h2
    · simp at h

/-- **C29 (accepted in models)** With the mode `ChoiceModel` uses, every dict literal with readable keys and numeric values is
accepted, in every state of the parser; its entries are those written, the last of several with the same key winning, with
values rounded to single precision. -/
theorem C29_accepted (env : PyEnv) (hm : env.mode = .cheval) (items : PItems) (lit : Literal) (hr : readItems items = some lit)
    (s : PSt) : ∃ s' name entries, visit env (.dict items) s = (s', .ok (.name name)) ∧ dictGet s'.dicts name = some entries ∧
      ∀ key, dictGet entries key = (lit.reverse.find? fun e => decide (e.1 = key)).map fun e => env.f32 e.2 := by
  refine ⟨⟨s.simple, s.chainedAll, s.chains, dictSet s.dicts (dictPrefix ++ decimal s.dicts.length)
      (lit.foldl (fun a e => dictSet a e.1 (env.f32 e.2)) []), s.visited⟩, dictPrefix ++ decimal s.dicts.length,
    lit.foldl (fun a e => dictSet a e.1 (env.f32 e.2)) [], ?_, by rw [dictGet_dictSet, if_pos rfl], ?_⟩
  · simp only [visit, visitDict, hm, dictItems_read env items lit [] hr]; rfl
  · intro key
    clear hr
    induction lit using List.reverseRecOn with
    | nil => rfl
    | append_singleton l e ih =>
      rw [List.foldl_append, List.foldl_cons, List.foldl_nil, dictGet_dictSet, ih, List.reverse_append, List.reverse_singleton,
        List.singleton_append, List.find?_cons]
      by_cases h : e.1 = key
      · simp [h]
      · have h2 : ¬ key = e.1 := fun hc => h hc.symm
        simp [h, h2]

/-- **C29 (violated)** The mode with which LinkedDataFrames parse their expressions accepts every literal too; the only mode
that rejects them is `UTILITIES`, which no caller passes. -/
theorem C29_modes_refuted (env : PyEnv) (items : PItems) (lit : Literal) (hr : readItems items = some lit) (s : PSt) :
    (env.mode = .dataframe → ∃ s' e', visit env (.dict items) s = (s', .ok e')) ∧
    (env.mode = .utilities → visit env (.dict items) s = (s, .error .unsupportedSyntax)) := by
  constructor
  · intro hm
    exact ⟨_, _, by simp only [visit, visitDict, hm, dictItems_read env items lit [] hr]; rfl⟩
  · intro hm
    simp [visit, visitDict, hm]

/-- the literal `{R.A: -1, S: 2}` is readable -/
example : readItems (.cons (.attr (.name nR) nA) (.unary .neg (.num 1)) (.cons (.name nS) (.num 2) .nil)) =
    some [([nR, nA], -1), ([nS], 2)] := rfl

end Cheval
