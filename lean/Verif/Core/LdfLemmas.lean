import Verif.Core.Ldf
import Verif.Spec.Ldf
import Verif.Core.DictLemmas

/-!
# Arrays, keys and indexers of LinkedDataFrames
-/
namespace Cheval
variable {V : Type}

/-! ## arrays -/

theorem takeInts_ok {A : Type} {a : List A} : ∀ {ix : List Int} {b : List A}, takeInts a ix = .ok b →
    b.length = ix.length ∧ ∀ (i : Nat) (k : Int), ix[i]? = some k → 0 ≤ k → k.toNat < a.length ∧ b[i]? = a[k.toNat]?
  | [], b, h => by
    simp only [takeInts, Except.ok.injEq] at h
    subst h
    exact ⟨rfl, fun i k hk => by simp at hk⟩
  | k :: ks, b, h => by
    unfold takeInts at h
    cases hp : takeAt a.length k with
    | none => rw [hp] at h; simp at h
    | some p =>
      rw [hp] at h
      simp only at h
      cases hx : a[p]? with
      | none => rw [hx] at h; simp at h
      | some x =>
        cases hr : takeInts a ks with
        | error e => rw [hx, hr] at h; simp at h
        | ok r =>
          rw [hx, hr] at h
          simp only [Except.ok.injEq] at h
          subst h
          obtain ⟨hl, ih⟩ := takeInts_ok hr
          refine ⟨by simp [hl], ?_⟩
          intro i k' hk' h0
          cases i with
          | zero =>
            simp only [List.getElem?_cons_zero, Option.some.injEq] at hk'
            subst hk'
            unfold takeAt at hp
            rw [if_pos h0] at hp
            by_cases hlt : k.toNat < a.length
            · rw [if_pos hlt] at hp
              simp only [Option.some.injEq] at hp
              subst hp
              exact ⟨hlt, by simpa using hx.symm⟩
            · rw [if_neg hlt] at hp; simp at hp
          | succ i => simpa using ih i k' (by simpa using hk') h0

/-- valid positions: -1, or below the length -/
def Positions (n : Nat) (ix : List Int) : Prop := ∀ k ∈ ix, k = -1 ∨ (0 ≤ k ∧ k.toNat < n)

theorem takeInts_total {A : Type} {a : List A} : ∀ {ix : List Int}, Positions a.length ix → (a ≠ [] ∨ (-1 : Int) ∉ ix) →
    ∃ b, takeInts a ix = .ok b
  | [], _, _ => ⟨[], rfl⟩
  | k :: ks, hp, hn => by
    obtain ⟨r, hr⟩ := takeInts_total (a := a) (ix := ks) (fun x hx => hp x (List.mem_cons_of_mem _ hx))
      (hn.imp id fun h hm => h (List.mem_cons_of_mem _ hm))
    have hk := hp k List.mem_cons_self
    have : ∃ p, takeAt a.length k = some p ∧ p < a.length := by
      rcases hk with rfl | ⟨h0, hl⟩
      · rcases hn with hn | hn
        · have : 0 < a.length := List.length_pos_iff.mpr hn
          refine ⟨a.length - 1, ?_, by omega⟩
          unfold takeAt
          rw [if_neg (by omega), if_pos (by omega)]
          congr 1; omega
        · exact absurd List.mem_cons_self hn
      · exact ⟨k.toNat, by unfold takeAt; rw [if_pos h0, if_pos hl], hl⟩
    obtain ⟨p, hp1, hp2⟩ := this
    refine ⟨a[p] :: r, ?_⟩
    unfold takeInts
    rw [hp1]
    simp only [List.getElem?_eq_getElem hp2, hr]

theorem takeInts_empty {A : Type} : ∀ {ix : List Int}, (-1 : Int) ∈ ix → takeInts ([] : List A) ix = .error .index
  | [], h => by simp at h
  | k :: ks, _ => by
    unfold takeInts
    have : takeAt ([] : List A).length k = none := by
      unfold takeAt
      simp only [List.length_nil]
      split <;> simp
      omega
    rw [this]

theorem foldl_set_getElem? {A : Type} (v : A) : ∀ (ps : List Nat) (a : List A) (i : Nat),
    (ps.foldl (fun b p => b.set p v) a)[i]? = if i ∈ ps ∧ i < a.length then some v else a[i]?
  | [], a, i => by simp
  | p :: ps, a, i => by
    simp only [List.foldl_cons]
    rw [foldl_set_getElem? v ps, List.length_set]
    by_cases h1 : i ∈ ps ∧ i < a.length
    · rw [if_pos h1, if_pos ⟨List.mem_cons_of_mem _ h1.1, h1.2⟩]
    · rw [if_neg h1, List.getElem?_set]
      by_cases h2 : p = i
      · subst h2
        by_cases h3 : p < a.length
        · simp [h3]
        · simp [h3]
      · rw [if_neg h2]
        by_cases h4 : i ∈ p :: ps ∧ i < a.length
        · exfalso
          rcases List.mem_cons.mp h4.1 with h | h
          · exact h2 h.symm
          · exact h1 ⟨h, h4.2⟩
        · rw [if_neg h4]

theorem mem_missingOf {fl : List Int} {i : Nat} : i ∈ missingOf fl ↔ fl[i]? = some (-1) := by
  unfold missingOf
  simp only [List.mem_filter, List.mem_range, decide_eq_true_eq, and_iff_right_iff_imp]
  intro h
  exact (List.getElem?_eq_some_iff.mp h).1

/-- an indexer applied to an array, then the missing rows filled -/
def applyIx {A : Type} (a : List A) (fl : List Int) (v : A) : List A :=
  fl.map fun k => if k = -1 then v else (a[k.toNat]?).getD v

theorem applyIx_length {A : Type} (a : List A) (fl : List Int) (v : A) : (applyIx a fl v).length = fl.length := by
  simp [applyIx]

/-- the two statements of the loop of `_resolve_history` together -/
theorem take_put {A : Type} {a b : List A} {fl : List Int} {v : A} (hp : Positions a.length fl)
    (hb : takeInts a fl = .ok b) : putAll b (missingOf fl) v = .ok (applyIx a fl v) := by
  obtain ⟨hl, hv⟩ := takeInts_ok hb
  unfold putAll
  rw [if_pos]
  · congr 1
    apply List.ext_getElem?
    intro i
    rw [foldl_set_getElem?]
    simp only [mem_missingOf, applyIx, List.getElem?_map]
    cases hk : fl[i]? with
    | none =>
      have : fl.length ≤ i := List.getElem?_eq_none_iff.mp hk
      simp only [reduceCtorEq, false_and, if_false, Option.map_none]
      exact List.getElem?_eq_none (by omega)
    | some k =>
      have hi : i < fl.length := (List.getElem?_eq_some_iff.mp hk).1
      rcases hp k (List.mem_of_getElem? hk) with rfl | ⟨h0, h1⟩
      · rw [if_pos ⟨rfl, by omega⟩]; simp
      · have hne : k ≠ -1 := by omega
        rw [if_neg (by simp [hne])]
        obtain ⟨h2, h3⟩ := hv i k hk h0
        rw [h3, List.getElem?_eq_getElem h2]
        simp [hne, List.getElem?_eq_getElem h2]
  · intro p hp'
    rw [mem_missingOf] at hp'
    have := (List.getElem?_eq_some_iff.mp hp').1
    omega

/-! ## indexers -/

theorem getIndexer_length {L : Type} [DecidableEq L] (a b : List L) : (getIndexer a b).length = b.length := by
  simp [getIndexer]

theorem getIndexer_positions {L : Type} [DecidableEq L] (a b : List L) : Positions a.length (getIndexer a b) := by
  intro k hk
  simp only [getIndexer, List.mem_map] at hk
  obtain ⟨x, -, rfl⟩ := hk
  by_cases h : x ∈ a
  · right
    rw [if_pos h]
    exact ⟨Int.natCast_nonneg _, by simpa using List.idxOf_lt_length_of_mem h⟩
  · left; rw [if_neg h]

theorem getIndexer_self {L : Type} [DecidableEq L] {a : List L} (h : a.Nodup) :
    getIndexer a a = (List.range a.length).map fun (i : Nat) => (i : Int) := by
  apply List.ext_getElem
  · simp [getIndexer]
  · intro i h1 h2
    simp only [getIndexer, List.length_map] at h1
    simp only [getIndexer, List.getElem_map, List.getElem_range]
    rw [if_pos (List.getElem_mem h1), h.idxOf_getElem]

theorem applyIx_get {A L : Type} [DecidableEq L] {a : List A} {ko ks : List L} {v : A} {i : Nat} {k : L}
    (hl : a.length = ko.length) (hk : ks[i]? = some k) :
    (∀ j : Nat, ko.Nodup → ko[j]? = some k → (applyIx a (getIndexer ko ks) v)[i]? = a[j]?) ∧
    (k ∉ ko → (applyIx a (getIndexer ko ks) v)[i]? = some v) := by
  simp only [applyIx, getIndexer, List.getElem?_map, hk, Option.map_some]
  refine ⟨fun j hnd hj => ?_, fun hn => by rw [if_neg hn]; simp⟩
  have hm := List.mem_of_getElem? hj
  obtain ⟨hjl, hjk⟩ := List.getElem?_eq_some_iff.mp hj
  have hidx : ko.idxOf k = j := by rw [← hjk, hnd.idxOf_getElem]
  rw [if_pos hm, hidx]
  rw [if_neg (by omega)]
  simp [List.getElem?_eq_getElem (show j < a.length by omega)]

theorem takeInts_getIndexer_iff {A L : Type} [DecidableEq L] {a : List A} {ko ks : List L} (hl : a.length = ko.length) :
    (∃ b, takeInts a (getIndexer ko ks) = .ok b) ↔ (ko ≠ [] ∨ ks = []) := by
  constructor
  · rintro ⟨b, hb⟩
    by_contra hcon
    push Not at hcon
    obtain ⟨h1, h2⟩ := hcon
    subst h1
    have ha : a = [] := List.length_eq_zero_iff.mp (by simpa using hl)
    subst ha
    obtain ⟨k, ks', rfl⟩ := List.exists_cons_of_ne_nil h2
    rw [takeInts_empty] at hb
    · simp at hb
    · simp [getIndexer]
  · intro h
    apply takeInts_total (hl ▸ getIndexer_positions ko ks)
    rcases h with h | rfl
    · left
      rintro rfl
      exact h (List.length_eq_zero_iff.mp (by simpa using hl.symm))
    · right; simp [getIndexer]

/-! ## keys -/

/-- rectangular tables -/
structure LFrame.Wf (f : LFrame V) : Prop where
  index : ∀ k ∈ f.index, k.length = f.levels.length
  cols : ∀ e ∈ f.cols, e.2.vals.length = f.rows
  /-- no link is named like a column -/
  noClash : ∀ n ∈ f.links.map (·.1), n ∉ f.cols.map (·.1)
  nodup : (f.links.map (·.1)).Nodup
  plain : f.linked = false → f.links = []

theorem collect_ok {g : Str → Except Err (List V)} : ∀ {ls : List Str} {as : List (List V)}, collect g ls = .ok as →
    List.Forall₂ (fun l a => g l = .ok a) ls as
  | [], as, h => by simp only [collect, Except.ok.injEq] at h; subst h; exact .nil
  | l :: ls, as, h => by
    unfold collect at h
    cases hg : g l with
    | error e => rw [hg] at h; simp at h
    | ok a =>
      rw [hg] at h
      simp only at h
      cases hc : collect g ls with
      | error e => rw [hc] at h; simp at h
      | ok r =>
        rw [hc] at h
        simp only [Except.ok.injEq] at h
        subst h
        exact .cons hg (collect_ok hc)

theorem forall₂_allSome {n : Nat} {i : Nat} (hi : i < n) {p : Str → Option V} : ∀ {ls : List Str} {as : List (List V)},
    List.Forall₂ (fun l (a : List V) => a.length = n ∧ a[i]? = p l) ls as →
    allSome (ls.map p) = some (as.filterMap fun a => a[i]?)
  | _, _, .nil => rfl
  | l :: ls, a :: as, .cons ⟨h1, h2⟩ h => by
    have := forall₂_allSome hi h
    have hx : p l = some (a[i]'(by omega)) := by rw [← h2, List.getElem?_eq_getElem (by omega)]
    simp only [List.map_cons, hx, allSome, this, Option.map_some, List.filterMap_cons, List.getElem?_eq_getElem (show i < a.length by omega)]

theorem level_ok {f : LFrame V} (hw : f.Wf) {n : Str} {a : List V} (h : f.level n = .ok a) :
    a.length = f.rows ∧ ∀ i : Nat, a[i]? = (f.index[i]?).bind fun k => k[f.levels.idxOf (some n)]? := by
  unfold LFrame.level at h
  split at h
  · simp at h
  · split at h
    · rename_i hm
      simp only [Except.ok.injEq] at h
      subst h
      have hp : f.levels.idxOf (some n) < f.levels.length := List.idxOf_lt_length_of_mem hm
      generalize f.levels.idxOf (some n) = p at *
      have : ∀ (ix : List (List V)), (∀ k ∈ ix, p < k.length) →
          (ix.filterMap fun k => k[p]?).length = ix.length ∧ ∀ i : Nat, (ix.filterMap fun k => k[p]?)[i]? = ix[i]?.bind fun k => k[p]? := by
        intro ix hix
        induction ix with
        | nil => simp
        | cons k ix ih =>
          obtain ⟨ih1, ih2⟩ := ih fun x hx => hix x (List.mem_cons_of_mem _ hx)
          have hk := hix k List.mem_cons_self
          simp only [List.filterMap_cons, List.getElem?_eq_getElem hk]
          refine ⟨by simp [ih1], fun i => ?_⟩
          cases i with
          | zero => simp [List.getElem?_eq_getElem hk]
          | succ i => simpa using ih2 i
      exact this f.index fun k hk => by rw [hw.index k hk]; exact hp
    · simp at h

theorem keyColumn_ok {f : LFrame V} (hw : f.Wf) {n : Str} {a : List V} (h : f.keyColumn n = .ok a) :
    a.length = f.rows ∧ ∀ i : Nat, a[i]? = (dictGet f.cols n).bind fun c => c.vals[i]? := by
  unfold LFrame.keyColumn at h
  cases hc : dictGet f.cols n with
  | none => rw [hc] at h; simp at h
  | some c =>
    rw [hc] at h
    simp only at h
    split at h
    · simp at h
    · simp only [Except.ok.injEq] at h
      subst h
      exact ⟨hw.cols _ (dictGet_mem hc), fun i => by simp⟩

/-- the key arrays the code computes hold the keys of the rows -/
theorem keys_ok {f : LFrame V} (hw : f.Wf) {s : KeySpec} {ks : List (List V)} (h : f.keys s = .ok ks) :
    ks.length = f.rows ∧ ∀ i : Nat, ks[i]? = f.keyAt s i := by
  unfold LFrame.keys at h
  cases hl : s.labels with
  | none =>
    rw [hl] at h
    simp only [Except.ok.injEq] at h
    subst h
    exact ⟨rfl, fun i => by simp [LFrame.keyAt, hl]⟩
  | some ls =>
    rw [hl] at h
    simp only at h
    split at h
    · simp at h
    · cases hc : collect (if s.fromRows = true then f.level else f.keyColumn) ls with
      | error e => rw [hc] at h; simp at h
      | ok as =>
        rw [hc] at h
        have hf := collect_ok hc
        have hks : ks = zipKeys f.rows as := by
          cases as with
          | nil => simp at h
          | cons a as => simp only [Except.ok.injEq] at h; exact h.symm
        subst hks
        refine ⟨by simp [zipKeys], fun i => ?_⟩
        by_cases hi : i < f.rows
        · simp only [zipKeys, List.getElem?_map, List.getElem?_range hi, Option.map_some]
          by_cases hr : s.fromRows = true
          · simp only [LFrame.keyAt, hl, hr, if_true]
            have hi' : i < f.index.length := hi
            rw [List.getElem?_eq_getElem hi', Option.bind_some]
            symm
            apply forall₂_allSome (n := f.rows) hi
            refine hf.imp fun l a hla => ?_
            rw [if_pos hr] at hla
            obtain ⟨h1, h2⟩ := level_ok hw hla
            refine ⟨h1, ?_⟩
            rw [h2, List.getElem?_eq_getElem hi', Option.bind_some]
          · simp only [LFrame.keyAt, hl, if_neg hr, if_pos hi]
            symm
            apply forall₂_allSome (n := f.rows) hi
            refine hf.imp fun l a hla => ?_
            rw [if_neg hr] at hla
            obtain ⟨h1, h2⟩ := keyColumn_ok hw hla
            exact ⟨h1, h2 i⟩
        · have h1 : (zipKeys f.rows as)[i]? = none := by
            apply List.getElem?_eq_none
            simp [zipKeys]; omega
          have hi' : f.index[i]? = none := List.getElem?_eq_none (by simp [LFrame.rows] at hi; omega)
          rw [h1]
          simp only [LFrame.keyAt, hl, hi', Option.bind_none, if_neg hi, ite_self]

end Cheval
