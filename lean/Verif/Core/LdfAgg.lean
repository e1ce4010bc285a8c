import Verif.Core.LdfLookup

/-!
# Groups and reductions
-/
namespace Cheval
variable {V : Type} [DecidableEq V] {E : LEnv V}

/-- position in a list -/
def posIn {L : Type} [DecidableEq L] (a : List L) (x : L) : Nat := a.idxOf x

theorem posIn_lt {L : Type} [DecidableEq L] {a : List L} {x : L} (h : x ∈ a) : posIn a x < a.length := List.idxOf_lt_length_of_mem h

theorem posIn_get {L : Type} [DecidableEq L] {a : List L} (h : a.Nodup) {p : Nat} (hp : p < a.length) : posIn a a[p] = p := h.idxOf_getElem p hp

theorem get_posIn {L : Type} [DecidableEq L] {a : List L} {x : L} (h : x ∈ a) : a[posIn a x]'(posIn_lt h) = x := List.getElem_idxOf (posIn_lt h)

theorem getIndexer_get {L : Type} [DecidableEq L] {a b : List L} {j : Nat} {x : L} (hj : b[j]? = some x) (hx : x ∈ a) :
    (getIndexer a b)[j]? = some (posIn a x : Int) := by
  simp only [getIndexer, List.getElem?_map, hj, Option.map_some, if_pos hx]
  rfl

theorem mem_getIndexer {L : Type} [DecidableEq L] {a b : List L} (h : ∀ x ∈ b, x ∈ a) {c : Int} :
    c ∈ getIndexer a b ↔ ∃ x ∈ b, c = (posIn a x : Int) := by
  simp only [getIndexer, List.mem_map]
  constructor
  · rintro ⟨x, hx, rfl⟩
    exact ⟨x, hx, by rw [if_pos (h x hx)]; rfl⟩
  · rintro ⟨x, hx, rfl⟩
    exact ⟨x, hx, by rw [if_pos (h x hx)]; rfl⟩

theorem mem_uniques {ks : List (List V)} {k : List V} : k ∈ E.uniques ks ↔ k ∈ ks ∧ E.naKey k = false := by
  simp [LEnv.uniques]

theorem uniques_nodup (ks : List (List V)) : (E.uniques ks).Nodup := by
  simp only [LEnv.uniques, List.nodup_reverse]
  exact List.nodup_dedup _

/-- no key of these rows is NaN -/
def NoNa (E : LEnv V) (ks : List (List V)) : Prop := ∀ k ∈ ks, E.naKey k = false

theorem uniques_eq_nil {ks : List (List V)} (h : NoNa E ks) : E.uniques ks = [] ↔ ks = [] := by
  constructor
  · intro hu
    rw [List.eq_nil_iff_forall_not_mem]
    intro k hk
    have := mem_uniques.mpr ⟨hk, h k hk⟩
    rw [hu] at this
    simp at this
  · rintro rfl; rfl

theorem codes_get {ks : List (List V)} (h : NoNa E ks) {j : Nat} {k : List V} (hk : ks[j]? = some k) :
    (E.codes ks)[j]? = some (posIn (E.uniques ks) k : Int) := by
  have hm := List.mem_of_getElem? hk
  exact getIndexer_get hk (mem_uniques.mpr ⟨hm, h k hm⟩)

theorem mem_codes {ks : List (List V)} (h : NoNa E ks) {c : Int} :
    c ∈ E.codes ks ↔ ∃ p < (E.uniques ks).length, c = (p : Int) := by
  rw [LEnv.codes, mem_getIndexer fun k hk => mem_uniques.mpr ⟨hk, h k hk⟩]
  constructor
  · rintro ⟨k, hk, rfl⟩
    exact ⟨_, posIn_lt (mem_uniques.mpr ⟨hk, h k hk⟩), rfl⟩
  · rintro ⟨p, hp, rfl⟩
    exact ⟨(E.uniques ks)[p], (mem_uniques.mp (List.getElem_mem hp)).1, by rw [posIn_get (uniques_nodup ks)]⟩

/-- without NaN keys the groups are numbered by the distinct keys in order of first appearance -/
theorem groupNumbers_codes {ks : List (List V)} (h : NoNa E ks) :
    groupNumbers (E.codes ks) = (List.range (E.uniques ks).length).map fun (p : Nat) => (p : Int) := by
  unfold groupNumbers
  apply List.Perm.eq_of_pairwise' (r := (· ≤ ·)) (List.pairwise_insertionSort _ _)
  · rw [List.pairwise_map]
    exact List.pairwise_le_range.imp fun hab => by simpa using hab
  · refine (List.perm_insertionSort _ _).trans ?_
    rw [List.perm_ext_iff_of_nodup (List.nodup_dedup _)]
    · intro c
      rw [List.mem_dedup, mem_codes h]
      simp only [List.mem_map, List.mem_range]
      exact ⟨fun ⟨p, h1, h2⟩ => ⟨p, h1, h2.symm⟩, fun ⟨p, h1, h2⟩ => ⟨p, h1, h2.symm⟩⟩
    · exact List.nodup_range.map fun a b hab => by simpa using hab

theorem groupValues_eq (codes : List Int) (vals : List V) (hl : codes.length = vals.length) (c : Int) :
    groupValues codes vals c = (List.range vals.length).filterMap fun j => if codes[j]? = some c then vals[j]? else none := by
  unfold groupValues
  induction codes generalizing vals with
  | nil =>
    have : vals = [] := List.length_eq_zero_iff.mp (by simpa using hl.symm)
    subst this; rfl
  | cons d codes ih =>
    cases vals with
    | nil => simp at hl
    | cons x vals =>
      have := ih vals (by simpa using hl)
      simp only [List.length_cons, List.range_succ_eq_map, List.zip_cons_cons, List.filterMap_cons, List.filterMap_map,
        Function.comp_def, List.getElem?_cons_zero, List.getElem?_cons_succ]
      rw [this]
      by_cases hd : d = c <;> simp [hd]

/-- the values of one group are the matching rows' values in order -/
theorem groupValues_matching {g : LFrame V} (hw : g.Wf) {s : KeySpec} {ko : List (List V)} (hk : g.keys s = .ok ko) (h : NoNa E ko) {vals : List V}
    (hv : vals.length = g.rows) {p : Nat} (hp : p < (E.uniques ko).length) :
    groupValues (E.codes ko) vals (p : Int) = g.matching s (E.uniques ko)[p] vals := by
  obtain ⟨h1, h2⟩ := keys_ok hw hk
  rw [groupValues_eq _ _ (by simp [LEnv.codes, getIndexer_length, h1, hv])]
  unfold LFrame.matching
  rw [hv]
  apply List.filterMap_congr
  intro j hj
  have hj' : j < ko.length := by rw [h1]; simpa using hj
  have hkj : ko[j]? = some ko[j] := List.getElem?_eq_getElem hj'
  rw [codes_get h hkj, ← h2 j, hkj]
  have hu := mem_uniques.mpr ⟨List.getElem_mem hj', h _ (List.getElem_mem hj')⟩
  have : ((posIn (E.uniques ko) ko[j] : Int) = (p : Int)) ↔ ko[j] = (E.uniques ko)[p] := by
    rw [Int.natCast_inj]
    constructor
    · intro he
      have := get_posIn hu
      rw [← this]
      congr 1
    · intro he
      rw [he, posIn_get (uniques_nodup ko)]
  simp only [Option.some.injEq, this]

theorem matching_ne_nil {g : LFrame V} {s : KeySpec} {k : List V} {vals : List V} (hv : vals.length = g.rows) :
    g.matching s k vals ≠ [] ↔ ∃ j, j < g.rows ∧ g.keyAt s j = some k := by
  unfold LFrame.matching
  rw [ne_eq, List.filterMap_eq_nil_iff]
  push Not
  constructor
  · rintro ⟨j, hj, hne⟩
    by_cases hk : g.keyAt s j = some k
    · exact ⟨j, by simpa using hj, hk⟩
    · rw [if_neg hk] at hne; exact absurd rfl hne
  · rintro ⟨j, hj, hk⟩
    refine ⟨j, by simpa using hj, ?_⟩
    rw [if_pos hk, List.getElem?_eq_getElem (by omega)]
    simp

theorem filterMap_all_some {A B : Type} {g : A → Option B} : ∀ {l : List A}, (∀ a ∈ l, (g a).isSome = true) →
    (l.filterMap g).length = l.length ∧ ∀ i : Nat, (l.filterMap g)[i]? = l[i]?.bind g
  | [], _ => by simp
  | a :: l, h => by
    obtain ⟨b, hb⟩ := Option.isSome_iff_exists.mp (h a List.mem_cons_self)
    obtain ⟨h1, h2⟩ := filterMap_all_some (g := g) (l := l) fun x hx => h x (List.mem_cons_of_mem _ hx)
    simp only [List.filterMap_cons, hb]
    refine ⟨by simp [h1], fun i => ?_⟩
    cases i with
    | zero => simp [hb]
    | succ i => simpa using h2 i

/-- the reduced array holds, for every distinct key, the reduction of the matching rows -/
theorem reduce_matching {g : LFrame V} (hw : g.Wf) {s : KeySpec} {ko : List (List V)} (hk : g.keys s = .ok ko) (h : NoNa E ko) {vals : List V}
    (hv : vals.length = g.rows) {func : Str} {kind : DKind} (hf : ∀ vs, vs ≠ [] → (E.agg func kind vs).isSome = true) :
    (E.reduce func kind (E.codes ko) vals).length = (E.uniques ko).length ∧
    ∀ p (hp : p < (E.uniques ko).length), (E.reduce func kind (E.codes ko) vals)[p]? = E.agg func kind (g.matching s (E.uniques ko)[p] vals) := by
  unfold LEnv.reduce
  rw [groupNumbers_codes h]
  obtain ⟨hk1, hk2⟩ := keys_ok hw hk
  have hall : ∀ c ∈ (List.range (E.uniques ko).length).map (fun (p : Nat) => (p : Int)),
      (E.agg func kind (groupValues (E.codes ko) vals c)).isSome = true := by
    intro c hc
    simp only [List.mem_map, List.mem_range] at hc
    obtain ⟨p, hp, rfl⟩ := hc
    rw [groupValues_matching hw hk h hv hp]
    apply hf
    rw [matching_ne_nil hv]
    have hm := (mem_uniques.mp (List.getElem_mem hp)).1
    obtain ⟨j, hj⟩ := List.getElem?_of_mem hm
    refine ⟨j, ?_, by rw [← hk2]; exact hj⟩
    rw [← hk1]; exact (List.getElem?_eq_some_iff.mp hj).1
  obtain ⟨h1, h2⟩ := filterMap_all_some hall
  refine ⟨by rw [h1]; simp, fun p hp => ?_⟩
  rw [h2]
  simp only [List.getElem?_map, List.getElem?_range hp, Option.map_some, Option.bind_some]
  rw [groupValues_matching hw hk h hv hp]

end Cheval
