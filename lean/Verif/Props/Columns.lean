import Verif.Spec.Columns

/-!
# C67: columns reach expressions with their values
-/
namespace Cheval
open Spec

/-! ## lemmas -/

theorem mapE_ok {α β : Type} {f : α → Except Err β} : ∀ {l : List α} {r : List β}, mapE f l = .ok r →
    r.length = l.length ∧ ∀ (i : Nat) (x : α), l[i]? = some x → ∃ y, f x = .ok y ∧ r[i]? = some y
  | [], r, h => by
    simp only [mapE, Except.ok.injEq] at h
    subst h; simp
  | a :: l, r, h => by
    simp only [mapE] at h
    cases ha : f a with
    | error e => rw [ha] at h; cases h
    | ok y =>
      rw [ha] at h
      simp only at h
      cases hl : mapE f l with
      | error e => rw [hl] at h; cases h
      | ok ys =>
        rw [hl] at h
        simp only [Except.ok.injEq] at h
        subst h
        obtain ⟨h1, h2⟩ := mapE_ok hl
        refine ⟨by simp [h1], fun i x hx => ?_⟩
        cases i with
        | zero =>
          simp only [List.getElem?_cons_zero, Option.some.injEq] at hx
          subst hx; exact ⟨y, ha, rfl⟩
        | succ i => exact h2 i x (by simpa using hx)

theorem mapE_of {α β : Type} {f : α → Except Err β} {g : α → β} : ∀ {l : List α}, (∀ x ∈ l, f x = .ok (g x)) → mapE f l = .ok (l.map g)
  | [], _ => rfl
  | a :: l, h => by
    simp only [mapE, h a List.mem_cons_self, mapE_of fun x hx => h x (List.mem_cons_of_mem _ hx), List.map_cons]

theorem mapE_error {α β : Type} {f : α → Except Err β} {x : α} {e : Err} : ∀ {l : List α}, x ∈ l → f x = .error e → ∃ e', mapE f l = .error e'
  | [], h, _ => by cases h
  | a :: l, h, he => by
    simp only [mapE]
    cases ha : f a with
    | error e' => exact ⟨e', rfl⟩
    | ok y =>
      rcases List.mem_cons.mp h with rfl | h
      · rw [he] at ha; cases ha
      · obtain ⟨e', h'⟩ := mapE_error h he
        exact ⟨e', by simp only [h']⟩

theorem stripNul_eq {s : Str} (h : NoNulEnd s) : stripNul s = s := by
  unfold stripNul NoNulEnd at *
  rw [List.getLast?_eq_head?_reverse] at h
  cases hr : s.reverse with
  | nil => simpa using hr
  | cons c cs =>
    rw [hr] at h
    simp only [List.head?_cons, ne_eq, Option.some.injEq] at h
    rw [List.dropWhile_cons_of_neg (by simpa using h), ← hr, List.reverse_reverse]

/-- texts that differ beyond NULs at the end stay different -/
theorem stripNul_prefix (s : Str) : ∃ n, s = stripNul s ++ List.replicate n '\x00' := by
  unfold stripNul
  refine ⟨(s.reverse.takeWhile (· = '\x00')).length, ?_⟩
  have h : s.reverse = s.reverse.takeWhile (· = '\x00') ++ s.reverse.dropWhile (· = '\x00') := (List.takeWhile_append_dropWhile ..).symm
  have h2 : s.reverse.takeWhile (· = '\x00') = List.replicate (s.reverse.takeWhile (· = '\x00')).length '\x00' := by
    rw [List.eq_replicate_iff]
    exact ⟨rfl, fun b hb => by
      have := List.all_takeWhile (p := fun c => decide (c = '\x00')) (l := s.reverse)
      rw [List.all_eq_true] at this
      simpa using this b hb⟩
  have h3 := congrArg List.reverse h
  rw [List.reverse_append, List.reverse_reverse] at h3
  conv_lhs => rw [h3]
  congr 1
  conv_lhs => rw [h2]
  simp

theorem foldl_max_nat (l : List Nat) (a : Nat) : a ≤ l.foldl max a ∧ ∀ x ∈ l, x ≤ l.foldl max a := by
  induction l generalizing a with
  | nil => simp
  | cons b l ih =>
    obtain ⟨h1, h2⟩ := ih (max a b)
    simp only [List.foldl_cons]
    refine ⟨le_trans (le_max_left _ _) h1, fun x hx => ?_⟩
    rcases List.mem_cons.mp hx with rfl | hx
    · exact le_trans (le_max_right _ _) h1
    · exact h2 x hx

theorem maxLen_texts {cells : List OCell} (hne : cells ≠ []) (h : ∀ c ∈ cells, ∃ s, c = .text s) :
    ∃ n, maxLen cells = .int n ∧ ∀ s, OCell.text s ∈ cells → s.length ≤ n := by
  unfold maxLen
  have hall : (cells.all fun c => c.len.isSome) = true := by
    rw [List.all_eq_true]
    intro c hc
    obtain ⟨s, rfl⟩ := h c hc
    rfl
  have hmem : ∀ s, OCell.text s ∈ cells → s.length ∈ cells.filterMap OCell.len := by
    intro s hs
    exact List.mem_filterMap.mpr ⟨_, hs, rfl⟩
  cases hf : cells.filterMap OCell.len with
  | nil =>
    obtain ⟨c, cs, rfl⟩ := List.exists_cons_of_ne_nil hne
    obtain ⟨s, rfl⟩ := h c List.mem_cons_self
    have := hmem s List.mem_cons_self
    rw [hf] at this; cases this
  | cons l ls =>
    simp only [hall, if_true]
    refine ⟨_, rfl, fun s hs => ?_⟩
    have := hmem s hs
    rw [hf] at this
    obtain ⟨h1, h2⟩ := foldl_max_nat ls l
    rcases List.mem_cons.mp this with h' | h'
    · omega
    · exact h2 _ h'

/-- the text of a cell -/
def OCell.str : OCell → Str
  | .text s => s
  | _ => []

/-- texts are converted whole, up to NULs at the end -/
theorem bytesOf_texts {cells : List OCell} (h : AllTexts cells) : ∃ n, bytesOf cells = .ok (n, cells.map fun c => stripNul c.str) := by
  obtain ⟨hne, h⟩ := h
  obtain ⟨n, hn, hle⟩ := maxLen_texts hne fun c hc => (h c hc).imp fun s hs => hs.1
  refine ⟨max n 1, ?_⟩
  simp only [bytesOf, hn]
  rw [mapE_of (g := fun c => stripNul c.str)]
  intro c hc
  obtain ⟨s, rfl, ha⟩ := h c hc
  have h1 : (s.all fun c => decide (c.toNat < 128)) = true := by
    rw [List.all_eq_true]; intro c hc; simpa using ha c hc
  simp only [OCell.toBytes, toBytes, h1, if_true, OCell.str]
  rw [List.take_of_length_le (hle s hc)]

theorem bytesOf_ok {cells : List OCell} {r : Nat × List Str} (h : bytesOf cells = .ok r) : AllTexts cells := by
  unfold bytesOf at h
  cases hm : maxLen cells with
  | int n =>
    rw [hm] at h
    simp only at h
    cases hb : mapE (OCell.toBytes n) cells with
    | error e => rw [hb] at h; cases h
    | ok v =>
      refine ⟨?_, fun c hc => ?_⟩
      · rintro rfl
        simp [maxLen] at hm
      · obtain ⟨i, hi, rfl⟩ := List.getElem_of_mem hc
        obtain ⟨y, hy, _⟩ := (mapE_ok hb).2 i cells[i] (List.getElem?_eq_getElem hi)
        cases hq : cells[i] with
        | text s =>
          rw [hq] at hy
          refine ⟨s, rfl, ?_⟩
          simp only [OCell.toBytes, toBytes] at hy
          split at hy
          · rename_i hall
            intro c hc
            rw [List.all_eq_true] at hall
            simpa using hall c hc
          · cases hy
        | missing => rw [hq] at hy; cases hy
        | other => rw [hq] at hy; cases hy
  | _ => rw [hm] at h; cases h

theorem bytesOf_iff (cells : List OCell) : (∃ r, bytesOf cells = .ok r) ↔ AllTexts cells :=
  ⟨fun ⟨_, h⟩ => bytesOf_ok h, fun h => let ⟨_, h⟩ := bytesOf_texts h; ⟨_, h⟩⟩

theorem bytesOf_value {cells : List OCell} {n : Nat} {v : List Str} (h : bytesOf cells = .ok (n, v)) :
    v = cells.map fun c => stripNul c.str := by
  obtain ⟨n', h'⟩ := bytesOf_texts (bytesOf_ok h)
  rw [h] at h'
  injection h' with h'
  exact (Prod.mk.inj h').2

theorem intFloat_exact (i : Int) (h : |i| < 2 ^ 53) : intFloat i = .fin i := by
  unfold intFloat
  rcases Int.eq_nat_or_neg i with ⟨n, rfl | rfl⟩
  · have hn : n < 2 ^ 53 := by
      have : |(n : Int)| = n := abs_of_nonneg (by positivity)
      rw [this] at h; exact_mod_cast h
    have := B64.rnd_dyadic n 0 hn (by norm_num) (by norm_num)
    simpa using this
  · have hn : n < 2 ^ 53 := by
      have : |(-(n : Int))| = n := by rw [abs_neg]; exact abs_of_nonneg (by positivity)
      rw [this] at h; exact_mod_cast h
    have h1 := B64.rnd_dyadic n 0 hn (by norm_num) (by norm_num)
    simp only [zpow_zero, mul_one] at h1
    have h2 : (0 : ℝ) ≤ n := by positivity
    rw [B64.rnd_nonneg h2] at h1
    split at h1
    · cases h1
    · rename_i hb
      injection h1 with h1
      unfold B64.rnd
      simp only [Int.cast_neg, Int.cast_natCast, Left.nonneg_neg_iff, neg_neg]
      split
      · rename_i h3
        have h4 : (n : ℝ) = 0 := le_antisymm (by exact_mod_cast h3) h2
        rw [h4]
        simp only [neg_zero, B64.rpos_zero]
        rw [if_neg (not_le.mpr B64.big_pos)]
      · rw [h1]

/-! ## C67 -/

/-- **C67** (part) A column that is accepted reaches the expression row by row: integers, floats and truth values as they are, texts and
categories as their text, missing integers as NaN. Missing: nullable integers without missing values or beyond 2^53, texts ending in NUL
(`C67_complete_nullable_refuted`, `C67_large_refuted`, `C67_nul_refuted`), categoricals with missing cells. -/
theorem C67_values_partial (lost : Categories → List (Option Nat) → Except Err NpArr) (col : Column) (hwf : Column.WellFormed col)
    (hh : Column.Holdable col) (arr : NpArr) (h : convertSeries lost col = .ok arr) :
    NpArr.rows arr = Column.rows col ∧ ∀ i, NpArr.val arr i = Column.val col i := by
  cases col with
  | ints v => simp only [convertSeries, Except.ok.injEq] at h; subst h; exact ⟨rfl, fun _ => rfl⟩
  | floats v => simp only [convertSeries, Except.ok.injEq] at h; subst h; exact ⟨rfl, fun _ => rfl⟩
  | bools v => simp only [convertSeries, Except.ok.injEq] at h; subst h; exact ⟨rfl, fun _ => rfl⟩
  | datetime => cases h
  | timedelta => cases h
  | extension => cases h
  | nullable v =>
    obtain ⟨h1, h2⟩ := hh
    have hn : (v.all Option.isSome) = false := by
      rw [List.all_eq_false]; exact ⟨none, h1, by simp⟩
    simp only [convertSeries, hn, Bool.false_eq_true, if_false, Except.ok.injEq] at h
    subst h
    refine ⟨by simp [NpArr.rows, Column.rows], fun i => ?_⟩
    simp only [NpArr.val, Column.val, List.getElem?_map]
    cases hv : v[i]? with
    | none => rfl
    | some x =>
      cases x with
      | none => rfl
      | some k =>
        simp only [Option.map_some]
        rw [intFloat_exact k (h2 k (List.mem_of_getElem? hv))]
  | objects v =>
    simp only [convertSeries] at h
    cases hb : bytesOf v with
    | error e => rw [hb] at h; cases h
    | ok r =>
      obtain ⟨n, w⟩ := r
      rw [hb] at h
      simp only [Except.ok.injEq] at h
      subst h
      have hw := bytesOf_value hb
      obtain ⟨_, ht⟩ := bytesOf_ok hb
      refine ⟨by simp [NpArr.rows, Column.rows, hw], fun i => ?_⟩
      simp only [NpArr.val, Column.val, hw, List.getElem?_map]
      cases hv : v[i]? with
      | none => rfl
      | some c =>
        have hm := List.mem_of_getElem? hv
        obtain ⟨s, rfl, _⟩ := ht c hm
        have hs : NoNulEnd s := hh s (List.mem_filterMap.mpr ⟨_, hm, rfl⟩)
        simp [OCell.str, stripNul_eq hs, Spec.OCell.val]
  | category c codes =>
    obtain ⟨h1, h2⟩ := hh
    simp only [convertSeries] at h
    have hks : mapE codeOf codes = .ok (codes.map fun x => x.getD 0) := by
      refine mapE_of fun x hx => ?_
      cases x with
      | none => exact absurd hx h1
      | some k => rfl
    rw [hks] at h
    simp only at h
    cases c with
    | ints v =>
      simp only [Except.ok.injEq] at h
      subst h
      refine ⟨by simp [NpArr.rows, Column.rows], fun i => ?_⟩
      simp only [NpArr.val, Column.val, List.getElem?_map, Option.map_map]
      cases hv : codes[i]? with
      | none => rfl
      | some x =>
        have hm := List.mem_of_getElem? hv
        cases x with
        | none => exact absurd hm h1
        | some k =>
          have hk : k < v.length := hwf k hm
          simp [Categories.val, List.getD_eq_getElem?_getD, List.getElem?_eq_getElem hk]
    | floats v =>
      simp only [Except.ok.injEq] at h
      subst h
      refine ⟨by simp [NpArr.rows, Column.rows], fun i => ?_⟩
      simp only [NpArr.val, Column.val, List.getElem?_map, Option.map_map]
      cases hv : codes[i]? with
      | none => rfl
      | some x =>
        have hm := List.mem_of_getElem? hv
        cases x with
        | none => exact absurd hm h1
        | some k =>
          have hk : k < v.length := hwf k hm
          simp [Categories.val, List.getD_eq_getElem?_getD, List.getElem?_eq_getElem hk]
    | objects v =>
      simp only at h
      cases hb : bytesOf v with
      | error e => rw [hb] at h; cases h
      | ok r =>
        obtain ⟨n, w⟩ := r
        rw [hb] at h
        simp only [Except.ok.injEq] at h
        subst h
        have hw := bytesOf_value hb
        obtain ⟨_, ht⟩ := bytesOf_ok hb
        refine ⟨by simp [NpArr.rows, Column.rows], fun i => ?_⟩
        simp only [NpArr.val, Column.val, List.getElem?_map, Option.map_map]
        cases hv : codes[i]? with
        | none => rfl
        | some x =>
          have hm := List.mem_of_getElem? hv
          cases x with
          | none => exact absurd hm h1
          | some k =>
            have hk : k < v.length := hwf k hm
            obtain ⟨s, hc, _⟩ := ht v[k] (List.getElem_mem hk)
            have hs : NoNulEnd s := h2 s (List.mem_filterMap.mpr ⟨_, List.getElem_mem hk, by rw [hc]⟩)
            simp [Categories.val, List.getD_eq_getElem?_getD, hw, List.getElem?_eq_getElem hk, hc, OCell.str, stripNul_eq hs, Spec.OCell.val]

/-- **C67** Texts are never cut: an accepted text column gives, row by row, the whole text without the NULs at its end. -/
theorem C67_whole_texts (lost : Categories → List (Option Nat) → Except Err NpArr) (cells : List OCell) (arr : NpArr)
    (h : convertSeries lost (.objects cells) = .ok arr) (i : Nat) (s : Str) (hi : cells[i]? = some (.text s)) :
    ∃ t n, NpArr.val arr i = some (.text t) ∧ s = t ++ List.replicate n '\x00' ∧ NoNulEnd t := by
  simp only [convertSeries] at h
  cases hb : bytesOf cells with
  | error e => rw [hb] at h; cases h
  | ok r =>
    obtain ⟨n, w⟩ := r
    rw [hb] at h
    simp only [Except.ok.injEq] at h
    subst h
    obtain ⟨k, hk⟩ := stripNul_prefix s
    refine ⟨stripNul s, k, by simp [NpArr.val, bytesOf_value hb, hi, OCell.str], hk, ?_⟩
    unfold NoNulEnd stripNul
    rw [List.getLast?_reverse]
    intro hq
    have := List.head?_dropWhile_not (fun c => decide (c = '\x00')) s.reverse
    rw [hq] at this
    simp at this

/-- **C67** Which columns are accepted: all integer, float and boolean columns, text columns and text categories with at least one text, no
missing one and ASCII characters only; dates, time differences and other extension types are not. -/
theorem C67_accepted (lost : Categories → List (Option Nat) → Except Err NpArr) (col : Column) (hm : ∀ c codes, col = .category c codes → none ∉ codes) :
    (∃ arr, convertSeries lost col = .ok arr) ↔ Column.Accepted col := by
  cases col with
  | ints v => simp [convertSeries, Column.Accepted]
  | floats v => simp [convertSeries, Column.Accepted]
  | bools v => simp [convertSeries, Column.Accepted]
  | datetime => simp [convertSeries, Column.Accepted]
  | timedelta => simp [convertSeries, Column.Accepted]
  | extension => simp [convertSeries, Column.Accepted]
  | nullable v => simp only [convertSeries, Column.Accepted, iff_true]; split <;> exact ⟨_, rfl⟩
  | objects cells =>
    simp only [Column.Accepted]
    rw [← bytesOf_iff]
    simp only [convertSeries]
    constructor
    · rintro ⟨arr, h⟩
      cases hb : bytesOf cells with
      | error e => rw [hb] at h; cases h
      | ok r => exact ⟨r, rfl⟩
    · rintro ⟨r, h⟩
      rw [h]; exact ⟨_, rfl⟩
  | category c codes =>
    have hks : mapE codeOf codes = .ok (codes.map fun x => x.getD 0) := by
      refine mapE_of fun x hx => ?_
      cases x with
      | none => exact absurd hx (hm c codes rfl)
      | some k => rfl
    cases c with
    | ints v => simp [convertSeries, hks, Column.Accepted]
    | floats v => simp [convertSeries, hks, Column.Accepted]
    | objects cells =>
      simp only [Column.Accepted]
      rw [← bytesOf_iff]
      simp only [convertSeries, hks]
      constructor
      · rintro ⟨arr, h⟩
        cases hb : bytesOf cells with
        | error e => rw [hb] at h; cases h
        | ok r => exact ⟨r, rfl⟩
      · rintro ⟨r, h⟩
        rw [h]; exact ⟨_, rfl⟩

/-- **C67** A categorical column with missing cells: the library gives no category to them; the result is what pandas makes of the column, or
its error (pandas' conversion is not modelled). -/
theorem C67_missing_category (lost : Categories → List (Option Nat) → Except Err NpArr) (c : Categories) (codes : List (Option Nat))
    (h : none ∈ codes) : convertSeries lost (.category c codes) = lost c codes := by
  have hm : ∀ l : List (Option Nat), none ∈ l → ∃ e, mapE codeOf l = .error e := by
    intro l
    induction l with
    | nil => intro h; cases h
    | cons x l ih =>
      intro h
      cases x with
      | none => exact ⟨_, rfl⟩
      | some k =>
        obtain ⟨e, he⟩ := ih (by simpa using h)
        exact ⟨e, by simp [mapE, codeOf, he]⟩
  obtain ⟨e, he⟩ := hm codes h
  simp [convertSeries, he]

/-- two cells of a column with categories "a", "b", the second missing -/
example (lost : Categories → List (Option Nat) → Except Err NpArr) :
    convertSeries lost (.category (.objects [.text ['a'], .text ['b']]) [some 1, none]) =
      lost (.objects [.text ['a'], .text ['b']]) [some 1, none] :=
  C67_missing_category lost _ _ (by simp)

/-- **C67** A text column with missing values, one without any text and one without rows are rejected with a TypeError; so are dates, time
differences and other extension types. Texts beyond ASCII raise a UnicodeEncodeError (a ValueError). -/
theorem C67_rejected (lost : Categories → List (Option Nat) → Except Err NpArr) (cells : List OCell)
    (ho : ∀ c ∈ cells, c ≠ .other) (h : ¬ AllTexts cells) :
    convertSeries lost (.objects cells) = .error (if cells = [] ∨ OCell.missing ∈ cells then .type else .value) := by
  simp only [convertSeries]
  have hany : cells.any OCell.isOther = false := by
    rw [List.any_eq_false]
    intro c hc
    cases c with
    | other => exact absurd rfl (ho _ hc)
    | _ => simp [OCell.isOther]
  by_cases hm : cells = [] ∨ OCell.missing ∈ cells
  · rw [if_pos hm]
    have : maxLen cells = .nan ∨ ∃ n, maxLen cells = .float n := by
      unfold maxLen
      rcases hm with rfl | hm
      · left; rfl
      · cases hf : cells.filterMap OCell.len with
        | nil => left; simp [hany]
        | cons l ls =>
          right
          have : (cells.all fun c => c.len.isSome) = false := by
            rw [List.all_eq_false]; exact ⟨_, hm, by simp [OCell.len]⟩
          simp [this]
    rcases this with h' | ⟨n, h'⟩ <;> simp [bytesOf, h']
  · rw [if_neg hm]
    push Not at hm
    have hall : ∀ c ∈ cells, ∃ s, c = .text s := by
      intro c hc
      cases c with
      | text s => exact ⟨s, rfl⟩
      | missing => exact absurd hc hm.2
      | other => exact absurd rfl (ho _ hc)
    obtain ⟨n, hn, _⟩ := maxLen_texts hm.1 hall
    have key : ∀ l : List OCell, (∀ c ∈ l, ∃ s, c = .text s) → ¬ (∀ c ∈ l, ∃ s, c = .text s ∧ Ascii s) →
        mapE (OCell.toBytes n) l = .error .value := by
      intro l
      induction l with
      | nil => intro _ h; exact absurd (fun c hc => by cases hc) h
      | cons c l ih =>
        intro hl hq
        obtain ⟨s, rfl⟩ := hl c List.mem_cons_self
        by_cases ha : Ascii s
        · have h1 : (s.all fun c => decide (c.toNat < 128)) = true := by
            rw [List.all_eq_true]; intro c hc; simpa using ha c hc
          have := ih (fun c hc => hl c (List.mem_cons_of_mem _ hc)) (fun hx => hq fun c hc => by
            rcases List.mem_cons.mp hc with rfl | hc
            · exact ⟨s, rfl, ha⟩
            · exact hx c hc)
          simp [mapE, OCell.toBytes, toBytes, h1, this]
        · have h1 : (s.all fun c => decide (c.toNat < 128)) = false := by
            rw [List.all_eq_false]
            unfold Ascii at ha
            push Not at ha
            obtain ⟨c, hc, hlt⟩ := ha
            exact ⟨c, hc, by simpa using hlt⟩
          simp [mapE, OCell.toBytes, toBytes, h1]
    have := key cells hall fun hx => h ⟨hm.1, hx⟩
    simp [bytesOf, hn, this]

/-- a Series of the column, as `assign` gets it -/
noncomputable def columnData {U : Type} (lost : Categories → List (Option Nat) → Except Err NpArr) (index : List (Lab U)) (col : Column) : Data U XR :=
  .series index ((convertSeries lost col).map fun arr i => (NpArr.val arr i).getD (.num .nan))

/-- **C67** (part) A vector holds the values of the Series that was assigned, row by row. Missing: as in `C67_values_partial`. -/
theorem C67_vector_partial {U : Type} [DecidableEq U] (lost : Categories → List (Option Nat) → Except Err NpArr) (m : CModel U XR) (units : List U)
    (hu : m.units = some units) (col : Column) (hwf : Column.WellFormed col) (hh : Column.Holdable col) (hacc : Column.Accepted col)
    (hr : Column.rows col = units.length) :
    ∃ arr, (Sym.vector false none).assign m (columnData lost (units.map .unit) col) = .ok (.vector false (some arr)) ∧
      arr.rows = units.length ∧ arr.cols = 1 ∧ ∀ i < units.length, some (arr.val i 0) = Column.val col i := by
  obtain ⟨a, ha⟩ := (C67_accepted lost col (by rintro c codes rfl; exact hh.1)).mpr hacc
  obtain ⟨h1, h2⟩ := C67_values_partial lost col hwf hh a ha
  refine ⟨⟨units.length, 1, fun i _ => (NpArr.val a i).getD (.num .nan)⟩, ?_, rfl, rfl, fun i hi => ?_⟩
  · simp [Sym.assign, columnData, ha, CModel.labels, CModel.decisionUnits, hu, bind, Except.bind, Except.map, shapeVector]
  · rw [← h2 i]
    have hlt : i < NpArr.rows a := by rw [h1, hr]; exact hi
    cases hv : NpArr.val a i with
    | some v => simp [hv]
    | none =>
      exfalso
      cases a with
      | objects v =>
        cases col with
        | nullable w =>
          have hn : (w.all Option.isSome) = false := by
            rw [List.all_eq_false]; exact ⟨none, hh.1, by simp⟩
          simp [convertSeries, hn] at ha
        | category c codes =>
          have hks : mapE codeOf codes = .ok (codes.map fun x => x.getD 0) := by
            refine mapE_of fun x hx => ?_
            cases x with
            | none => exact absurd hx hh.1
            | some k => rfl
          cases c with
          | objects cells =>
            simp only [convertSeries, hks] at ha
            cases hb : bytesOf cells <;> simp [hb] at ha
          | ints => simp [convertSeries, hks] at ha
          | floats => simp [convertSeries, hks] at ha
        | objects cells =>
          simp only [convertSeries] at ha
          cases hb : bytesOf cells <;> simp [hb] at ha
        | _ => simp [convertSeries] at ha
      | ints v => simp [NpArr.val, List.getElem?_eq_getElem (show i < v.length from hlt)] at hv
      | floats v => simp [NpArr.val, List.getElem?_eq_getElem (show i < v.length from hlt)] at hv
      | bools v => simp [NpArr.val, List.getElem?_eq_getElem (show i < v.length from hlt)] at hv
      | bytes n v => simp [NpArr.val, List.getElem?_eq_getElem (show i < v.length from hlt)] at hv

/-! ## refutations -/

/-- **C67** (refuted) Nullable integers without missing values become an array of Python objects, which NumExpr does not take; with a missing value
they become floats. -/
theorem C67_complete_nullable_refuted (lost : Categories → List (Option Nat) → Except Err NpArr) (v : List Int) :
    convertSeries lost (.nullable (v.map some)) = .ok (.objects (v.map some)) ∧
      ∀ i < v.length, NpArr.val (.objects (v.map some)) i ≠ Column.val (.nullable (v.map some)) i := by
  refine ⟨by simp [convertSeries], fun i hi => ?_⟩
  simp [NpArr.val, Column.val, List.getElem?_eq_getElem hi]

/-- **C67** (refuted) A nullable integer column with a missing value is converted to doubles: 2^53 + 1 silently becomes 2^53. -/
theorem C67_large_refuted (lost : Categories → List (Option Nat) → Except Err NpArr) :
    convertSeries lost (.nullable [some (2 ^ 53 + 1), none]) = .ok (.floats [.fin (2 ^ 53), .nan]) := by
  have hq : B64.qexp ((2 : ℝ) ^ 53 + 1) = 1 := by
    have h1 : Int.log 2 ((2 : ℝ) ^ 53 + 1) = 53 := by
      apply le_antisymm
      · have : Int.log 2 ((2 : ℝ) ^ 53 + 1) < 54 := by
          rw [← Int.lt_zpow_iff_log_lt (by norm_num) (by positivity)]
          norm_num
        omega
      · rw [← Int.zpow_le_iff_le_log (by norm_num) (by positivity)]
        norm_num
    unfold B64.qexp
    rw [h1]; norm_num
  have hr : B64.rpos ((2 : ℝ) ^ 53 + 1) = 2 ^ 53 := by
    unfold B64.rpos
    rw [hq]
    have hf : ⌊((2 : ℝ) ^ 53 + 1) / 2 ^ (1 : ℤ)⌋ = 2 ^ 52 := by
      rw [Int.floor_eq_iff]
      constructor <;> norm_num
    have he : B64.roundEven (((2 : ℝ) ^ 53 + 1) / 2 ^ (1 : ℤ)) = 2 ^ 52 := by
      unfold B64.roundEven
      rw [hf, if_neg (by norm_num), if_neg (by norm_num), if_pos (by decide)]
    rw [he]; norm_num
  have : intFloat (2 ^ 53 + 1) = .fin (2 ^ 53) := by
    unfold intFloat
    have hc : (((2 ^ 53 + 1 : Int)) : ℝ) = 2 ^ 53 + 1 := by norm_num
    rw [hc, B64.rnd_nonneg (by positivity), hr, if_neg]
    rw [not_le]
    unfold B64.big
    exact pow_lt_pow_right₀ (by norm_num) (by norm_num)
  simp only [convertSeries, List.all_cons, Option.isSome, Bool.true_and, Bool.false_and, Bool.false_eq_true, if_false, List.map_cons, List.map_nil, this]

/-- **C67** (refuted) NULs at the end of a text are lost: different texts become equal. -/
theorem C67_nul_refuted (lost : Categories → List (Option Nat) → Except Err NpArr) :
    convertSeries lost (.objects [.text ['a', '\x00'], .text ['a']]) = .ok (.bytes 2 [['a'], ['a']]) := by
  have : bytesOf [.text ['a', '\x00'], .text ['a']] = .ok (2, [['a'], ['a']]) := by rfl
  simp only [convertSeries, this]

/-- **C67** (refuted) A text column without rows, and a categorical of texts without categories, are rejected. -/
theorem C67_empty_refuted (lost : Categories → List (Option Nat) → Except Err NpArr) :
    convertSeries lost (.objects []) = .error .type ∧ convertSeries lost (.category (.objects []) []) = .error .type := by
  constructor <;> rfl

/-! ## concrete cases -/

/-- texts of different lengths -/
example (lost : Categories → List (Option Nat) → Except Err NpArr) :
    convertSeries lost (.objects [.text "car".toList, .text "bicycle".toList, .text [] ]) = .ok (.bytes 7 ["car".toList, "bicycle".toList, []]) ∧
    Column.Holdable (.objects [.text "car".toList, .text "bicycle".toList, .text []]) ∧
    Column.Accepted (.objects [.text "car".toList, .text "bicycle".toList, .text []]) := by
  refine ⟨?_, ?_, ?_⟩
  · have : bytesOf [.text "car".toList, .text "bicycle".toList, .text [] ] = .ok (7, ["car".toList, "bicycle".toList, []]) := by rfl
    simp only [convertSeries, this]
  · intro s hs
    simp only [Column.texts, textsIn, List.filterMap_cons, List.filterMap_nil, List.mem_cons, List.not_mem_nil, or_false] at hs
    rcases hs with rfl | rfl | rfl <;> simp [NoNulEnd]
  · refine ⟨by simp, fun c hc => ?_⟩
    simp only [List.mem_cons, List.not_mem_nil, or_false] at hc
    rcases hc with rfl | rfl | rfl <;> refine ⟨_, rfl, ?_⟩ <;> simp [Ascii]

/-- a categorical and nullable integers -/
example : Column.WellFormed (.category (.objects [.text "no".toList, .text "yes".toList]) [some 1, some 0, some 1]) ∧
    Column.Holdable (.nullable [some 4, none, some (-7)]) ∧ Column.Accepted (.nullable [some 4, none, some (-7)]) := by
  refine ⟨?_, ?_, trivial⟩
  · intro k hk
    simp only [List.mem_cons, Option.some.injEq, List.not_mem_nil, or_false] at hk
    simp only [List.length_cons, List.length_nil]; omega
  · refine ⟨by simp, fun i hi => ?_⟩
    simp only [List.mem_cons, Option.some.injEq, List.not_mem_nil, or_false, reduceCtorEq, false_or] at hi
    rcases hi with rfl | rfl <;> norm_num

end Cheval
