import Verif.Core.TreeLemmas
import Verif.Core.ExprSound
import Verif.Core.DictLemmas
import Verif.Spec.Utilities
import Verif.Props.DictLiteral

/-! # Lemmas about the evaluation of utilities -/
namespace Cheval
open Spec FOps

/-! ## text -/

theorem splitOn_ne_nil (c : Char) (s : Str) : splitOn c s ≠ [] := by
  cases s with
  | nil => simp [splitOn]
  | cons x xs =>
    simp only [splitOn]
    by_cases h : x = c
    · simp [h]
    · rw [if_neg h]
      cases splitOn c xs <;> simp

theorem splitOn_cons (c : Char) (x : Char) (xs : Str) (h : x ≠ c) :
    ∃ p ps, splitOn c xs = p :: ps ∧ splitOn c (x :: xs) = (x :: p) :: ps := by
  obtain ⟨p, ps, hp⟩ := List.exists_cons_of_ne_nil (splitOn_ne_nil c xs)
  exact ⟨p, ps, hp, by simp only [splitOn, if_neg h, hp]⟩

theorem splitOn_length (c : Char) (s : Str) : (splitOn c s).length = s.count c + 1 := by
  induction s with
  | nil => simp [splitOn]
  | cons x xs ih =>
    by_cases h : x = c
    · simp [splitOn, h, ih]
    · obtain ⟨p, ps, h1, h2⟩ := splitOn_cons c x xs h
      rw [h2, List.count_cons_of_ne (by simpa using h), ← ih, h1]; simp

theorem splitOn_parts (c : Char) (s : Str) : ∀ p ∈ splitOn c s, c ∉ p := by
  induction s with
  | nil => simp [splitOn]
  | cons x xs ih =>
    by_cases h : x = c
    · subst h
      intro p hp
      simp only [splitOn, if_true] at hp
      rcases List.mem_cons.mp hp with rfl | hp
      · simp
      · exact ih p hp
    · obtain ⟨p, ps, h1, h2⟩ := splitOn_cons c x xs h
      rw [h2]; rw [h1] at ih
      intro q hq
      rcases List.mem_cons.mp hq with rfl | hq
      · have := ih p (by simp)
        simp only [List.mem_cons, not_or]; exact ⟨fun hc => h hc.symm, this⟩
      · exact ih q (by simp [hq])

theorem intercalate_splitOn (c : Char) (s : Str) : List.intercalate [c] (splitOn c s) = s := by
  induction s with
  | nil => simp [splitOn, List.intercalate]
  | cons x xs ih =>
    by_cases h : x = c
    · subst h
      simp only [splitOn, if_true]
      obtain ⟨p, ps, hp⟩ := List.exists_cons_of_ne_nil (splitOn_ne_nil x xs)
      rw [hp] at ih ⊢
      rw [List.intercalate_cons_cons, ih]; simp
    · obtain ⟨p, ps, h1, h2⟩ := splitOn_cons c x xs h
      rw [h2]; rw [h1] at ih
      cases ps with
      | nil => simp only [List.intercalate_singleton] at ih ⊢; rw [ih]
      | cons q qs =>
        rw [List.intercalate_cons_cons] at ih ⊢
        rw [← ih]; simp

theorem splitOn_joinDots {p : List Name} (hne : p ≠ []) (hp : ∀ n ∈ p, '.' ∉ n) : splitOn '.' (joinDots p) = p :=
  joinDots_inj (splitOn_ne_nil _ _) hne (splitOn_parts _ _) hp (intercalate_splitOn '.' (joinDots p))

/-! ## the filter -/

theorem columnMask_spec {paths : List (List Name)} {d : Nat} {labels : List (List Name)} (h : Labelled paths d labels) (f : Str) :
    (∀ j (hj : j < paths.length), f = joinDots paths[j] → columnMask labels (some f) = .ok (some j)) ∧
    ((∀ p ∈ paths, f ≠ joinDots p) → columnMask labels (some f) = .error (if d < f.count '.' + 1 then .assertion else .key)) := by
  have hnl := nlevels_eq h
  have hparts : ∀ n ∈ splitOn '.' f, '.' ∉ n := splitOn_parts _ _
  have hnd : ['.'] ∉ splitOn '.' f := fun hm => by have := hparts _ hm; simp at this
  have hjoin : joinDots (splitOn '.' f) = f := intercalate_splitOn '.' f
  have hlen1 : 1 ≤ (splitOn '.' f).length := by
    have := splitOn_ne_nil '.' f
    have : (splitOn '.' f).length ≠ 0 := by simpa using this
    omega
  have first : ∀ j (hj : j < paths.length) (key : List Name), positionsOf labels key = List.filter (fun k => decide (k = j)) (List.range labels.length) →
      ∃ t, positionsOf labels key = j :: t := by
    intro j hj key he
    have hlab : labels.length = paths.length := by rw [h.labels]; simp
    cases hp : positionsOf labels key with
    | nil =>
      rw [hp] at he
      have : j ∈ List.filter (fun k => decide (k = j)) (List.range labels.length) := by simp; omega
      rw [← he] at this; simp at this
    | cons x t =>
      have : x ∈ List.filter (fun k => decide (k = j)) (List.range labels.length) := by rw [← he, hp]; simp
      have : x = j := by simpa using (List.mem_filter.mp this).2
      exact ⟨t, by rw [this]⟩
  have posEq : ∀ j (hj : j < paths.length), paths[j] = splitOn '.' f →
      positionsOf labels (splitOn '.' f ++ List.replicate (d - (splitOn '.' f).length) ['.']) =
        List.filter (fun k => decide (k = j)) (List.range labels.length) := by
    intro j hj he
    unfold positionsOf
    apply List.filter_congr
    intro k hk
    have hk' : k < paths.length := by
      have := List.mem_range.mp hk
      rwa [h.labels, List.length_map] at this
    have := positionsOf_pad h hnd hk'
    rw [mem_positionsOf] at this
    rw [decide_eq_decide, this, ← he]
    constructor
    · intro hc; exact (List.Nodup.getElem_inj_iff h.nodup).mp hc
    · rintro rfl; rfl
  have hd0 : 1 ≤ d := by
    obtain ⟨p, hp, hpl⟩ := h.depth.2
    have : p.length ≠ 0 := by simpa using (h.names p hp).1
    omega
  constructor
  · intro j hj hf
    have hpj := List.getElem_mem hj
    have hs : splitOn '.' f = paths[j] := by
      rw [hf]; exact splitOn_joinDots (h.names _ hpj).1 (fun n hn => ((h.names _ hpj).2 n hn).1)
    have hle := h.depth.1 _ hpj
    rw [← hs] at hle
    obtain ⟨t, ht⟩ := first j hj _ (posEq j hj hs.symm)
    unfold columnMask
    simp only [hnl]
    by_cases hd1 : d = 1
    · have hl : (splitOn '.' f).length = 1 := by omega
      have hpd : splitOn '.' f ++ List.replicate (d - (splitOn '.' f).length) (['.'] : Name) = splitOn '.' f := by rw [hd1, hl]; simp
      rw [hpd] at ht
      simp only [hd1, if_true, hl, ne_eq, not_true, if_false, ht]
    · rw [if_neg hd1, if_neg (by omega)]
      simp only [ht]
  · intro hn
    have hnm : splitOn '.' f ∉ paths := fun hm => hn _ hm hjoin.symm
    have hnil := (positionsOf_nil h hnd).mpr hnm
    unfold columnMask
    rw [← splitOn_length]
    simp only [hnl]
    by_cases hd1 : d = 1
    · rw [if_pos hd1]
      by_cases hl : (splitOn '.' f).length = 1
      · have hpd : splitOn '.' f ++ List.replicate (d - (splitOn '.' f).length) (['.'] : Name) = splitOn '.' f := by rw [hd1, hl]; simp
        rw [hpd] at hnil
        rw [if_neg (by simp [hl]), if_neg (by omega)]
        simp only [hnil]
      · rw [if_pos hl, if_pos (by omega)]
    · rw [if_neg hd1]
      by_cases hl : d < (splitOn '.' f).length
      · rw [if_pos hl, if_pos hl]
      · rw [if_neg hl, if_neg hl]; simp only [hnil]

/-! ## NumExpr reads more names, computes the same -/
variable {F : Type}

mutual
theorem ne_mono (M : Arith F) (loc loc' : Str → Option (Val F)) (h : ∀ id v, loc id = some v → loc' id = some v) :
    ∀ (e : PExpr) (v : Val F), ne M loc e = some v → ne M loc' e = some v
  | .num x, v, he => by simpa [ne] using he
  | .bytes x, v, he => by simpa [ne] using he
  | .str x, v, he => by simp [ne] at he
  | .const c, v, he => by cases c <;> simp_all [ne]
  | .name id, v, he => by rw [ne] at he ⊢; exact h id v he
  | .attr _ _, v, he => by simp [ne] at he
  | .unary op e, v, he => by
    cases op with
    | neg =>
      simp only [ne] at he ⊢
      cases h1 : ne M loc e with
      | none => simp [h1] at he
      | some a => rw [ne_mono M loc loc' h e a h1]; rw [h1] at he; exact he
    | invert =>
      simp only [ne] at he ⊢
      cases h1 : ne M loc e with
      | none => simp [h1] at he
      | some a => rw [ne_mono M loc loc' h e a h1]; rw [h1] at he; exact he
    | not => simp [ne] at he
    | pos => simp [ne] at he
  | .bin op l r, v, he => by
    simp only [ne] at he ⊢
    cases h1 : ne M loc l with
    | none => simp [h1] at he
    | some a =>
      cases h2 : ne M loc r with
      | none => simp [h1, h2] at he
      | some b => rw [ne_mono M loc loc' h l a h1, ne_mono M loc loc' h r b h2]; rw [h1, h2] at he; exact he
  | .boolop _ _ _, v, he => by simp [ne] at he
  | .compare l op r .nil, v, he => by
    simp only [ne] at he ⊢
    cases h1 : ne M loc l with
    | none => simp [h1] at he
    | some a =>
      cases h2 : ne M loc r with
      | none => simp [h1, h2] at he
      | some b => rw [ne_mono M loc loc' h l a h1, ne_mono M loc loc' h r b h2]; rw [h1, h2] at he; exact he
  | .compare _ _ _ (.cons _ _ _), v, he => by simp [ne] at he
  | .call (.name f) args .nil, v, he => by
    simp only [ne] at he ⊢
    cases h1 : neList M loc args with
    | none => simp [h1] at he
    | some a => rw [neList_mono M loc loc' h args a h1]; rw [h1] at he; exact he
  | .call (.name f) args (.cons _ _), v, he => by simp [ne] at he
  | .call (.num _) _ _, v, he => by simp [ne] at he
  | .call (.str _) _ _, v, he => by simp [ne] at he
  | .call (.bytes _) _ _, v, he => by simp [ne] at he
  | .call (.const _) _ _, v, he => by simp [ne] at he
  | .call (.attr _ _) _ _, v, he => by simp [ne] at he
  | .call (.unary _ _) _ _, v, he => by simp [ne] at he
  | .call (.bin _ _ _) _ _, v, he => by simp [ne] at he
  | .call (.boolop _ _ _) _ _, v, he => by simp [ne] at he
  | .call (.compare _ _ _ _) _ _, v, he => by simp [ne] at he
  | .call (.call _ _ _) _ _, v, he => by simp [ne] at he
  | .call (.dict _) _ _, v, he => by simp [ne] at he
  | .call (.banned _) _ _, v, he => by simp [ne] at he
  | .call (.display _) _ _, v, he => by simp [ne] at he
  | .call (.other _) _ _, v, he => by simp [ne] at he
  | .dict _, v, he => by simp [ne] at he
  | .banned _, v, he => by simp [ne] at he
  | .display _, v, he => by simp [ne] at he
  | .other _, v, he => by simp [ne] at he
theorem neList_mono (M : Arith F) (loc loc' : Str → Option (Val F)) (h : ∀ id v, loc id = some v → loc' id = some v) :
    ∀ (es : PList) (vs : List (Val F)), neList M loc es = some vs → neList M loc' es = some vs
  | .nil, vs, he => by simpa [neList] using he
  | .cons e es, vs, he => by
    simp only [neList] at he ⊢
    cases h1 : ne M loc e with
    | none => simp [h1] at he
    | some a =>
      cases h2 : neList M loc es with
      | none => simp [h1, h2] at he
      | some b => rw [ne_mono M loc loc' h e a h1, neList_mono M loc loc' h es b h2]; rw [h1, h2] at he; exact he
end

/-! ## the local dictionary -/

/-- assigning several values in a row -/
theorem foldlM_dictSet {α V : Type} (l : List α) (key : α → Str) (f : α → Except Err V) (d : List (Str × V))
    (hok : ∀ e ∈ l, ∃ v, f e = .ok v) :
    ∃ d', l.foldlM (fun d e => (f e).map fun v => dictSet d (key e) v) d = .ok d' ∧
      ∀ id, (∀ e, l.reverse.find? (fun e => decide (key e = id)) = some e → ∃ v, f e = .ok v ∧ dictGet d' id = some v) ∧
        (l.reverse.find? (fun e => decide (key e = id)) = none → dictGet d' id = dictGet d id) := by
  induction l generalizing d with
  | nil => exact ⟨d, rfl, fun id => ⟨by simp, fun _ => rfl⟩⟩
  | cons a l ih =>
    obtain ⟨v, hv⟩ := hok a (by simp)
    obtain ⟨d', h1, h2⟩ := ih (dictSet d (key a) v) (fun e he => hok e (by simp [he]))
    refine ⟨d', ?_, fun id => ?_⟩
    · simp only [List.foldlM_cons, hv, Except.map, bind, Except.bind]; exact h1
    · obtain ⟨h3, h4⟩ := h2 id
      rw [List.reverse_cons, List.find?_append]
      cases hf : l.reverse.find? (fun e => decide (key e = id)) with
      | some e' => exact ⟨fun e he => by simp only [Option.some_or, Option.some.injEq] at he; subst he; exact h3 _ hf, by simp⟩
      | none =>
        have h5 := h4 hf
        rw [dictGet_dictSet] at h5
        by_cases hk : key a = id
        · simp only [Option.none_or, List.find?_cons, hk, decide_true]
          refine ⟨fun e he => ?_, by simp⟩
          simp only [Option.some.injEq] at he; subst he
          exact ⟨v, hv, by rw [h5, if_pos hk.symm]⟩
        · have hk2 : ¬ id = key a := fun hc => hk hc.symm
          simp only [Option.none_or, List.find?_cons, hk, decide_false, List.find?_nil]
          exact ⟨by simp, fun _ => by rw [h5, if_neg hk2]⟩

section
variable [FOps F]

theorem addChains_flat (scope : List (Str × Sym F)) (s : PSt) (d : List (Str × Local F))
    (hdecl : ∀ t ∈ s.chains, (dictGet scope t.1).isSome) :
    addChains scope d s.chains = (subs s).foldlM (fun d x => (match dictGet scope x.2.1 with
      | none => Except.error Err.key
      | some sy => sy.getChain x.2.2).map fun v => dictSet d x.1 v) d := by
  unfold addChains subs
  generalize s.chains = chains at *
  induction chains generalizing d with
  | nil => rfl
  | cons t ts ih =>
    obtain ⟨sy, hsy⟩ := Option.isSome_iff_exists.mp (hdecl t (by simp))
    rw [List.foldlM_cons, List.flatMap_cons, List.foldlM_append, hsy]
    have : (List.map (fun x => (x.1, t.1, x.2)) t.2).foldlM (fun d x => (match dictGet scope x.2.1 with
      | none => Except.error Err.key
      | some sy => sy.getChain x.2.2).map fun v => dictSet d x.1 v) d =
        t.2.foldlM (fun d l => (sy.getChain l.2).map fun v => dictSet d l.1 v) d := by
      rw [List.foldlM_map]
      simp only [hsy]
    simp only [this]
    cases hx : t.2.foldlM (fun d l => (sy.getChain l.2).map fun v => dictSet d l.1 v) d with
    | error e => rfl
    | ok d1 => exact ih d1 (fun t' ht => hdecl t' (by simp [ht]))

theorem foldlM_dictSet_all {α V : Type} (P : V → Prop) (l : List α) (key : α → Str) (f : α → Except Err V) (d d' : List (Str × V))
    (hd : ∀ e ∈ d, P e.2) (hl : ∀ e ∈ l, ∀ v, f e = .ok v → P v)
    (h : l.foldlM (fun d e => (f e).map fun v => dictSet d (key e) v) d = .ok d') : ∀ e ∈ d', P e.2 := by
  induction l generalizing d with
  | nil => cases h; exact hd
  | cons a l ih =>
    cases hv : f a with
    | error er => simp [List.foldlM_cons, hv, Except.map, bind, Except.bind] at h
    | ok v =>
      simp only [List.foldlM_cons, hv, Except.map, bind, Except.bind] at h
      refine ih _ ?_ (fun e he => hl e (by simp [he])) h
      intro e he
      rcases mem_dictSet.mp he with rfl | ⟨he, _⟩
      · exact hl a (by simp) v hv
      · exact hd e he

/-- an array that can be broadcast to `n` × `m` -/
def Broadcasts (n m : Nat) : Local F → Prop
  | .array a => (a.rows = n ∨ a.rows = 1) ∧ (a.cols = m ∨ a.cols = 1)
  | _ => True

omit [FOps F] in
theorem at_array {a : Arr F} {n m i j : Nat} {mask : Option Nat} (h : Broadcasts n m (.array a)) (hi : i < n) (hj : j < m)
    (hm : mask = none ∨ mask = some j) :
    Local.at mask n m i j (.array a) = some (a.val (if a.rows = 1 then 0 else i) (if a.cols = 1 then 0 else j)) := by
  obtain ⟨h1, h2⟩ := h
  rcases hm with rfl | rfl
  · simp only [Local.at, Arr.cell]; rw [if_pos ⟨h1, h2⟩]
  · simp only [Local.at, Arr.cellOf]; rw [if_pos ⟨h1, by omega⟩]

omit [FOps F] in
theorem get_broadcasts {n m : Nat} {sy : Sym F} {l : Local F} (hf : FitsSym n m sy) (hg : sy.get = .ok l) : Broadcasts n m l := by
  match sy, hf, hg with
  | .number (some v), _, hg => cases hg; trivial
  | .number none, _, hg => cases hg
  | .vector _ none, _, hg => cases hg
  | .vector false (some a), hf, hg => cases hg; exact ⟨.inl hf.1, .inr hf.2⟩
  | .vector true (some a), hf, hg => cases hg; exact ⟨.inr hf.1, .inl hf.2⟩
  | .table _ _ _ _, _, hg => cases hg
  | .matrix _ _ _ _ none, _, hg => cases hg; trivial
  | .matrix _ _ _ _ (some a), hf, hg => cases hg; exact ⟨.inl hf.1, .inl hf.2⟩

omit [FOps F] in
theorem get_at {n m i j : Nat} {mask : Option Nat} {sy : Sym F} {l : Local F} {v : Val F} (hf : FitsSym n m sy) (hg : sy.get = .ok l)
    (hi : i < n) (hj : j < m) (hm : mask = none ∨ mask = some j) (hv : symAt i j sy = some v) : Local.at mask n m i j l = some v := by
  have hb := get_broadcasts hf hg
  match sy, hf, hg, hv with
  | .number (some _), _, hg, hv => cases hg; exact hv
  | .vector false (some a), hf, hg, hv =>
    cases hg
    rw [at_array hb hi hj hm, hf.1, hf.2]
    simp only [symAt, Option.some.injEq] at hv
    by_cases h1 : n = 1
    · rw [if_pos h1, if_pos rfl, ← hv, (by omega : i = 0)]
    · rw [if_neg h1, if_pos rfl, ← hv]
  | .vector true (some a), hf, hg, hv =>
    cases hg
    rw [at_array hb hi hj hm, hf.1, hf.2]
    simp only [symAt, Option.some.injEq] at hv
    by_cases h1 : m = 1
    · rw [if_pos h1, if_pos rfl, ← hv, (by omega : j = 0)]
    · rw [if_neg h1, if_pos rfl, ← hv]
  | .matrix _ _ _ _ (some a), hf, hg, hv =>
    cases hg
    rw [at_array hb hi hj hm, hf.1, hf.2]
    simp only [symAt, Option.some.injEq] at hv
    rw [← hv]
    by_cases h1 : n = 1 <;> by_cases h2 : m = 1 <;> simp [h1, h2] <;> congr 1 <;> omega

omit [FOps F] in
/-- lookups are shaped and read as expected -/
theorem getChain_at {n m : Nat} {scope : List (Str × Sym F)} (hf : Fits n m scope) {t : Str} {sy : Sym F} (hs : dictGet scope t = some sy)
    {ch : Chain} {o : Bool} {f : Nat → Val F} (hl : lookupCol scope t ch.path.reverse ch.func = some (o, f))
    (hagg : ch.func ≠ none → 2 ≤ ch.path.length) :
    ∃ l, sy.getChain ch = .ok l ∧ Broadcasts n m l ∧ ∀ i j mask, i < n → j < m → mask = none ∨ mask = some j →
      Local.at mask n m i j l = some (f (if o then j else i)) := by
  have hfs : FitsSym n m sy := hf _ (dictGet_mem hs)
  unfold lookupCol at hl
  rw [hs] at hl
  match sy, hl, hfs with
  | .table o' ma al (some tb), hl, hfs =>
    have fin : ∀ g : Nat → Val F, Broadcasts n m (.array (shapeVector o' tb.rows g)) ∧ ∀ i j mask, i < n → j < m →
        mask = none ∨ mask = some j → Local.at mask n m i j (.array (shapeVector o' tb.rows g)) = some (g (if o' then j else i)) := by
      intro g
      have hrows : tb.rows = if o' then m else n := hfs
      have hb : Broadcasts n m (.array (shapeVector o' tb.rows g)) := by
        cases o' with
        | false => exact ⟨.inl (by simpa [shapeVector] using hrows), .inr (by simp [shapeVector])⟩
        | true => exact ⟨.inr (by simp [shapeVector]), .inl (by simpa [shapeVector] using hrows)⟩
      refine ⟨hb, fun i j mask hi hj hm => ?_⟩
      rw [at_array hb hi hj hm]
      cases o' with
      | false =>
        simp only [Bool.false_eq_true, if_false] at hrows
        simp only [shapeVector, Bool.false_eq_true, if_false, hrows]
        by_cases h1 : n = 1
        · rw [if_pos h1, (by omega : i = 0)]
        · rw [if_neg h1]
      | true =>
        simp only [if_true] at hrows
        simp only [shapeVector, if_true, hrows]
        by_cases h1 : m = 1
        · rw [if_pos h1, (by omega : j = 0)]
        · rw [if_neg h1]
    by_cases hshort : ∃ a, ch.path = [a]
    · obtain ⟨a, ha⟩ := hshort
      have hnone : ch.func = none := by
        by_contra hc
        have := hagg hc
        rw [ha] at this; simp at this
      simp only [ha, hnone, List.reverse_singleton] at hl
      cases hc : tb.column a with
      | error e => simp [hc] at hl
      | ok g =>
        simp only [hc, Option.some.injEq, Prod.mk.injEq] at hl
        obtain ⟨rfl, rfl⟩ := hl
        refine ⟨_, ?_, fin g⟩
        simp only [Sym.getChain, ha, hc, Except.map]
    · have hl2 : (if tb.linked then match tb.walk ch.path.reverse ch.func with
        | .ok f => some (o', f)
        | .error _ => none
          else none) = some (o, f) := by
        cases hp : ch.path.reverse with
        | nil => rw [hp] at hl; simp at hl
        | cons a r =>
          cases r with
          | nil => exact absurd ⟨a, by simpa using congrArg List.reverse hp⟩ hshort
          | cons b r => rw [hp] at hl; exact hl
      cases hlk : tb.linked with
      | false => simp [hlk] at hl2
      | true =>
        cases hw : tb.walk ch.path.reverse ch.func with
        | error e => simp [hlk, hw] at hl2
        | ok g =>
          simp only [hlk, hw, if_true, Option.some.injEq, Prod.mk.injEq] at hl2
          obtain ⟨rfl, rfl⟩ := hl2
          cases hp : ch.path with
          | nil => simp [hp] at hl
          | cons a r =>
            cases r with
            | nil => exact absurd ⟨a, hp⟩ hshort
            | cons b r =>
              refine ⟨_, ?_, fin g⟩
              simp only [Sym.getChain, hp, hlk, if_true]
              rw [hp] at hw
              rw [hw]; rfl
  | .table o' ma al none, hl, _ => simp at hl
  | .number _, hl, _ => simp at hl
  | .vector _ _, hl, _ => simp at hl
  | .matrix _ _ _ _ _, hl, _ => simp at hl

end

end Cheval
