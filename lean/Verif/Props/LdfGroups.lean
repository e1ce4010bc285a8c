import Verif.Props.LdfAggregates
import Verif.Spec.LdfGroups
import Verif.Core.LdfSlice

/-!
# C45: what an aggregation gives, for all targets and reductions
-/
namespace Cheval
variable {V : Type} [DecidableEq V] {E : LEnv V} {isid : Str → Bool}
  {ev ev2 : LWorld V → Nat → PExpr → LWorld V × Except Err (LCol V)}

/-! ## the numbers of the groups -/

theorem uniques_snoc (ks : List (List V)) (x : List V) :
    E.uniques (ks ++ [x]) = if E.naKey x = true ∨ x ∈ E.uniques ks then E.uniques ks else E.uniques ks ++ [x] := by
  have hm : ∀ x, x ∈ E.uniques ks ↔ x ∈ (ks.filter fun k => !E.naKey k) := by intro y; simp [LEnv.uniques]
  by_cases hx : E.naKey x = true
  · rw [if_pos (.inl hx)]
    simp [LEnv.uniques, List.filter_append, hx]
  · have hx' : (!E.naKey x) = true := by simpa using hx
    have he : E.uniques (ks ++ [x]) = (List.dedup (x :: (ks.filter fun k => !E.naKey k).reverse)).reverse := by
      simp [LEnv.uniques, List.filter_append, hx']
    rw [he]
    by_cases hxm : x ∈ E.uniques ks
    · rw [if_pos (.inr hxm), List.dedup_cons_of_mem (by simpa using (hm x).mp hxm)]
      rfl
    · rw [if_neg (by tauto), List.dedup_cons_of_notMem (by simpa using fun h => hxm ((hm x).mpr h))]
      simp [LEnv.uniques]

theorem uniques_order : ∀ (ks : List (List V)) (a b : Nat) (k k' : List V), a < b → (E.uniques ks)[a]? = some k → (E.uniques ks)[b]? = some k' →
    ∀ j : Nat, ks[j]? = some k' → ∃ i : Nat, i < j ∧ ks[i]? = some k := by
  intro ks
  induction ks using List.reverseRecOn with
  | nil => intro a b k k' _ ha; simp [LEnv.uniques] at ha
  | append_singleton ks x ih =>
    intro a b k k' hab ha hb j hj
    rw [uniques_snoc] at ha hb
    have hjl : j < ks.length + 1 := by simpa using (List.getElem?_eq_some_iff.mp hj).1
    have up : ∀ {i : Nat} {y : List V}, ks[i]? = some y → (ks ++ [x])[i]? = some y := by
      intro i y hi
      rw [List.getElem?_append_left (List.getElem?_eq_some_iff.mp hi).1]; exact hi
    have fromOld : (E.uniques ks)[a]? = some k → (E.uniques ks)[b]? = some k' → ∃ i, i < j ∧ (ks ++ [x])[i]? = some k := by
      intro ha hb
      by_cases hjk : j < ks.length
      · rw [List.getElem?_append_left hjk] at hj
        obtain ⟨i, hi, hik⟩ := ih a b k k' hab ha hb j hj
        exact ⟨i, hi, up hik⟩
      · have hm := (mem_uniques.mp (List.mem_of_getElem? hb)).1
        obtain ⟨j0, hj0⟩ := List.getElem?_of_mem hm
        have := (List.getElem?_eq_some_iff.mp hj0).1
        obtain ⟨i, hi, hik⟩ := ih a b k k' hab ha hb j0 hj0
        exact ⟨i, by omega, up hik⟩
    split at ha
    · rw [if_pos ‹_›] at hb
      exact fromOld ha hb
    · rename_i hnew
      rw [if_neg hnew] at hb
      by_cases hbl : b < (E.uniques ks).length
      · rw [List.getElem?_append_left hbl] at hb
        rw [List.getElem?_append_left (by omega)] at ha
        exact fromOld ha hb
      · have hb' : b = (E.uniques ks).length := by
          have := (List.getElem?_eq_some_iff.mp hb).1
          simp only [List.length_append, List.length_cons, List.length_nil] at this
          omega
        rw [List.getElem?_append_left (by omega)] at ha
        have hkx : k' = x := by
          rw [hb'] at hb
          simpa using hb.symm
        subst hkx
        have hjn : ¬ j < ks.length := by
          intro hjk
          rw [List.getElem?_append_left hjk] at hj
          push Not at hnew
          exact hnew.2 (mem_uniques.mpr ⟨List.mem_of_getElem? hj, by simpa using hnew.1⟩)
        have hm := (mem_uniques.mp (List.mem_of_getElem? ha)).1
        obtain ⟨i, hi⟩ := List.getElem?_of_mem hm
        have := (List.getElem?_eq_some_iff.mp hi).1
        exact ⟨i, by omega, up hi⟩

theorem firstKeys_uniques {g : LFrame V} (hw : g.Wf) {s : KeySpec} {ko : List (List V)} (hk : g.keys s = .ok ko) : FirstKeys E.naKey g s (E.uniques ko) := by
  obtain ⟨h1, h2⟩ := keys_ok hw hk
  refine ⟨uniques_nodup ko, fun k => ?_, fun a b k k' hab ha hb j hj => ?_⟩
  · rw [mem_uniques, List.mem_iff_getElem?]
    simp only [h2]
  · rw [← h2] at hj
    obtain ⟨i, hi, hik⟩ := uniques_order ko a b k k' hab ha hb j hj
    exact ⟨i, hi, by rw [← h2]; exact hik⟩

/-- the code of a row -/
theorem codes_at {ks : List (List V)} {j : Nat} {k : List V} (hk : ks[j]? = some k) :
    (E.codes ks)[j]? = some (if E.naKey k = true then -1 else (posIn (E.uniques ks) k : Int)) := by
  have hm := List.mem_of_getElem? hk
  unfold LEnv.codes getIndexer
  rw [List.getElem?_map, hk, Option.map_some]
  by_cases hn : E.naKey k = true
  · rw [if_pos hn, if_neg (fun h => by have := (mem_uniques.mp h).2; rw [hn] at this; simp at this)]
  · rw [if_neg hn, if_pos (mem_uniques.mpr ⟨hm, by simpa using hn⟩)]
    rfl

theorem mem_codes_all {ks : List (List V)} {c : Int} :
    c ∈ E.codes ks ↔ (c = -1 ∧ ∃ k ∈ ks, E.naKey k = true) ∨ ∃ p < (E.uniques ks).length, c = (p : Int) := by
  rw [List.mem_iff_getElem?]
  constructor
  · rintro ⟨j, hj⟩
    have hjl : j < ks.length := by
      have := (List.getElem?_eq_some_iff.mp hj).1
      simpa [LEnv.codes, getIndexer_length] using this
    have hk : ks[j]? = some ks[j] := List.getElem?_eq_getElem hjl
    rw [codes_at hk] at hj
    simp only [Option.some.injEq] at hj
    by_cases hn : E.naKey ks[j] = true
    · rw [if_pos hn] at hj
      exact .inl ⟨hj.symm, _, List.getElem_mem hjl, hn⟩
    · rw [if_neg hn] at hj
      exact .inr ⟨_, posIn_lt (mem_uniques.mpr ⟨List.getElem_mem hjl, by simpa using hn⟩), hj.symm⟩
  · rintro (⟨rfl, k, hk, hn⟩ | ⟨p, hp, rfl⟩)
    · obtain ⟨j, hj⟩ := List.getElem?_of_mem hk
      exact ⟨j, by rw [codes_at hj, if_pos hn]⟩
    · have hm := mem_uniques.mp (List.getElem_mem hp)
      obtain ⟨j, hj⟩ := List.getElem?_of_mem hm.1
      exact ⟨j, by rw [codes_at hj, if_neg (by simp [hm.2]), posIn_get (uniques_nodup ks)]⟩

open Classical in
theorem groupNumbers_all (ks : List (List V)) :
    groupNumbers (E.codes ks) = (if ∃ k ∈ ks, E.naKey k = true then [-1] else []) ++ (List.range (E.uniques ks).length).map fun (p : Nat) => (p : Int) := by
  have hr : ((List.range (E.uniques ks).length).map fun (p : Nat) => (p : Int)).Nodup := List.nodup_range.map fun a b hab => by simpa using hab
  have hs : List.Pairwise (· ≤ ·) ((List.range (E.uniques ks).length).map fun (p : Nat) => (p : Int)) := by
    rw [List.pairwise_map]
    exact List.pairwise_le_range.imp fun hab => by simpa using hab
  unfold groupNumbers
  apply List.Perm.eq_of_pairwise' (r := (· ≤ ·)) (List.pairwise_insertionSort _ _)
  · split
    · rw [List.singleton_append, List.pairwise_cons]
      refine ⟨fun c hc => ?_, hs⟩
      simp only [List.mem_map, List.mem_range] at hc
      obtain ⟨p, -, rfl⟩ := hc
      omega
    · exact hs
  · refine (List.perm_insertionSort _ _).trans ?_
    rw [List.perm_ext_iff_of_nodup (List.nodup_dedup _)]
    · intro c
      rw [List.mem_dedup, mem_codes_all]
      by_cases hex : ∃ k ∈ ks, E.naKey k = true
      · rw [if_pos hex]
        simp only [hex, and_true, List.singleton_append, List.mem_cons, List.mem_map, List.mem_range]
        refine or_congr Iff.rfl (exists_congr fun p => and_congr Iff.rfl eq_comm)
      · rw [if_neg hex]
        simp only [hex, and_false, false_or, List.nil_append, List.mem_map, List.mem_range]
        exact ⟨fun ⟨p, h1, h2⟩ => ⟨p, h1, h2.symm⟩, fun ⟨p, h1, h2⟩ => ⟨p, h1, h2.symm⟩⟩
    · split
      · rw [List.singleton_append, List.nodup_cons]
        refine ⟨fun hc => ?_, hr⟩
        simp only [List.mem_map, List.mem_range] at hc
        obtain ⟨p, -, hp⟩ := hc
        omega
      · exact hr

/-- the values of the groups -/
theorem groupValues_all {g : LFrame V} (hw : g.Wf) {s : KeySpec} {ko : List (List V)} (hk : g.keys s = .ok ko) {vals : List V} (hv : vals.length = g.rows) :
    groupValues (E.codes ko) vals (-1) = g.keyless E.naKey s vals ∧
    ∀ p (hp : p < (E.uniques ko).length), groupValues (E.codes ko) vals (p : Int) = g.matching s (E.uniques ko)[p] vals := by
  obtain ⟨h1, h2⟩ := keys_ok hw hk
  have hlen : (E.codes ko).length = vals.length := by simp [LEnv.codes, getIndexer_length, h1, hv]
  constructor
  · rw [groupValues_eq _ _ hlen]
    unfold LFrame.keyless
    rw [hv]
    apply List.filterMap_congr
    intro j hj
    have hj' : j < ko.length := by rw [h1]; simpa using hj
    have hkj : ko[j]? = some ko[j] := List.getElem?_eq_getElem hj'
    rw [codes_at hkj, ← h2 j, hkj]
    simp only
    by_cases hn : E.naKey ko[j] = true
    · simp [hn]
    · rw [if_neg hn, if_neg hn, if_neg]
      simp only [Option.some.injEq]
      omega
  · intro p hp
    rw [groupValues_eq _ _ hlen]
    unfold LFrame.matching
    rw [hv]
    apply List.filterMap_congr
    intro j hj
    have hj' : j < ko.length := by rw [h1]; simpa using hj
    have hkj : ko[j]? = some ko[j] := List.getElem?_eq_getElem hj'
    rw [codes_at hkj, ← h2 j, hkj]
    have hup := mem_uniques.mp (List.getElem_mem hp)
    by_cases hn : E.naKey ko[j] = true
    · rw [if_pos hn, if_neg (by simp only [Option.some.injEq]; omega), if_neg]
      simp only [Option.some.injEq]
      intro he
      rw [← he, hn] at hup
      simp at hup
    · rw [if_neg hn]
      have hu := mem_uniques.mpr ⟨List.getElem_mem hj', by simpa using hn⟩
      have : ((posIn (E.uniques ko) ko[j] : Int) = (p : Int)) ↔ ko[j] = (E.uniques ko)[p] := by
        rw [Int.natCast_inj]
        constructor
        · intro he
          have := get_posIn hu
          rw [← this]
          congr 1
        · intro he
          rw [he, posIn_get (uniques_nodup ko)]
      simp only [Option.some.injEq, this]

/-- the reduced array, for all keys and reductions -/
theorem reduce_groups {g : LFrame V} (hw : g.Wf) {s : KeySpec} {ko : List (List V)} (hk : g.keys s = .ok ko) {vals : List V} (hv : vals.length = g.rows)
    (func : Str) (kind : DKind) :
    E.reduce func kind (E.codes ko) vals = (g.groups E.naKey s (E.uniques ko) vals).filterMap (E.agg func kind) := by
  classical
  obtain ⟨hx1, hx2⟩ := groupValues_all (E := E) hw hk hv
  have hna : (∃ k ∈ ko, E.naKey k = true) ↔ ∃ j k, g.keyAt s j = some k ∧ E.naKey k = true := by
    constructor
    · rintro ⟨k, hkm, hn⟩
      obtain ⟨j, hj⟩ := List.getElem?_of_mem hkm
      exact ⟨j, k, by rw [← (keys_ok hw hk).2]; exact hj, hn⟩
    · rintro ⟨j, k, hj, hn⟩
      rw [← (keys_ok hw hk).2] at hj
      exact ⟨k, List.mem_of_getElem? hj, hn⟩
  unfold LEnv.reduce LFrame.groups
  rw [groupNumbers_all, List.filterMap_append, List.filterMap_append]
  congr 1
  · by_cases hex : ∃ k ∈ ko, E.naKey k = true
    · rw [if_pos hex, if_pos (hna.mp hex)]
      simp only [List.filterMap_cons, List.filterMap_nil, hx1]
    · rw [if_neg hex, if_neg (fun h => hex (hna.mpr h))]
      rfl
  · rw [List.filterMap_map, List.filterMap_map]
    have : E.uniques ko = (List.range (E.uniques ko).length).filterMap fun p => (E.uniques ko)[p]? := by
      apply List.ext_getElem?
      intro i
      have hall : ∀ a ∈ List.range (E.uniques ko).length, ((fun p => (E.uniques ko)[p]?) a).isSome = true := by
        intro a ha
        simp only [List.mem_range] at ha
        simp [ha]
      rw [(filterMap_all_some hall).2 i]
      by_cases hi : i < (E.uniques ko).length
      · rw [List.getElem?_range hi]; rfl
      · rw [List.getElem?_eq_none (by omega), List.getElem?_eq_none (by simpa using hi)]; rfl
    conv_rhs => rw [this]
    rw [List.filterMap_filterMap]
    apply List.filterMap_congr
    intro p hp
    simp only [List.mem_range] at hp
    simp only [Function.comp_apply, hx2 p hp, List.getElem?_eq_getElem hp, Option.bind_some]

/-! ## the result -/

/-- NumPy indexing by positions of keys, for an array of any length -/
theorem takeInts_keys {A : Type} (a : List A) : ∀ (ix : List Int), (∀ k ∈ ix, -1 ≤ k) →
    ((∃ k ∈ ix, a = [] ∨ (a.length : Int) ≤ k) → takeInts a ix = .error .index) ∧
    ((¬ ∃ k ∈ ix, a = [] ∨ (a.length : Int) ≤ k) → ∃ b, takeInts a ix = .ok b ∧ b.length = ix.length ∧
      ∀ i p : Nat, ix[i]? = some (p : Int) → b[i]? = a[p]?)
  | [], _ => ⟨fun ⟨k, hk, _⟩ => by simp at hk, fun _ => ⟨[], rfl, rfl, fun i p h => by simp at h⟩⟩
  | k :: ks, h => by
    obtain ⟨h1, h2⟩ := takeInts_keys a ks fun x hx => h x (List.mem_cons_of_mem _ hx)
    have hk := h k List.mem_cons_self
    by_cases hbad : a = [] ∨ (a.length : Int) ≤ k
    · refine ⟨fun _ => ?_, fun hno => absurd ⟨k, List.mem_cons_self, hbad⟩ hno⟩
      have hnone : takeAt a.length k = none := by
        unfold takeAt
        rcases hbad with rfl | hb
        · simp only [List.length_nil, Nat.cast_zero]
          by_cases h0 : 0 ≤ k
          · rw [if_pos h0, if_neg (by omega)]
          · rw [if_neg h0, if_neg (by omega)]
        · rw [if_pos (by omega), if_neg (by omega)]
      rw [takeInts, hnone]
    · push Not at hbad
      have hpos : 0 < a.length := List.length_pos_iff.mpr hbad.1
      obtain ⟨p, hp, hpl, hpn⟩ : ∃ p, takeAt a.length k = some p ∧ p < a.length ∧ (0 ≤ k → (p : Int) = k) := by
        unfold takeAt
        by_cases h0 : 0 ≤ k
        · rw [if_pos h0, if_pos (by omega)]
          exact ⟨k.toNat, rfl, by omega, fun _ => by omega⟩
        · have : k = -1 := by omega
          subst this
          rw [if_neg (by omega), if_pos (by omega)]
          exact ⟨_, rfl, by omega, fun h => absurd h (by omega)⟩
      have hx : a[p]? = some a[p] := List.getElem?_eq_getElem hpl
      constructor
      · rintro ⟨k', hk', hb⟩
        rcases List.mem_cons.mp hk' with rfl | hk'
        · rcases hb with hb | hb
          · exact absurd hb hbad.1
          · omega
        · rw [takeInts, hp]
          simp only [hx, h1 ⟨k', hk', hb⟩]
      · intro hno
        obtain ⟨b, hb1, hb2, hb3⟩ := h2 fun ⟨k', hk', hb⟩ => hno ⟨k', List.mem_cons_of_mem _ hk', hb⟩
        refine ⟨a[p] :: b, ?_, by simp [hb2], ?_⟩
        · rw [takeInts, hp]
          simp only [hx, hb1]
        · intro i q hi
          cases i with
          | zero =>
            simp only [List.getElem?_cons_zero, Option.some.injEq] at hi ⊢
            have hpq : p = q := by have := hpn (by omega); omega
            rw [← hpq, hx]
          | succ i => simpa using hb3 i q (by simpa using hi)

/-- C45, for every target and every reduction: over a computed link that needs aggregation, `frame.link.f(arg)` reduces the groups of the
target's rows - first the rows without a key, if there are any, then the rows of each key, in order of first appearance - and keeps the
results there are (`nth` has none for a short group). A row whose key is the `p`-th gets the `p`-th of these results, whichever group it
belongs to; a row whose key does not occur gets the fill value; and the call raises IndexError if there is no `p`-th result for a row, or no
result at all. -/
theorem C45_exact (hev : EvKeeps E ev) (hev2 : EvKeeps E ev2) {ops : List (LOp V)} (hs : SafeRun E isid ev E.start ops) {w : LWorld V}
    (hw : w = lrun E isid ev E.start ops) {r : Nat} {n : Str} {l : Link} (hl : w.link? r n = some l) (ha : l.agg = true)
    (hcomp : l.flat.isSome = true) {g : LFrame V} (hg : w.frames[l.other]? = some g)
    {func : Str} {arg : PExpr} {w1 : LWorld V} {c : LCol V}
    (hc : ev2 w l.other arg = (w1, .ok c)) (hadm : Admitted func c.kind) {intFill v : V}
    (hv : E.store (E.aggKind func c.kind) (groupFill c.kind intFill E.nan) = .ok v) :
    ∃ us red, FirstKeys E.naKey g l.otherSpec us ∧ red = (g.groups E.naKey l.otherSpec us c.vals).filterMap (E.agg func c.kind) ∧
      ((∃ i, i < w.rows r ∧ (red = [] ∨ ∃ p, p < us.length ∧ w.keyAt r l.selfSpec i = us[p]? ∧ red.length ≤ p)) →
        (E.aggregate ev2 w r [n] func arg intFill).2 = .error .index) ∧
      ((¬ ∃ i, i < w.rows r ∧ (red = [] ∨ ∃ p, p < us.length ∧ w.keyAt r l.selfSpec i = us[p]? ∧ red.length ≤ p)) →
        ∃ out, (E.aggregate ev2 w r [n] func arg intFill).2 = .ok ⟨E.aggKind func c.kind, out⟩ ∧ out.length = w.rows r ∧
          ∀ i k, w.keyAt r l.selfSpec i = some k →
            (k ∉ us → out[i]? = some v) ∧ ∀ p : Nat, us[p]? = some k → out[i]? = red[p]?) := by
  obtain ⟨hfunc, hnum, hdt⟩ := admitted_parts hadm
  rw [groupFill_eq] at hv
  have h : LGood E w := by rw [hw]; exact good_run hev LGood.start hs
  obtain ⟨⟨hco, hg1, hgrow⟩, hlen⟩ := hev2 w l.other arg h
  rw [hc] at hco hg1 hgrow hlen
  have hcl := hlen c rfl
  obtain ⟨f, g0, ks, ko, hf, -, hk⟩ := h.linkOk hl
  have hg0 : g0 = g := by rw [hk.target] at hg; exact Option.some.inj hg
  subst hg0
  have hgw := h.wf _ (List.mem_of_getElem? hg)
  have hcl' : c.vals.length = g0.rows := by rw [hcl]; simp [LWorld.rows, hg]
  obtain ⟨l1, hl1, he1⟩ := hco.link_some hl
  have e1 : l1.other = l.other := congrArg (fun x => x.other) he1
  have e2 : l1.agg = l.agg := congrArg (fun x => x.agg) he1
  have e3 : l1.selfSpec = l.selfSpec := congrArg (fun x => x.selfSpec) he1
  have e4 : l1.otherSpec = l.otherSpec := congrArg (fun x => x.otherSpec) he1
  obtain ⟨f1, g1, ks1, ko1, hf1, -, hk1⟩ := hg1.linkOk hl1
  obtain ⟨f1', hf1', hsf⟩ := hco.frame hf
  obtain ⟨g1', hg1', hsg⟩ := hco.frame hg
  rw [hf1] at hf1'
  obtain rfl := Option.some.inj hf1'
  have hgg : g1 = g1' := by have := hk1.target; rw [e1, hg1'] at this; exact (Option.some.inj this).symm
  subst hgg
  have hks1 : ks1 = ks := by
    have := hk1.self; rw [e3, hsf.keys, hk.self] at this; simpa using this.symm
  have hko1 : ko1 = ko := by
    have := hk1.oth; rw [e4, hsg.keys, hk.oth] at this; simpa using this.symm
  subst hks1
  subst hko1
  have hbase : E.base l1 ko1 = E.uniques ko1 := by simp [LEnv.base, e2, ha]
  have hgrp : l1.grouper = some (E.codes ko1) := by
    obtain ⟨l1', hl1', hfl⟩ := hgrow r n l hl hcomp
    rw [hl1] at hl1'
    obtain rfl := Option.some.inj hl1'
    obtain ⟨cc, hcc⟩ := Option.isSome_iff_exists.mp (hk1.grouped (e2.trans ha) hfl)
    rw [hcc, hk1.grouper cc hcc]
  have hwalk : w.walk r [n] [] = .ok (l, [(r, n)]) := by simp [LWorld.walk, hl]
  obtain ⟨w2, hi, -, -⟩ := indexerMissing_good hg1 hl1 hf1 hk1
  rw [hbase] at hi
  have hrows := hk.rows h hf
  have hunf : E.aggregate ev2 w r [n] func arg intFill = asSeries (w.rows r) (E.aggKind func c.kind)
      (E.resolve (E.aggKind func c.kind) (if c.kind.intLike then intFill else E.nan) w1 [(r, n)] (E.reduce func c.kind (E.codes ko1) c.vals)) := by
    unfold LEnv.aggregate
    rw [hwalk]
    simp only [hg]
    have hnode : l.node = .aggr := by simp [Link.node, ha]
    rw [hnode]
    simp only
    rw [if_neg (not_not.mpr hfunc), hc]
    simp only
    rw [if_neg (by rintro ⟨x, y⟩; rw [hnum x] at y; simp at y), if_neg hdt, hl1]
    simp only [Option.bind_some, hgrp]
    have hlc : (E.codes ko1).length = c.vals.length := by
      rw [LEnv.codes, getIndexer_length, (keys_ok hgw hk.oth).1, hcl']
    rw [if_neg (by simp [hlc])]
    have := hco.rows r
    unfold LWorld.rows
    rw [this]
  rw [reduce_groups hgw hk.oth hcl', LEnv.resolve, hi] at hunf
  simp only at hunf
  refine ⟨E.uniques ko1, _, firstKeys_uniques hgw hk.oth, rfl, ?_⟩
  generalize (g0.groups E.naKey l.otherSpec (E.uniques ko1) c.vals).filterMap (E.agg func c.kind) = red at hunf ⊢
  have hge : ∀ k ∈ getIndexer (E.uniques ko1) ks1, -1 ≤ k := by
    intro k hkm
    simp only [getIndexer, List.mem_map] at hkm
    obtain ⟨x, -, rfl⟩ := hkm
    split <;> omega
  have hat : ∀ i k, w.keyAt r l.selfSpec i = some k → (getIndexer (E.uniques ko1) ks1)[i]? =
      some (if k ∈ E.uniques ko1 then (posIn (E.uniques ko1) k : Int) else -1) := by
    intro i k hik
    rw [← hrows.2.2.1] at hik
    simp only [getIndexer, List.getElem?_map, hik, Option.map_some, posIn]
    congr
  have hrow : ∀ i, i < w.rows r → ∃ k, w.keyAt r l.selfSpec i = some k := by
    intro i hi
    rw [← hrows.1] at hi
    exact ⟨ks1[i], by rw [← hrows.2.2.1]; exact List.getElem?_eq_getElem hi⟩
  have hbad : (∃ k ∈ getIndexer (E.uniques ko1) ks1, red = [] ∨ (red.length : Int) ≤ k) ↔
      ∃ i, i < w.rows r ∧ (red = [] ∨ ∃ p, p < (E.uniques ko1).length ∧ w.keyAt r l.selfSpec i = (E.uniques ko1)[p]? ∧ red.length ≤ p) := by
    constructor
    · rintro ⟨x, hx, hb⟩
      obtain ⟨i, hix⟩ := List.getElem?_of_mem hx
      have hil : i < w.rows r := by
        have := (List.getElem?_eq_some_iff.mp hix).1
        rw [getIndexer_length, hrows.1] at this
        exact this
      refine ⟨i, hil, ?_⟩
      rcases hb with hb | hb
      · exact .inl hb
      · obtain ⟨k, hik⟩ := hrow i hil
        rw [hat i k hik] at hix
        simp only [Option.some.injEq] at hix
        by_cases hm : k ∈ E.uniques ko1
        · rw [if_pos hm] at hix
          refine .inr ⟨posIn (E.uniques ko1) k, posIn_lt hm, ?_, by omega⟩
          rw [hik, List.getElem?_eq_getElem (posIn_lt hm), get_posIn hm]
        · rw [if_neg hm] at hix
          omega
    · rintro ⟨i, hil, hb⟩
      obtain ⟨k, hik⟩ := hrow i hil
      refine ⟨_, List.mem_of_getElem? (hat i k hik), ?_⟩
      rcases hb with hb | ⟨p, hp, hkp, hb⟩
      · exact .inl hb
      · have hk' : k = (E.uniques ko1)[p] := by
          rw [hik, List.getElem?_eq_getElem hp] at hkp
          exact Option.some.inj hkp
        rw [hk', if_pos (List.getElem_mem hp), posIn_get (uniques_nodup ko1)]
        exact .inr (by omega)
  obtain ⟨t1, t2⟩ := takeInts_keys red _ hge
  rw [hbad] at t1 t2
  refine ⟨fun hx => ?_, fun hx => ?_⟩
  · rw [hunf, t1 hx]; rfl
  · obtain ⟨b, b1, b2, b3⟩ := t2 hx
    rw [b1, hv] at hunf
    simp only at hunf
    cases hput : putAll b (missingOf (getIndexer (E.uniques ko1) ks1)) v with
    | error e =>
      exfalso
      unfold putAll at hput
      rw [if_pos] at hput
      · simp at hput
      · intro p hp
        rw [b2]
        rw [mem_missingOf] at hp
        exact (List.getElem?_eq_some_iff.mp hp).1
    | ok out =>
      rw [hput] at hunf
      simp only [LEnv.resolve] at hunf
      obtain ⟨o1, o2⟩ := take_put_get b1 hput
      have hol : out.length = w.rows r := by rw [o1, getIndexer_length, hrows.1]
      refine ⟨out, ?_, hol, fun i k hik => ⟨fun hm => ?_, fun p hp => ?_⟩⟩
      · rw [hunf]; simp [asSeries, hol]
      · rw [o2, hat i k hik, if_neg hm, if_pos rfl]
      · obtain ⟨hpl, hpk⟩ := List.getElem?_eq_some_iff.mp hp
        have hm : k ∈ E.uniques ko1 := List.mem_of_getElem? hp
        have hpos : posIn (E.uniques ko1) k = p := by rw [← hpk, posIn_get (uniques_nodup ko1)]
        rw [o2, hat i k hik, if_pos hm, if_neg (by simp only [Option.some.injEq]; omega)]
        exact b3 i p (by rw [hat i k hik, if_pos hm, hpos])

/-- C45 for a target with missing keys, and a reduction that has a value for every group: every row gets the reduction of the group before
its own - the first key's rows that of the rows without a key. -/
theorem C45_shifted (hev : EvKeeps E ev) (hev2 : EvKeeps E ev2) {ops : List (LOp V)} (hs : SafeRun E isid ev E.start ops) {w : LWorld V}
    (hw : w = lrun E isid ev E.start ops) {r : Nat} {n : Str} {l : Link} (hl : w.link? r n = some l) (ha : l.agg = true)
    (hcomp : l.flat.isSome = true) {g : LFrame V} (hg : w.frames[l.other]? = some g)
    {func : Str} {arg : PExpr} {w1 : LWorld V} {c : LCol V}
    (hc : ev2 w l.other arg = (w1, .ok c)) (hadm : Admitted func c.kind)
    (hna : ∃ j k, g.keyAt l.otherSpec j = some k ∧ E.naKey k = true)
    (hagg : ∀ vs, vs ≠ [] → (E.agg func c.kind vs).isSome = true) {intFill v : V}
    (hv : E.store (E.aggKind func c.kind) (groupFill c.kind intFill E.nan) = .ok v) :
    ∃ us out, FirstKeys E.naKey g l.otherSpec us ∧
      (E.aggregate ev2 w r [n] func arg intFill).2 = .ok ⟨E.aggKind func c.kind, out⟩ ∧ out.length = w.rows r ∧
      ∀ i k, w.keyAt r l.selfSpec i = some k →
        (k ∉ us → out[i]? = some v) ∧
        (us[0]? = some k → out[i]? = E.agg func c.kind (g.keyless E.naKey l.otherSpec c.vals)) ∧
        ∀ (p : Nat) k', us[p + 1]? = some k → us[p]? = some k' → out[i]? = E.agg func c.kind (g.matching l.otherSpec k' c.vals) := by
  classical
  have h : LGood E w := by rw [hw]; exact good_run hev LGood.start hs
  have hcl : c.vals.length = g.rows := by
    have := (hev2 w l.other arg h).2
    rw [hc] at this
    rw [this c rfl]; simp [LWorld.rows, hg]
  obtain ⟨us, red, hus, hred, -, hok⟩ := C45_exact hev hev2 hs hw hl ha hcomp hg hc hadm hv
  have hrow : ∀ j k, g.keyAt l.otherSpec j = some k → j < g.rows := by
    intro j k hj
    obtain ⟨_, g0, _, ko, _, -, hk⟩ := h.linkOk hl
    have hg0 : g0 = g := by have := hk.target; rw [hg] at this; exact (Option.some.inj this).symm
    subst hg0
    have hwf := h.wf _ (List.mem_of_getElem? hg)
    rw [← (keys_ok hwf hk.oth).2] at hj
    rw [← (keys_ok hwf hk.oth).1]
    exact (List.getElem?_eq_some_iff.mp hj).1
  have hgroups : g.groups E.naKey l.otherSpec us c.vals = g.keyless E.naKey l.otherSpec c.vals :: us.map fun k => g.matching l.otherSpec k c.vals := by
    unfold LFrame.groups
    rw [if_pos hna]
    rfl
  have hall : ∀ vs ∈ g.groups E.naKey l.otherSpec us c.vals, (E.agg func c.kind vs).isSome = true := by
    intro vs hvs
    rw [hgroups, List.mem_cons] at hvs
    apply hagg
    rcases hvs with rfl | hvs
    · obtain ⟨j, k, hj, hn⟩ := hna
      have hjr := hrow j k hj
      unfold LFrame.keyless
      rw [ne_eq, List.filterMap_eq_nil_iff]
      intro hno
      have := hno j (List.mem_range.mpr hjr)
      rw [hj] at this
      simp only [hn, if_true, List.getElem?_eq_none_iff] at this
      omega
    · simp only [List.mem_map] at hvs
      obtain ⟨k, hkm, rfl⟩ := hvs
      obtain ⟨⟨j, hj⟩, -⟩ := (hus.mem k).mp hkm
      exact (matching_ne_nil hcl).mpr ⟨j, hrow j k hj, hj⟩
  obtain ⟨hlen, hget⟩ := filterMap_all_some hall
  rw [← hred] at hlen hget
  rw [hgroups] at hlen hget
  simp only [List.length_cons, List.length_map] at hlen
  obtain ⟨out, h1, h2, h3⟩ := hok (by
    rintro ⟨i, -, hx | ⟨p, hp, -, hb⟩⟩
    · rw [hx] at hlen; simp at hlen
    · omega)
  refine ⟨us, out, hus, h1, h2, fun i k hik => ⟨(h3 i k hik).1, fun h0 => ?_, fun p k' hp hp' => ?_⟩⟩
  · rw [(h3 i k hik).2 0 h0, hget]; rfl
  · rw [(h3 i k hik).2 _ hp, hget]
    simp [hp']

/-- a case of C45_exact and C45_shifted: the persons of lxNanOps, the first of whom has a NaN household, summed by household -/
example : ∃ l g w1 c, (lrun lxE lxId lxEv lxE.start lxNanOps).link? 0 lxP = some l ∧ l.agg = true ∧ l.flat.isSome = true ∧
    (lrun lxE lxId lxEv lxE.start lxNanOps).frames[l.other]? = some g ∧
    orColumn lxEv (lrun lxE lxId lxEv lxE.start lxNanOps) l.other (.name lxA) = (w1, .ok c) ∧ c.kind = .int ∧
    g.keyAt l.otherSpec 0 = some [-99] ∧ lxE.naKey [-99] = true :=
  ⟨_, _, _, _, rfl, by decide, by decide, rfl, rfl, by decide, by decide, by decide⟩

example : ∃ (us : List (List Int)) (out : List Int),
    (lxE.aggregate (orColumn lxEv) (lrun lxE lxId lxEv lxE.start lxNanOps) 0 [lxP] "sum".toList (.name lxA) 0).2 = .ok ⟨.int, out⟩ ∧
    out.length = 2 ∧ [20] ∈ us ∧ (us[0]? = some [20] → out[1]? = some 1) := by
  obtain ⟨us, out, hus, h1, h2, h3⟩ := C45_shifted (E := lxE) (isid := lxId) lxEv_keeps (orColumn_keeps lxEv_keeps) (ops := lxNanOps)
    (safeRunCheck_ok (by decide)) rfl (r := 0) (n := lxP) (l := _) rfl (by decide) (by decide) (g := _) rfl (func := "sum".toList) (arg := .name lxA)
    (w1 := _) (c := _) rfl (.inr ⟨by decide, .inl (by decide)⟩) ⟨0, [-99], by decide, by decide⟩ (by intro vs _; rfl) (intFill := 0) (v := 0) (by decide)
  exact ⟨us, out, h1, h2, (hus.mem [20]).mpr ⟨⟨1, by decide⟩, by decide⟩, fun h0 => ((h3 1 [20] (by decide)).2.1 h0).trans (by decide)⟩

end Cheval
