import Verif.Core.LdfEvalLemmas
import Verif.Spec.LdfEval

/-!
# `evaluate` against its specification
-/
namespace Cheval
open Spec
variable {V F : Type} [DecidableEq V] {E : LEnv V} {K : EvEnv V F}

/-! ## the symbols -/

theorem bindSymbols_get {f : LFrame V} : ∀ {ids : List Str} {ld ld' : List (Str × LocalVal F)}, K.bindSymbols f ids ld = .ok ld' →
    ∀ id, (id ∈ ids → id ∉ f.links.map (·.1) ∧ ((∃ c a, dictGet f.cols id = some c ∧ K.conv c = .ok a ∧ dictGet ld' id = some (.array a)) ∨
        (dictGet f.cols id = none ∧ dictGet ld' id = dictGet ld id))) ∧
      (id ∉ ids → dictGet ld' id = dictGet ld id)
  | [], ld, ld', h, id => by
    simp only [EvEnv.bindSymbols, Except.ok.injEq] at h
    subst h
    exact ⟨fun h => by simp at h, fun _ => rfl⟩
  | x :: ids, ld, ld', h, id => by
    rw [EvEnv.bindSymbols] at h
    split at h
    · cases h
    · rename_i hnl
      cases hc : dictGet f.cols x with
      | none =>
        rw [hc] at h
        simp only at h
        split at h
        · obtain ⟨h1, h2⟩ := bindSymbols_get h id
          refine ⟨fun hm => ?_, fun hm => h2 fun hcon => hm (List.mem_cons_of_mem _ hcon)⟩
          by_cases hx : id ∈ ids
          · exact h1 hx
          · obtain rfl : id = x := (List.mem_cons.mp hm).resolve_right hx
            exact ⟨hnl, .inr ⟨hc, h2 hx⟩⟩
        · cases h
      | some c =>
        rw [hc] at h
        simp only at h
        cases ha : K.conv c with
        | error e => rw [ha] at h; simp at h
        | ok a =>
          rw [ha] at h
          obtain ⟨h1, h2⟩ := bindSymbols_get h id
          constructor
          · intro hm
            by_cases hx : id ∈ ids
            · obtain ⟨h0, h4 | ⟨h4, h3⟩⟩ := h1 hx
              · exact ⟨h0, .inl h4⟩
              · refine ⟨h0, ?_⟩
                by_cases hix : id = x
                · subst hix; rw [hc] at h4; cases h4
                · right
                  refine ⟨h4, ?_⟩
                  rw [h3, dictGet_dictSet, if_neg hix]
            · obtain rfl : id = x := (List.mem_cons.mp hm).resolve_right hx
              refine ⟨hnl, .inl ⟨c, a, hc, ha, ?_⟩⟩
              rw [h2 hx, dictGet_dictSet, if_pos rfl]
          · intro hm
            rw [List.mem_cons, not_or] at hm
            rw [h2 hm.2, dictGet_dictSet, if_neg hm.1]

theorem bindSymbols_ok {f : LFrame V} : ∀ {ids : List Str} {ld : List (Str × LocalVal F)},
    (∀ id ∈ ids, id ∉ f.links.map (·.1) ∧ ((∃ c a, dictGet f.cols id = some c ∧ K.conv c = .ok a) ∨
      (dictGet f.cols id = none ∧ id ∈ ld.map (·.1)))) → ∃ ld', K.bindSymbols f ids ld = .ok ld'
  | [], ld, h => ⟨ld, rfl⟩
  | x :: ids, ld, h => by
    rw [EvEnv.bindSymbols]
    obtain ⟨h0, h1⟩ := h x List.mem_cons_self
    rw [if_neg h0]
    rcases h1 with ⟨c, a, hc, ha⟩ | ⟨hc, hm⟩
    · rw [hc]
      simp only
      rw [ha]
      refine bindSymbols_ok fun id hid => ?_
      obtain ⟨h2, h3⟩ := h id (List.mem_cons_of_mem _ hid)
      refine ⟨h2, h3.imp (fun h => h) fun h3 => ⟨h3.1, (dictSet_keys _ _ _ _).mpr (.inr h3.2)⟩⟩
    · rw [hc]
      simp only
      rw [if_pos hm]
      exact bindSymbols_ok fun id hid => h id (List.mem_cons_of_mem _ hid)

/-! ## the lookups -/

theorem chain_link {ev : Evaluator V} {w : LWorld V} {r : Nat} {root : Str} {ch : Chain} {c : LCol V} (h : (K.chain E ev w r root ch).2 = .ok c) :
    ∃ l, w.link? r root = some l := by
  have hw : ∀ ns, w.link? r root = none → w.walk r (root :: ns) [] = .error .key := by
    intro ns hn; rw [LWorld.walk, hn]
  cases hl : w.link? r root with
  | some l => exact ⟨l, rfl⟩
  | none =>
    unfold EvEnv.chain at h
    split at h
    · unfold LEnv.aggregate at h; rw [hw _ hl] at h; simp at h
    · unfold LEnv.lookup at h; rw [hw _ hl] at h; simp at h
    · simp at h

theorem asSeries_rowCount {A B : Type} {n : Nat} {kind : DKind} {x : A × Except Err (List B)} {c : LCol B} (h : (asSeries n kind x).2 = .ok c) :
    c.vals.length = n := by
  obtain ⟨w, e | a⟩ := x
  · simp [asSeries] at h
  · simp only [asSeries] at h
    split at h
    · rename_i hl
      simp only [Except.ok.injEq] at h
      rw [← h]; exact hl
    · cases h

theorem lookup_rowCount {w : LWorld V} {r : Nat} {path : List Str} {col : Str} {c : LCol V} (h : (E.lookup w r path col).2 = .ok c) :
    c.vals.length = w.rows r := by
  unfold LEnv.lookup at h
  cases hw : w.walk r path [] with
  | error e => rw [hw] at h; simp at h
  | ok p =>
    rw [hw] at h
    simp only at h
    cases hg : w.frames[p.1.other]? with
    | none => rw [hg] at h; simp at h
    | some g =>
      rw [hg] at h
      simp only at h
      cases hn : p.1.node with
      | aggr => rw [hn] at h; simp at h
      | leaf =>
        rw [hn] at h
        simp only at h
        cases hd : dictGet g.cols col with
        | none => rw [hd] at h; simp at h
        | some c0 => rw [hd] at h; exact asSeries_rowCount h
      | node =>
        rw [hn] at h
        simp only at h
        split at h
        · simp at h
        · cases hd : dictGet g.cols col with
          | none => rw [hd] at h; simp at h
          | some c0 => rw [hd] at h; exact asSeries_rowCount h

theorem aggregate_rowCount {ev : Evaluator V} (hev : EvKeeps E ev) {w : LWorld V} (hgood : LGood E w) {r : Nat} {path : List Str} {fn : Str} {arg : PExpr}
    {x : V} {c : LCol V} (h : (E.aggregate ev w r path fn arg x).2 = .ok c) : c.vals.length = w.rows r := by
  unfold LEnv.aggregate at h
  cases hw : w.walk r path [] with
  | error e => rw [hw] at h; simp at h
  | ok p =>
    rw [hw] at h
    simp only at h
    cases hg : w.frames[p.1.other]? with
    | none => rw [hg] at h; simp at h
    | some g =>
      rw [hg] at h
      simp only at h
      cases hn : p.1.node with
      | leaf => rw [hn] at h; simp at h
      | node => rw [hn] at h; simp at h
      | aggr =>
        rw [hn] at h
        simp only at h
        split at h
        · simp at h
        · have hk := (hev w p.1.other arg hgood).1
          rcases he : ev w p.1.other arg with ⟨w1, e | c1⟩
          · rw [he] at h; simp at h
          · rw [he] at h hk
            simp only at h hk
            split at h
            · simp at h
            · split at h
              · simp at h
              · split at h
                · simp at h
                · split at h
                  · simp at h
                  · rw [asSeries_rowCount h]; exact hk.1.rows r

theorem chain_rows {ev : Evaluator V} (hev : EvKeeps E ev) {w : LWorld V} (hgood : LGood E w) {r : Nat} {root : Str} {ch : Chain} {c : LCol V}
    (h : (K.chain E ev w r root ch).2 = .ok c) : c.vals.length = w.rows r := by
  unfold EvEnv.chain at h
  split at h
  · exact aggregate_rowCount hev hgood h
  · exact lookup_rowCount h
  · simp at h

theorem bindChains_get {ev : Evaluator V} (hev : EvCalm E ev) (hec : EvCache E ev) {w0 : LWorld V} (h0 : LGood E w0) (r : Nat) :
    ∀ {cs : List (Str × Str × Chain)} {w w' : LWorld V} {ld ld' : List (Str × LocalVal F)}, Calm E w0 w →
    (∀ x ∈ cs, ∀ y ∈ cs, x.1 = y.1 → x = y) → K.bindChains E ev r w cs ld = (w', .ok ld') →
    (∀ x ∈ cs, ∃ c a, (K.chain E ev w0 r x.2.1 x.2.2).2 = .ok c ∧ K.conv c = .ok a ∧ dictGet ld' x.1 = some (.array a)) ∧
    ∀ id, id ∉ cs.map (·.1) → dictGet ld' id = dictGet ld id
  | [], w, w', ld, ld', hk, hu, h => by
    simp only [EvEnv.bindChains, Prod.mk.injEq, Except.ok.injEq] at h
    obtain ⟨-, rfl⟩ := h
    exact ⟨fun x hx => by simp at hx, fun _ _ => rfl⟩
  | (sub, root, ch) :: rest, w, w', ld, ld', hk, hu, h => by
    rw [EvEnv.bindChains] at h
    have hkc := chain_calm (K := K) hev hk.1.2.1 r root ch
    have hcc := chain_cache (K := K) hev hec ⟨hk.1.1, hk.2, h0, hk.1.2.1⟩ r root ch
    cases hl : w.link? r root with
    | none => rw [hl] at h; simp at h
    | some l =>
      rw [hl] at h
      simp only at h
      rcases hx : K.chain E ev w r root ch with ⟨w1, e | c⟩
      · rw [hx] at h; simp at h
      · rw [hx] at h hkc hcc
        simp only at h hkc hcc
        cases ha : K.conv c with
        | error e => rw [ha] at h; simp at h
        | ok a =>
          rw [ha] at h
          obtain ⟨h1, h2⟩ := bindChains_get hev hec h0 r (hk.trans hkc)
            (fun x hx y hy => hu x (List.mem_cons_of_mem _ hx) y (List.mem_cons_of_mem _ hy)) h
          constructor
          · intro x hxm
            by_cases hxr : x ∈ rest
            · exact h1 x hxr
            · obtain rfl : x = (sub, root, ch) := (List.mem_cons.mp hxm).resolve_right hxr
              refine ⟨c, a, hcc, ha, ?_⟩
              rw [h2, dictGet_dictSet, if_pos rfl]
              intro hm
              obtain ⟨y, hy, hye⟩ := List.mem_map.mp hm
              exact hxr (hu y (List.mem_cons_of_mem _ hy) _ List.mem_cons_self hye ▸ hy)
          · intro id hid
            simp only [List.map_cons, List.mem_cons, not_or] at hid
            rw [h2 id hid.2, dictGet_dictSet, if_neg hid.1]

theorem bindChains_ok {ev : Evaluator V} (hev : EvCalm E ev) (hec : EvCache E ev) {w0 : LWorld V} (h0 : LGood E w0) (r : Nat) :
    ∀ {cs : List (Str × Str × Chain)} {w : LWorld V} {ld : List (Str × LocalVal F)}, Calm E w0 w →
    (∀ x ∈ cs, ∃ c a, (K.chain E ev w0 r x.2.1 x.2.2).2 = .ok c ∧ K.conv c = .ok a) → ∃ w' ld', K.bindChains E ev r w cs ld = (w', .ok ld')
  | [], w, ld, hk, h => ⟨w, ld, rfl⟩
  | (sub, root, ch) :: rest, w, ld, hk, h => by
    rw [EvEnv.bindChains]
    have hkc := chain_calm (K := K) hev hk.1.2.1 r root ch
    have hcc := chain_cache (K := K) hev hec ⟨hk.1.1, hk.2, h0, hk.1.2.1⟩ r root ch
    obtain ⟨c, a, hc, ha⟩ := h _ List.mem_cons_self
    simp only at hc
    rw [hc] at hcc
    obtain ⟨l, hl⟩ := chain_link hcc.symm
    rw [hl]
    simp only
    rcases hx : K.chain E ev w r root ch with ⟨w1, y⟩
    rw [hx] at hcc hkc
    simp only at hcc hkc
    subst hcc
    simp only
    rw [ha]
    exact bindChains_ok hev hec h0 r (hk.trans hkc) fun x hx => h x (List.mem_cons_of_mem _ hx)

/-! ## the local names serve the rewritten expression -/

theorem local_at_array {n i : Nat} {a : List (Val F)} (ha : a.length = n) (hi : i < n) : LocalVal.at n i (.array a) = a[i]? := by
  unfold LocalVal.at
  simp only
  split
  · rename_i h1
    have : i = 0 := by omega
    rw [this]
  · rfl

theorem elem_ok {x : Except Err (LCol V)} {i : Nat} {v : Val F} (h : K.elem x i = some v) :
    ∃ c a, x = .ok c ∧ K.conv c = .ok a ∧ a[i]? = some v := by
  unfold EvEnv.elem at h
  split at h
  · cases h
  · rename_i c
    split at h
    · cases h
    · rename_i a ha; exact ⟨c, a, rfl, ha, h⟩

theorem start_nan (ls : List (Str × LocalVal F)) : dictGet (K.start ls) nanStr = some (.scalar (.num K.arith.nan)) := by
  unfold EvEnv.start; rw [dictGet_dictSet, if_pos rfl]

theorem start_other {ls : List (Str × LocalVal F)} {id : Str} (h : id ≠ nanStr) :
    dictGet (K.start ls) id = if id = negInfStr then some (.scalar (.num K.negInf)) else dictGet ls id := by
  unfold EvEnv.start; rw [dictGet_dictSet, if_neg h, dictGet_dictSet]

/-- the lookup of the specification is the one the code makes -/
theorem cell_lookup (w : LWorld V) (r : Nat) (ls : List (Str × LocalVal F)) (i : Nat) (root : Str) (ch : Chain) {v : Val F}
    (h : (K.cell E w r ls i).lookup root ch.path.reverse ch.func = some v) : K.elem (K.chain E (K.argEval E) w r root ch).2 i = some v := by
  obtain ⟨path, func⟩ := ch
  unfold EvEnv.chain
  simp only [EvEnv.cell] at h
  cases func with
  | some p => exact h
  | none =>
    cases path with
    | nil => simp at h
    | cons col p => simpa using h

theorem nan_not_name {id : Str} (h : isNanName id = false) : id ≠ nanStr := by
  rintro rfl; revert h; decide

/-- what an accepted expression records -/
structure ParsedExpr (env : PyEnv) (e : PExpr) (s : PSt) (e' : PExpr) : Prop where
  visit : visit env e (freshParser [] []) = (s, .ok e')
  clash : NoDigitClash (tableNames e)
  internal : NoInternalNames (simpleNames e)

theorem ParsedExpr.inv {env : PyEnv} {e : PExpr} {s : PSt} {e' : PExpr} (h : ParsedExpr env e s e') : PInv s :=
  (visit_inv env e _ (PInv.fresh _ _) _ _ h.visit).1

theorem ParsedExpr.visited {env : PyEnv} {e : PExpr} {s : PSt} {e' : PExpr} (h : ParsedExpr env e s e') (x : Str) : x ∈ s.visited ↔ x ∈ simpleNames e := by
  rw [(visit_adds env e _ _ _ (PInv.fresh _ _) h.visit).visited]
  simp [freshParser]

theorem ParsedExpr.keys {env : PyEnv} {e : PExpr} {s : PSt} {e' : PExpr} (h : ParsedExpr env e s e') (x : Str) : x ∈ s.chains.map (·.1) ↔ x ∈ tableNames e := by
  rw [(visit_adds env e _ _ _ (PInv.fresh _ _) h.visit).keys]
  simp [freshParser]

theorem ParsedExpr.unique {env : PyEnv} {e : PExpr} {s : PSt} {e' : PExpr} (h : ParsedExpr env e s e') : ∀ x ∈ subs s, ∀ y ∈ subs s, x.1 = y.1 → x = y := by
  intro x hx y hy he
  refine subs_unique h.inv ?_ hx hy he
  intro a ha d hd hdig hm
  exact h.clash a ((h.keys a).mp ha) d hd hdig ((h.keys _).mp hm)

theorem ParsedExpr.not_sub {env : PyEnv} {e : PExpr} {s : PSt} {e' : PExpr} (h : ParsedExpr env e s e') {id : Str} (hid : ¬ subPrefix <+: id) :
    id ∉ (subs s).map (·.1) := by
  intro hm
  obtain ⟨x, hx, rfl⟩ := List.mem_map.mp hm
  obtain ⟨k, h1, -⟩ := sub_shape h.inv hx
  rw [h1] at hid
  exact hid (sub_prefix _ _)

mutual
theorem simpleNames_notNan : ∀ (e : PExpr) (x : Str), x ∈ simpleNames e → isNanName x = false
  | .num _, x, h => by simp [simpleNames] at h
  | .bytes _, x, h => by simp [simpleNames] at h
  | .const _, x, h => by simp [simpleNames] at h
  | .str _, x, h => by simp [simpleNames] at h
  | .name id, x, h => by
      simp only [simpleNames] at h
      split at h
      · simp at h
      · rename_i hn; rw [List.mem_singleton.mp h]; simpa using hn
  | .attr _ _, x, h => by simp [simpleNames] at h
  | .unary op e, x, h => by
      cases op with
      | not => simp only [simpleNames] at h; exact simpleNames_notNan e x h
      | _ => simp [simpleNames] at h
  | .bin _ l r, x, h => by
      simp only [simpleNames, List.mem_append] at h
      exact h.elim (simpleNames_notNan l x) (simpleNames_notNan r x)
  | .boolop _ v vs, x, h => by
      simp only [simpleNames, List.mem_append] at h
      exact h.elim (simpleNames_notNan v x) (simpleNamesL_notNan vs x)
  | .compare l _ r rest, x, h => by
      simp only [simpleNames, List.mem_append] at h
      exact h.elim (fun h => h.elim (simpleNames_notNan l x) (simpleNames_notNan r x)) (simpleNamesC_notNan rest x)
  | .call f args kws, x, h => by
      have hf := simpleNames_notNan f x
      have ha := simpleNamesL_notNan args x
      have hk := simpleNamesL_notNan kws x
      cases f with
      | name n => simp only [simpleNames] at h; exact ha h
      | attr e n => simp [simpleNames] at h
      | _ =>
        simp only [simpleNames, List.mem_append] at h
        rcases h with (h | h) | h
        · exact hf (by simpa only [simpleNames, List.mem_append] using h)
        · exact ha h
        · exact hk h
  | .dict _, x, h => by simp [simpleNames] at h
  | .banned _, x, h => by simp [simpleNames] at h
  | .display es, x, h => by simp only [simpleNames] at h; exact simpleNamesL_notNan es x h
  | .other es, x, h => by simp only [simpleNames] at h; exact simpleNamesL_notNan es x h
theorem simpleNamesL_notNan : ∀ (es : PList) (x : Str), x ∈ simpleNamesL es → isNanName x = false
  | .nil, x, h => by simp [simpleNamesL] at h
  | .cons e es, x, h => by
      simp only [simpleNamesL, List.mem_append] at h
      exact h.elim (simpleNames_notNan e x) (simpleNamesL_notNan es x)
theorem simpleNamesC_notNan : ∀ (es : PCmps) (x : Str), x ∈ simpleNamesC es → isNanName x = false
  | .nil, x, h => by simp [simpleNamesC] at h
  | .cons _ e es, x, h => by
      simp only [simpleNamesC, List.mem_append] at h
      exact h.elim (simpleNames_notNan e x) (simpleNamesC_notNan es x)
end

/-- the local names at row `i` -/
def rowNames (n : Nat) (ld : List (Str × LocalVal F)) (i : Nat) (id : Str) : Option (Val F) := (dictGet ld id).bind (LocalVal.at n i)

theorem evaluate_serves (hK : K.Ok) {w w1 : LWorld V} (h : LGood E w) {r : Nat} {f : LFrame V} (hf : w.frames[r]? = some f)
    {e e' : PExpr} {s : PSt} (hp : ParsedExpr { K.py with mode := .dataframe } e s e') {ls ld ld1 : List (Str × LocalVal F)}
    (hb : K.bindSymbols f s.visited (K.start ls) = .ok ld) (hc : K.bindChains E (K.argEval E) r w (subs s) ld = (w1, .ok ld1)) {i : Nat}
    (hi : i < f.rows) : Serves K.arith (K.cell E w r ls i) s (rowNames f.rows ld1 i) := by
  obtain ⟨hc1, hc2⟩ := bindChains_get (argEval_calm hK) (argEval_cache hK) h r (Calm.refl h) hp.unique hc
  have hns : ∀ id, ¬ subPrefix <+: id → dictGet ld1 id = dictGet ld id := fun id hid => hc2 id (hp.not_sub hid)
  refine ⟨?_, ?_, ?_, ?_⟩
  · unfold rowNames
    rw [hns _ (by rintro ⟨t, ht⟩; simp [subPrefix, nanStr] at ht), (bindSymbols_get hb nanStr).2 ?_, start_nan]
    · rfl
    · intro hm
      have := simpleNames_notNan e _ ((hp.visited _).mp hm)
      revert this; decide
  · intro id v hid hn hv
    unfold rowNames
    rw [hns id (hp.internal id ((hp.visited id).mp hid)).1]
    simp only [EvEnv.cell, hf, Option.bind_some] at hv
    obtain ⟨h1, h2⟩ := (bindSymbols_get hb id).1 hid
    rw [if_neg h1] at hv
    rcases h2 with ⟨c, a, hcc, ha, hg⟩ | ⟨hcc, hg⟩
    · rw [hcc] at hv
      obtain ⟨c', a', h3, h4, h5⟩ := elem_ok hv
      cases h3
      rw [ha] at h4
      cases h4
      rw [hg, Option.bind_some, local_at_array ?_ hi, h5]
      rw [hK.conv c a ha]
      exact (h.wf f (List.mem_of_getElem? hf)).cols _ (dictGet_mem hcc)
    · rw [hcc] at hv
      simp only at hv
      rw [hg, start_other (nan_not_name hn)]
      by_cases hni : id = negInfStr
      · rw [if_pos hni] at hv ⊢
        exact hv
      · rw [if_neg hni] at hv ⊢
        exact hv
  · intro sub root ch v hm hv
    obtain ⟨c, a, h1, h2, h3⟩ := hc1 _ hm
    simp only at h1 h3
    obtain ⟨c', a', h4, h5, h6⟩ := elem_ok (cell_lookup w r ls i root ch hv)
    rw [h1] at h4
    cases h4
    rw [h2] at h5
    cases h5
    unfold rowNames
    rw [h3, Option.bind_some, local_at_array ?_ hi, h6]
    rw [hK.conv c a h2]
    have hrows : f.rows = w.rows r := by simp [LWorld.rows, hf]
    rw [hrows]
    exact chain_rows (argEval_keeps hK) h h1
  · intro k lit v _ hv
    simp [EvEnv.cell] at hv

end Cheval
