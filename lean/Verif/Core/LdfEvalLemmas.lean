import Verif.Core.LdfEval
import Verif.Core.LdfEager
import Verif.Core.ExprChains

/-!
# `evaluate` under the invariant of linked frames
-/
namespace Cheval
open Spec
variable {V F : Type} [DecidableEq V] {E : LEnv V} {K : EvEnv V F}

/-- an evaluator of aggregation arguments -/
abbrev Evaluator (V : Type) := LWorld V → Nat → PExpr → LWorld V × Except Err (LCol V)

/-! ## the recursion -/

theorem aggregate_congr {ev ev' : Evaluator V} {a : PExpr} (h : ∀ w o, ev w o a = ev' w o a) (w : LWorld V) (r : Nat) (path : List Str)
    (fn : Str) (x : V) : E.aggregate ev w r path fn a x = E.aggregate ev' w r path fn a x := by
  unfold LEnv.aggregate
  simp only [h]

theorem bindChains_congr {ev ev' : Evaluator V} (r : Nat) : ∀ (cs : List (Str × Str × Chain)) (w : LWorld V) (ld : List (Str × LocalVal F)),
    (∀ x ∈ cs, ∀ fn a, x.2.2.func = some (fn, a) → ∀ w o, ev w o a = ev' w o a) →
    K.bindChains E ev r w cs ld = K.bindChains E ev' r w cs ld
  | [], w, ld, _ => rfl
  | (sub, root, ch) :: rest, w, ld, h => by
    rw [EvEnv.bindChains, EvEnv.bindChains]
    have hc : K.chain E ev w r root ch = K.chain E ev' w r root ch := by
      unfold EvEnv.chain
      cases hf : ch.func with
      | none => cases ch.path <;> rfl
      | some p =>
        obtain ⟨fn, a⟩ := p
        exact aggregate_congr (h _ List.mem_cons_self fn a hf) _ _ _ _ _
    rw [hc]
    cases w.link? r root with
    | none => rfl
    | some l =>
      simp only
      rcases K.chain E ev' w r root ch with ⟨w1, e | c⟩
      · rfl
      · simp only
        cases K.conv c with
        | error e => rfl
        | ok a => exact bindChains_congr r rest _ _ fun x hx => h x (List.mem_cons_of_mem _ hx)

theorem subs_fresh : subs (freshParser [] []) = [] := rfl

theorem evalWith_congr {ev ev' : Evaluator V} {e : PExpr} (h : ∀ a, sizeOf a < sizeOf e → ∀ w o, ev w o a = ev' w o a) (w : LWorld V) (r : Nat)
    (ls : List (Str × LocalVal F)) : K.evalWith E ev w r e ls = K.evalWith E ev' w r e ls := by
  unfold EvEnv.evalWith
  cases w.frames[r]? with
  | none => rfl
  | some f =>
    simp only
    split
    · rfl
    · rcases hv : visit { K.py with mode := .dataframe } e (freshParser [] []) with ⟨s, er | e'⟩
      · rfl
      · simp only
        cases K.bindSymbols f s.visited (K.start ls) with
        | error er => rfl
        | ok ld =>
          simp only
          rw [bindChains_congr (ev := ev) (ev' := ev') r (subs s)]
          intro x hx fn a hf
          rcases visit_chains _ e _ _ _ hv x hx with h1 | h1
          · rw [subs_fresh] at h1; cases h1
          · obtain ⟨x1, x2, ⟨p, fu⟩⟩ := x
            simp only at hf h1
            subst hf
            exact h a (chainsOf_size e h1)

theorem evalN_eq : ∀ (k : Nat) (e : PExpr), sizeOf e < k → ∀ (w : LWorld V) (r : Nat), K.evalN E k w r e = K.argEval E w r e := by
  have key : ∀ (n : Nat) (e : PExpr), sizeOf e < n → ∀ k k', sizeOf e < k → sizeOf e < k' → ∀ (w : LWorld V) (r : Nat),
      K.evalN E k w r e = K.evalN E k' w r e := by
    intro n
    induction n with
    | zero => intro e h; omega
    | succ n ih =>
      intro e he k k' hk hk' w r
      obtain ⟨k, rfl⟩ : ∃ m, k = m + 1 := ⟨k - 1, by omega⟩
      obtain ⟨k', rfl⟩ : ∃ m, k' = m + 1 := ⟨k' - 1, by omega⟩
      rw [EvEnv.evalN, EvEnv.evalN]
      simp only
      rw [evalWith_congr]
      intro a ha w o
      exact ih a (by omega) k k' (by omega) (by omega) w o
  intro k e hk w r
  exact key (sizeOf e + 1) e (by omega) _ _ hk (by omega) w r

/-- the evaluation of an argument is `evaluate` without local names, or `DataFrame.eval` -/
theorem argEval_eq (w : LWorld V) (r : Nat) (e : PExpr) :
    K.argEval E w r e = K.orPandas r e (K.evaluate E w r e []) := by
  unfold EvEnv.argEval EvEnv.evaluate
  rw [EvEnv.evalN, evalWith_congr]
  intro a ha w o
  exact (evalN_eq _ a ha w o).symm

/-! ## only caches change -/

theorem filterMap_length {A : Type} {g : Nat → Option A} : ∀ {l : List Nat}, (l.all fun i => (g i).isSome) = true →
    (l.filterMap g).length = l.length
  | [], _ => rfl
  | x :: l, h => by
    simp only [List.all_cons, Bool.and_eq_true] at h
    obtain ⟨v, hv⟩ := Option.isSome_iff_exists.mp h.1
    simp [List.filterMap_cons, hv, filterMap_length h.2]

theorem rows_length (hK : K.Ok) {n : Nat} {ld : List (Str × LocalVal F)} {e : PExpr} {c : LCol V} (h : K.rows n ld e = .ok c) :
    c.vals.length = n := by
  unfold EvEnv.rows at h
  simp only at h
  split at h
  · rename_i ha
    simp only [Except.ok.injEq] at h
    rw [← h, hK.back, filterMap_length ha, List.length_range]
  · cases h

/-- the aggregating links have the same group numbers -/
def SameGroupers (w w' : LWorld V) : Prop := ∀ q n l l', w.link? q n = some l → w'.link? q n = some l' → l.agg = true → l'.grouper = l.grouper

theorem SameGroupers.refl (w : LWorld V) : SameGroupers w w := fun q n l l' h h' _ => by rw [h] at h'; rw [Option.some.inj h']

theorem SameGroupers.trans {a b c : LWorld V} (hc : CacheOnly a b) (h : SameGroupers a b) (h' : SameGroupers b c) : SameGroupers a c := by
  intro q n l l' hl hl' ha
  obtain ⟨m, hm, he⟩ := hc.link_some hl
  have e2 : m.agg = l.agg := congrArg (fun x => x.agg) he
  rw [h' q n m l' hm hl' (e2.trans ha), h q n l m hl hm ha]

theorem SameGroupers.symm {a b : LWorld V} (hc : CacheOnly a b) (h : SameGroupers a b) : SameGroupers b a := by
  intro q n l l' hl hl' ha
  obtain ⟨m, hm, he⟩ := hc.symm.link_some hl
  have e2 : m.agg = l.agg := congrArg (fun x => x.agg) he
  rw [hl'] at hm
  obtain rfl := Option.some.inj hm
  exact (h q n l' l hl' hl (e2.trans ha)).symm

/-- the link, if aggregating, has its group numbers -/
def HasGrouper (w : LWorld V) (p : Nat × Str) : Prop := ∀ l, w.link? p.1 p.2 = some l → l.agg = true → l.grouper.isSome = true

theorem HasGrouper.same {w w' : LWorld V} {p : Nat × Str} (h : HasGrouper w p) (hc : CacheOnly w w') (hs : SameGroupers w w') : HasGrouper w' p := by
  intro l' hl' ha
  obtain ⟨l, hl, he⟩ := hc.link_some' hl'
  have e2 : l'.agg = l.agg := congrArg (fun x => x.agg) he
  rw [hs _ _ l l' hl hl' (e2 ▸ ha)]
  exact h l hl (e2 ▸ ha)

theorem indexerMissing_groupers {w : LWorld V} (h : LGood E w) {r : Nat} {n : Str} (hg : HasGrouper w (r, n)) :
    SameGroupers w (E.indexerMissing w r n).1 := by
  unfold LEnv.indexerMissing
  cases hl : w.link? r n with
  | none => exact SameGroupers.refl w
  | some l =>
    obtain ⟨f, g, ks, ko, hf, -, hk⟩ := h.linkOk hl
    simp only
    cases hp : (if l.flat.isSome = true then Except.ok l else E.precompute w l) with
    | error e => exact SameGroupers.refl w
    | ok l1 =>
      simp only
      cases hfl : l1.flat with
      | none => exact SameGroupers.refl w
      | some fl =>
        simp only
        have key : l.agg = true → l1.grouper = l.grouper := by
          intro ha
          split at hp
          · simp only [Except.ok.injEq] at hp; rw [hp]
          · obtain ⟨c, hc⟩ := Option.isSome_iff_exists.mp (hg l hl ha)
            have hko : w.keys l.other l.otherSpec = .ok ko := by unfold LWorld.keys; rw [hk.target]; exact hk.oth
            unfold LEnv.precompute at hp
            cases ho : w.keys l.owner l.selfSpec with
            | error e => rw [ho] at hp; simp at hp
            | ok a =>
              rw [ho, hko] at hp
              simp only [LEnv.makeIndexer, ha, if_true, Except.ok.injEq] at hp
              rw [← hp, hc, hk.grouper c hc]
        intro q m x x' hx hx' hax
        by_cases hqm : q = r ∧ m = n
        · obtain ⟨rfl, rfl⟩ := hqm
          rw [hl] at hx
          obtain rfl := Option.some.inj hx
          rw [link?_setLink hl] at hx'
          obtain rfl := Option.some.inj hx'
          exact key hax
        · rw [link?_setLink_of_ne hqm, hx] at hx'
          rw [Option.some.inj hx']

theorem resolve_groupers (kind : DKind) (fill : V) : ∀ (hist : List (Nat × Str)) {w : LWorld V} (_ : LGood E w) (_ : ∀ p ∈ hist, HasGrouper w p)
    (a : List V), SameGroupers w (E.resolve kind fill w hist a).1
  | [], w, _, _, _ => SameGroupers.refl w
  | p :: hist, w, h, hg, a => by
    rw [LEnv.resolve]
    have hk := indexerMissing_keeps h p.1 p.2
    have hs := indexerMissing_groupers (E := E) h (hg p List.mem_cons_self)
    rcases hx : E.indexerMissing w p.1 p.2 with ⟨w1, e | ⟨fl, m⟩⟩
    · rw [hx] at hs; exact hs
    · rw [hx] at hs hk
      simp only at hs hk ⊢
      cases takeInts a fl with
      | error e => exact hs
      | ok b =>
        simp only
        cases E.store kind fill with
        | error e => exact hs
        | ok v =>
          simp only
          cases putAll b m v with
          | error e => exact hs
          | ok c => exact SameGroupers.trans hk.1 hs (resolve_groupers kind fill hist hk.2.1 (fun q hq => (hg q (List.mem_cons_of_mem _ hq)).same hk.1 hs) c)

theorem trail_hasGrouper {w : LWorld V} {r q : Nat} {ns : List Str} {h : List (Nat × Str)} (t : Trail w r ns q h) : ∀ p ∈ h, HasGrouper w p := by
  induction t with
  | nil => intro p hp; simp at hp
  | snoc t hl ha ih =>
    intro p hp
    rcases List.mem_cons.mp hp with rfl | hp
    · intro l' hl' ha'
      simp only at hl'
      rw [hl] at hl'
      obtain rfl := Option.some.inj hl'
      rw [ha] at ha'; cases ha'
    · exact ih p hp

theorem node_aggr {l : Link} : l.node = .aggr ↔ l.agg = true := by
  unfold Link.node
  cases l.agg <;> cases l.chained <;> simp

/-- a call fills caches and leaves the group numbers alone -/
def Calm (E : LEnv V) (w w' : LWorld V) : Prop := Keeps E w w' ∧ SameGroupers w w'

theorem Calm.refl {w : LWorld V} (h : LGood E w) : Calm E w w := ⟨Keeps.refl h, SameGroupers.refl w⟩

theorem Calm.trans {a b c : LWorld V} (h : Calm E a b) (h' : Calm E b c) : Calm E a c := ⟨h.1.trans h'.1, SameGroupers.trans h.1.1 h.2 h'.2⟩

theorem lookup_calm {w : LWorld V} (h : LGood E w) (r : Nat) (path : List Str) (col : Str) : Calm E w (E.lookup w r path col).1 := by
  refine ⟨lookup_keeps h r path col, ?_⟩
  unfold LEnv.lookup
  cases hw : w.walk r path [] with
  | error e => exact SameGroupers.refl w
  | ok p =>
    obtain ⟨l, hist⟩ := p
    simp only
    cases hgf : w.frames[l.other]? with
    | none => exact SameGroupers.refl w
    | some g =>
      simp only
      obtain ⟨ns, n, q, h', -, ht, hl, he⟩ := walk_trail hw
      have hgr : l.node ≠ .aggr → ∀ p ∈ hist, HasGrouper w p := by
        intro hn
        have ha : l.agg = false := by
          cases ha : l.agg with
          | false => rfl
          | true => exact absurd (node_aggr.mpr ha) hn
        rw [he, List.append_nil]
        exact trail_hasGrouper (.snoc ht hl ha)
      cases hn : l.node with
      | aggr => exact SameGroupers.refl w
      | leaf =>
        simp only
        cases dictGet g.cols col with
        | none => exact SameGroupers.refl w
        | some c => rw [asSeries_fst]; exact resolve_groupers _ _ _ h (hgr (by rw [hn]; simp)) _
      | node =>
        simp only
        split
        · exact SameGroupers.refl w
        · cases dictGet g.cols col with
          | none => exact SameGroupers.refl w
          | some c => rw [asSeries_fst]; exact resolve_groupers _ _ _ h (hgr (by rw [hn]; simp)) _

/-- an evaluator that behaves: it fills caches, leaves the group numbers alone, and returns one value per row -/
def EvCalm (E : LEnv V) (ev : Evaluator V) : Prop :=
  ∀ w r e, LGood E w → Calm E w (ev w r e).1 ∧ ∀ c, (ev w r e).2 = .ok c → c.vals.length = w.rows r

theorem EvCalm.keeps {ev : Evaluator V} (h : EvCalm E ev) : EvKeeps E ev := fun w r e hg => ⟨(h w r e hg).1.1, (h w r e hg).2⟩

theorem orColumn_calm {ev : Evaluator V} (hev : EvCalm E ev) : EvCalm E (orColumn ev) := by
  intro w r e h
  refine ⟨?_, (orColumn_keeps hev.keeps w r e h).2⟩
  unfold orColumn
  split
  · rename_i g n _
    cases dictGet g.cols n with
    | none => exact (hev w r _ h).1
    | some c => simp only; split <;> exact Calm.refl h
  · exact (hev w r _ h).1

theorem aggregate_calm {ev : Evaluator V} (hev : EvCalm E ev) {w : LWorld V} (h : LGood E w) (r : Nat) (path : List Str) (fn : Str) (arg : PExpr) (x : V) :
    Calm E w (E.aggregate ev w r path fn arg x).1 := by
  refine ⟨aggregate_keeps hev.keeps h r path fn arg x, ?_⟩
  unfold LEnv.aggregate
  cases hw : w.walk r path [] with
  | error e => exact SameGroupers.refl w
  | ok p =>
    obtain ⟨l, hist⟩ := p
    simp only
    cases hgf : w.frames[l.other]? with
    | none => exact SameGroupers.refl w
    | some g =>
      simp only
      obtain ⟨ns, n, q, h', -, ht, hl, he⟩ := walk_trail hw
      subst he
      cases hn : l.node with
      | leaf => exact SameGroupers.refl w
      | node => exact SameGroupers.refl w
      | aggr =>
        simp only
        split
        · exact SameGroupers.refl w
        · have hk := (hev w l.other arg h).1
          rcases hx : ev w l.other arg with ⟨w1, e | c⟩
          · rw [hx] at hk; exact hk.2
          · rw [hx] at hk
            simp only at hk ⊢
            split
            · exact hk.2
            · split
              · exact hk.2
              · cases hb : (w1.link? q n).bind (·.grouper) with
                | none => exact hk.2
                | some codes =>
                  simp only
                  split
                  · exact hk.2
                  · rw [asSeries_fst]
                    refine SameGroupers.trans hk.1.1 hk.2 (resolve_groupers _ _ _ hk.1.2.1 ?_ _)
                    intro p hp
                    rw [List.append_nil] at hp
                    rcases List.mem_cons.mp hp with rfl | hp
                    · intro l' hl' _
                      simp only at hl'
                      rw [hl', Option.bind_some] at hb
                      rw [hb]; rfl
                    · exact (trail_hasGrouper ht p hp).same hk.1.1 hk.2

theorem chain_calm {ev : Evaluator V} (hev : EvCalm E ev) {w : LWorld V} (h : LGood E w) (r : Nat) (root : Str) (ch : Chain) :
    Calm E w (K.chain E ev w r root ch).1 := by
  unfold EvEnv.chain
  split
  · exact aggregate_calm hev h _ _ _ _ _
  · exact lookup_calm h _ _ _
  · exact Calm.refl h

theorem bindChains_calm {ev : Evaluator V} (hev : EvCalm E ev) (r : Nat) : ∀ (cs : List (Str × Str × Chain)) {w : LWorld V}
    (_ : LGood E w) (ld : List (Str × LocalVal F)), Calm E w (K.bindChains E ev r w cs ld).1
  | [], w, h, ld => Calm.refl h
  | (sub, root, ch) :: rest, w, h, ld => by
    rw [EvEnv.bindChains]
    have hk := chain_calm (K := K) hev h r root ch
    cases w.link? r root with
    | none => exact Calm.refl h
    | some l =>
      simp only
      rcases hc : K.chain E ev w r root ch with ⟨w1, e | c⟩
      · rw [hc] at hk; exact hk
      · rw [hc] at hk
        simp only
        cases K.conv c with
        | error e => exact hk
        | ok a => exact hk.trans (bindChains_calm hev r rest hk.1.2.1 _)

theorem evalWith_calm (hK : K.Ok) {ev : Evaluator V} (hev : EvCalm E ev) {w : LWorld V} (h : LGood E w) (r : Nat) (e : PExpr)
    (ls : List (Str × LocalVal F)) : Calm E w (K.evalWith E ev w r e ls).1 ∧
      ∀ c, (K.evalWith E ev w r e ls).2 = .ok c → c.vals.length = w.rows r := by
  unfold EvEnv.evalWith
  cases hf : w.frames[r]? with
  | none => exact ⟨Calm.refl h, fun c hc => by simp at hc⟩
  | some f =>
    simp only
    split
    · exact ⟨Calm.refl h, fun c hc => by simp at hc⟩
    · rcases hv : visit { K.py with mode := .dataframe } e (freshParser [] []) with ⟨s, er | e'⟩
      · exact ⟨Calm.refl h, fun c hc => by simp at hc⟩
      · simp only
        cases K.bindSymbols f s.visited (K.start ls) with
        | error er => exact ⟨Calm.refl h, fun c hc => by simp at hc⟩
        | ok ld =>
          simp only
          have hk := bindChains_calm (K := K) hev r (subs s) h ld
          rcases hb : K.bindChains E ev r w (subs s) ld with ⟨w1, er | ld1⟩
          · rw [hb] at hk; exact ⟨hk, fun c hc => by simp at hc⟩
          · rw [hb] at hk
            refine ⟨hk, fun c hc => ?_⟩
            simp only at hc
            rw [rows_length hK hc]
            simp [LWorld.rows, hf]

theorem orPandas_calm (hK : K.Ok) {w : LWorld V} {r : Nat} {e : PExpr} {x : LWorld V × Except Err (LCol V)} (hk : Calm E w x.1)
    (hx : ∀ c, x.2 = .ok c → c.vals.length = w.rows r) : Calm E w (K.orPandas r e x).1 ∧
      ∀ c, (K.orPandas r e x).2 = .ok c → c.vals.length = w.rows r := by
  unfold EvEnv.orPandas
  split
  · rename_i w1
    simp only at hk
    cases hf : w1.frames[r]? with
    | none => exact ⟨hk, fun c hc => by simp at hc⟩
    | some f =>
      refine ⟨hk, fun c hc => ?_⟩
      simp only at hc
      rw [hK.pandasEval _ _ _ _ _ hc]
      have := hk.1.1.rows r
      rw [hf] at this
      simpa [LWorld.rows, LFrame.rows] using this
  · exact ⟨hk, hx⟩

theorem evalN_calm (hK : K.Ok) : ∀ k, EvCalm E (K.evalN E k)
  | 0 => fun w r e h => ⟨Calm.refl h, fun c hc => by simp [EvEnv.evalN] at hc⟩
  | k + 1 => fun w r e h => by
    obtain ⟨h1, h2⟩ := evalWith_calm hK (evalN_calm hK k) h r e []
    rw [EvEnv.evalN]
    exact orPandas_calm hK h1 h2

/-- evaluating the argument of an aggregation fills caches only and returns one value per row -/
theorem argEval_calm (hK : K.Ok) : EvCalm E (K.argEval E) := fun w r e h => evalN_calm hK _ w r e h

theorem argEval_keeps (hK : K.Ok) : EvKeeps E (K.argEval E) := (argEval_calm hK).keeps

/-! ## caches do not matter -/

/-- two states of a program that differ in caches only -/
structure LikeWorld (E : LEnv V) (w w' : LWorld V) : Prop where
  cache : CacheOnly w w'
  groupers : SameGroupers w w'
  left : LGood E w
  right : LGood E w'

theorem LikeWorld.step {w w' w1 w1' : LWorld V} (h : LikeWorld E w w') (hk : Calm E w w1) (hk' : Calm E w' w1') : LikeWorld E w1 w1' where
  cache := (hk.1.1.symm.trans h.cache).trans hk'.1.1
  groupers := SameGroupers.trans (hk.1.1.symm.trans h.cache) (SameGroupers.trans hk.1.1.symm (hk.2.symm hk.1.1) h.groupers) hk'.2
  left := hk.1.2.1
  right := hk'.1.2.1

/-- what an evaluator returns does not depend on caches -/
def EvCache (E : LEnv V) (ev : Evaluator V) : Prop := ∀ w w' r e, LikeWorld E w w' → (ev w r e).2 = (ev w' r e).2

theorem orColumn_cache {ev : Evaluator V} (hec : EvCache E ev) : EvCache E (orColumn ev) := by
  intro w w' r e h
  unfold orColumn
  cases hf : w.frames[r]? with
  | none => rw [h.cache.none hf]; exact hec w w' r e h
  | some g =>
    obtain ⟨g', hg', hs⟩ := h.cache.frame hf
    have c1 : g'.cols = g.cols := by rw [hs.1]
    have c2 : g'.links.map (·.1) = g.links.map (·.1) := hs.names
    rw [hg']
    cases e with
    | name n =>
      simp only [c1, c2]
      cases dictGet g.cols n with
      | none => exact hec w w' r _ h
      | some c => simp only; split <;> rfl
    | _ => exact hec w w' r _ h

theorem aggregate_cache {ev : Evaluator V} (hev : EvCalm E ev) (hec : EvCache E ev) {w w' : LWorld V} (h : LikeWorld E w w') (r : Nat) (path : List Str)
    (fn : Str) (arg : PExpr) (x : V) : (E.aggregate ev w r path fn arg x).2 = (E.aggregate ev w' r path fn arg x).2 := by
  have hc := h.cache
  unfold LEnv.aggregate
  rcases walk_cache hc path r [] with ⟨e, h1, h2⟩ | ⟨l, l', hist, h1, h2, hcm⟩
  · rw [h1, h2]
  · obtain ⟨ns, n, q, hh, -, -, hl, he⟩ := walk_trail h1
    rw [h1, h2]
    simp only
    have e1 : l'.other = l.other := congrArg (fun x => x.other) hcm
    have e2 : l'.agg = l.agg := congrArg (fun x => x.agg) hcm
    have e3 : l'.chained = l.chained := congrArg (fun x => x.chained) hcm
    have hn : l'.node = l.node := by simp [Link.node, e2, e3]
    rw [e1, hn]
    cases hg : w.frames[l.other]? with
    | none => rw [hc.none hg]
    | some g =>
      obtain ⟨g', hg', hsg⟩ := hc.frame hg
      rw [hg']
      simp only
      cases hnode : l.node with
      | leaf => rfl
      | node => rfl
      | aggr =>
        simp only
        split
        · rfl
        · have hk := (hev w l.other arg h.left).1
          have hk' := (hev w' l.other arg h.right).1
          have hee := hec w w' l.other arg h
          rcases hx : ev w l.other arg with ⟨w1, y⟩
          rcases hx' : ev w' l.other arg with ⟨w1', y'⟩
          rw [hx] at hk hee
          rw [hx'] at hk' hee
          simp only at hk hk' hee
          subst hee
          rcases y with e | c
          · rfl
          · simp only
            split
            · rfl
            · split
              · rfl
              · have ha := h.step hk hk'
                obtain ⟨m, hm, hmc⟩ := hk.1.1.link_some hl
                obtain ⟨m', hm', -⟩ := ha.cache.link_some hm
                have a1 : m.agg = true := (congrArg (fun x => x.agg) hmc).trans (node_aggr.mp hnode)
                simp only [he, hm, hm', Option.bind_some, ha.groupers q n m m' hm hm' a1]
                cases m.grouper with
                | none => rfl
                | some codes =>
                  simp only
                  split
                  · rfl
                  · exact asSeries_congr (ha.cache.rows r).symm _ (resolve_cache _ _ _ ha.cache ha.left ha.right _)

theorem chain_cache {ev : Evaluator V} (hev : EvCalm E ev) (hec : EvCache E ev) {w w' : LWorld V} (h : LikeWorld E w w') (r : Nat) (root : Str) (ch : Chain) :
    (K.chain E ev w r root ch).2 = (K.chain E ev w' r root ch).2 := by
  unfold EvEnv.chain
  split
  · exact aggregate_cache hev hec h _ _ _ _ _
  · exact lookup_cache h.cache h.left h.right _ _ _
  · rfl

theorem link?_none {w w' : LWorld V} (hc : CacheOnly w w') (r : Nat) (n : Str) : w'.link? r n = none ↔ w.link? r n = none := by
  have := hc.link r n
  constructor
  · intro h; rw [h] at this; simpa using this.symm
  · intro h; rw [h] at this; simpa using this

theorem bindChains_cache {ev : Evaluator V} (hev : EvCalm E ev) (hec : EvCache E ev) (r : Nat) : ∀ (cs : List (Str × Str × Chain))
    {w w' : LWorld V} (_ : LikeWorld E w w') (ld : List (Str × LocalVal F)), (K.bindChains E ev r w cs ld).2 = (K.bindChains E ev r w' cs ld).2
  | [], w, w', h, ld => rfl
  | (sub, root, ch) :: rest, w, w', h, ld => by
    rw [EvEnv.bindChains, EvEnv.bindChains]
    have hk := chain_calm (K := K) hev h.left r root ch
    have hk' := chain_calm (K := K) hev h.right r root ch
    have hcc := chain_cache (K := K) hev hec h r root ch
    cases hl : w.link? r root with
    | none => rw [(link?_none h.cache r root).mpr hl]
    | some l =>
      obtain ⟨l', hl', -⟩ := h.cache.link_some hl
      rw [hl']
      simp only
      rcases hx : K.chain E ev w r root ch with ⟨w1, y⟩
      rcases hx' : K.chain E ev w' r root ch with ⟨w1', y'⟩
      rw [hx] at hk hcc
      rw [hx'] at hk' hcc
      simp only at hk hk' hcc
      subst hcc
      rcases y with e | c
      · rfl
      · simp only
        cases K.conv c with
        | error e => rfl
        | ok a => exact bindChains_cache hev hec r rest (h.step hk hk') _

theorem bindSymbols_cache {f f' : LFrame V} (hs : SameButCaches f f') : ∀ (ids : List Str) (ld : List (Str × LocalVal F)),
    K.bindSymbols f ids ld = K.bindSymbols f' ids ld
  | [], ld => rfl
  | id :: ids, ld => by
    have c1 : f'.cols = f.cols := by rw [hs.1]
    have c2 : f'.links.map (·.1) = f.links.map (·.1) := hs.names
    rw [EvEnv.bindSymbols, EvEnv.bindSymbols, c1, c2]
    simp only [bindSymbols_cache hs ids]

theorem evalWith_cache {ev : Evaluator V} (hev : EvCalm E ev) (hec : EvCache E ev) {w w' : LWorld V} (h : LikeWorld E w w') (r : Nat) (e : PExpr)
    (ls : List (Str × LocalVal F)) : (K.evalWith E ev w r e ls).2 = (K.evalWith E ev w' r e ls).2 := by
  unfold EvEnv.evalWith
  cases hf : w.frames[r]? with
  | none => rw [h.cache.none hf]
  | some f =>
    obtain ⟨f', hf', hs⟩ := h.cache.frame hf
    rw [hf']
    have c1 : f'.linked = f.linked := by rw [hs.1]
    have c2 : f'.rows = f.rows := by rw [hs.1]; rfl
    simp only [c1]
    split
    · rfl
    · rcases hv : visit { K.py with mode := .dataframe } e (freshParser [] []) with ⟨s, er | e'⟩
      · rfl
      · simp only
        rw [← bindSymbols_cache hs]
        cases K.bindSymbols f s.visited (K.start ls) with
        | error er => rfl
        | ok ld =>
          simp only
          have hb := bindChains_cache (K := K) hev hec r (subs s) h ld
          rcases hx : K.bindChains E ev r w (subs s) ld with ⟨w1, y⟩
          rcases hx' : K.bindChains E ev r w' (subs s) ld with ⟨w1', y'⟩
          rw [hx, hx'] at hb
          simp only at hb
          subst hb
          rcases y with er | ld1
          · rfl
          · simp only [c2]

theorem orPandas_cache {x x' : LWorld V × Except Err (LCol V)} (hc : CacheOnly x.1 x'.1) (h : x.2 = x'.2) (r : Nat) (e : PExpr) :
    (K.orPandas r e x).2 = (K.orPandas r e x').2 := by
  obtain ⟨w, y⟩ := x
  obtain ⟨w', y'⟩ := x'
  simp only at h hc
  subst h
  unfold EvEnv.orPandas
  rcases y with er | c
  · cases er <;> try rfl
    simp only
    cases hf : w.frames[r]? with
    | none => rw [hc.none hf]
    | some f => obtain ⟨f', hf', hs⟩ := hc.frame hf; rw [hf', hs.1]
  · rfl

theorem evalN_cache (hK : K.Ok) : ∀ k, EvCache E (K.evalN E k)
  | 0 => fun _ _ _ _ _ => rfl
  | k + 1 => fun w w' r e h => by
    rw [EvEnv.evalN]
    have hk := (evalWith_calm hK (evalN_calm hK k) h.left r e []).1
    have hk' := (evalWith_calm hK (evalN_calm hK k) h.right r e []).1
    exact orPandas_cache (h.step hk hk').cache (evalWith_cache (evalN_calm hK k) (evalN_cache hK k) h r e []) r e

theorem argEval_cache (hK : K.Ok) : EvCache E (K.argEval E) := fun w w' r e => evalN_cache hK _ w w' r e

/-! ## frames added later do not matter -/

theorem push_lookup {w : LWorld V} (hg : LGood E w) (f : LFrame V) {r : Nat} (hr : r < w.frames.length) (path : List Str) (col : Str) :
    E.lookup (w.push f) r path col = ((E.lookup w r path col).1.push f, (E.lookup w r path col).2) := by
  unfold LEnv.lookup
  rw [push_walk hg f hr]
  cases hw : w.walk r path [] with
  | error e => rfl
  | ok p =>
    obtain ⟨l, hist⟩ := p
    obtain ⟨ns, n, q, hh, -, -, hl, -⟩ := walk_trail hw
    have hlt := walk_hist_lt hg hw
    simp only
    rw [push_frames_lt (hg.link_lt hl).2.1, push_frames_lt hr]
    cases w.frames[l.other]? with
    | none => rfl
    | some g =>
      simp only
      have key : ∀ (n : Nat) (kind : DKind) (fill : V) (a : List V),
          asSeries n kind (E.resolve kind fill (w.push f) hist a) =
          ((asSeries n kind (E.resolve kind fill w hist a)).1.push f, (asSeries n kind (E.resolve kind fill w hist a)).2) := by
        intro n kind fill a
        rw [push_resolve kind fill f hist hg hlt]
        rcases E.resolve kind fill w hist a with ⟨w1, e | b⟩ <;> rfl
      cases l.node with
      | aggr => rfl
      | leaf =>
        simp only
        cases dictGet g.cols col with
        | none => rfl
        | some c => exact key _ _ _ _
      | node =>
        simp only
        split
        · rfl
        · cases dictGet g.cols col with
          | none => rfl
          | some c => exact key _ _ _ _


theorem push_aggregate {ev : Evaluator V} (hev : EvCalm E ev) (hep : EvPush E ev) {w : LWorld V} (hg : LGood E w) (f : LFrame V) {r : Nat}
    (hr : r < w.frames.length) (path : List Str) (fn : Str) (arg : PExpr) (x : V) :
    E.aggregate ev (w.push f) r path fn arg x = ((E.aggregate ev w r path fn arg x).1.push f, (E.aggregate ev w r path fn arg x).2) := by
  unfold LEnv.aggregate
  rw [push_walk hg f hr]
  cases hw : w.walk r path [] with
  | error e => rfl
  | ok p =>
    obtain ⟨l, hist⟩ := p
    obtain ⟨ns, n, q, hh, -, -, hl, he⟩ := walk_trail hw
    have hlt := walk_hist_lt hg hw
    have hlo := (hg.link_lt hl).2.1
    simp only
    rw [push_frames_lt hlo]
    cases hgf : w.frames[l.other]? with
    | none => rfl
    | some g =>
      simp only
      cases l.node with
      | leaf => rfl
      | node => rfl
      | aggr =>
        simp only
        split
        · rfl
        · rw [hep w f l.other arg hg hlo]
          have hk := (hev w l.other arg hg).1.1
          rcases hx : ev w l.other arg with ⟨w1, e | c⟩
          · rfl
          · rw [hx] at hk
            have hlen : w1.frames.length = w.frames.length := keeps_length hk
            simp only
            split
            · rfl
            · split
              · rfl
              · subst he
                simp only
                rw [push_link? (hlen ▸ hlt _ List.mem_cons_self)]
                cases (w1.link? q n).bind (·.grouper) with
                | none => rfl
                | some codes =>
                  simp only
                  split
                  · rfl
                  · rw [push_frames_lt (hlen ▸ hr), push_resolve _ _ f _ hk.2.1 (fun p hp => hlen ▸ hlt p hp)]
                    rcases E.resolve (E.aggKind fn c.kind) (if c.kind.intLike = true then x else E.nan) w1 ((q, n) :: (hh ++ []))
                      (E.reduce fn c.kind codes c.vals) with ⟨w2, e | b⟩ <;> rfl

theorem push_chain {ev : Evaluator V} (hev : EvCalm E ev) (hep : EvPush E ev) {w : LWorld V} (hg : LGood E w) (f : LFrame V) {r : Nat}
    (hr : r < w.frames.length) (root : Str) (ch : Chain) :
    K.chain E ev (w.push f) r root ch = ((K.chain E ev w r root ch).1.push f, (K.chain E ev w r root ch).2) := by
  unfold EvEnv.chain
  split
  · exact push_aggregate hev hep hg f hr _ _ _ _
  · exact push_lookup hg f hr _ _
  · rfl

theorem push_bindChains {ev : Evaluator V} (hev : EvCalm E ev) (hep : EvPush E ev) (f : LFrame V) (r : Nat) : ∀ (cs : List (Str × Str × Chain))
    {w : LWorld V} (_ : LGood E w) (_ : r < w.frames.length) (ld : List (Str × LocalVal F)),
    K.bindChains E ev r (w.push f) cs ld = ((K.bindChains E ev r w cs ld).1.push f, (K.bindChains E ev r w cs ld).2)
  | [], w, h, hr, ld => rfl
  | (sub, root, ch) :: rest, w, h, hr, ld => by
    rw [EvEnv.bindChains, EvEnv.bindChains, push_link? hr, push_chain hev hep h f hr]
    have hk := chain_calm (K := K) hev h r root ch
    cases w.link? r root with
    | none => rfl
    | some l =>
      simp only
      rcases hx : K.chain E ev w r root ch with ⟨w1, e | c⟩
      · rfl
      · rw [hx] at hk
        simp only
        cases K.conv c with
        | error e => rfl
        | ok a => exact push_bindChains hev hep f r rest hk.1.2.1 (by rw [keeps_length hk.1]; exact hr) _

theorem push_evalWith (hK : K.Ok) {ev : Evaluator V} (hev : EvCalm E ev) (hep : EvPush E ev) {w : LWorld V} (hg : LGood E w) (f : LFrame V) {r : Nat}
    (hr : r < w.frames.length) (e : PExpr) (ls : List (Str × LocalVal F)) :
    K.evalWith E ev (w.push f) r e ls = ((K.evalWith E ev w r e ls).1.push f, (K.evalWith E ev w r e ls).2) := by
  unfold EvEnv.evalWith
  rw [push_frames_lt hr]
  cases w.frames[r]? with
  | none => rfl
  | some g =>
    simp only
    split
    · rfl
    · rcases hv : visit { K.py with mode := .dataframe } e (freshParser [] []) with ⟨s, er | e'⟩
      · rfl
      · simp only
        cases K.bindSymbols g s.visited (K.start ls) with
        | error er => rfl
        | ok ld =>
          simp only
          rw [push_bindChains hev hep f r _ hg hr]
          rcases K.bindChains E ev r w (subs s) ld with ⟨w1, er | ld1⟩ <;> rfl

theorem evalN_push (hK : K.Ok) : ∀ k, EvPush E (K.evalN E k)
  | 0 => fun _ _ _ _ _ _ => rfl
  | k + 1 => fun w f r e hg hr => by
    rw [EvEnv.evalN]
    simp only
    rw [push_evalWith hK (evalN_calm hK k) (evalN_push hK k) hg f hr]
    have hk := (evalWith_calm hK (evalN_calm hK k) hg r e []).1.1
    rcases hx : K.evalWith E (K.evalN E k) w r e [] with ⟨w1, er | c⟩
    · rw [hx] at hk
      have hlen := keeps_length hk
      cases er <;> try rfl
      simp only [EvEnv.orPandas]
      rw [push_frames_lt (by simp only at hlen; omega)]
      cases w1.frames[r]? <;> rfl
    · rfl

theorem argEval_push (hK : K.Ok) : EvPush E (K.argEval E) := fun w f r e => evalN_push hK _ w f r e

end Cheval
