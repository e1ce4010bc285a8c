import Verif.Core.LdfEvalLemmas
import Verif.Core.LdfHistory

/-!
# Reads change nothing but caches, whatever was done before
-/
namespace Cheval
open Spec
variable {V F : Type} [DecidableEq V] {E : LEnv V} {K : EvEnv V F} {ev : LWorld V → Nat → PExpr → LWorld V × Except Err (LCol V)}

/-- the names of a frame's links are distinct -/
def Tidy (w : LWorld V) : Prop := ∀ f ∈ w.frames, (f.links.map (·.1)).Nodup

theorem CacheOnly.tidy {w w' : LWorld V} (h : CacheOnly w w') (ht : Tidy w) : Tidy w' := by
  intro f' hf'
  obtain ⟨q, hq⟩ := List.getElem?_of_mem hf'
  obtain ⟨f, hf, hs⟩ := h.symm.frame hq
  have := ht f (List.mem_of_getElem? hf)
  rwa [hs.names] at this

/-- only caches change, and no cache is lost -/
def Quiet (w w' : LWorld V) : Prop := Tidy w → CacheOnly w w' ∧ Grows w w'

theorem Quiet.refl (w : LWorld V) : Quiet w w := fun _ => ⟨CacheOnly.refl w, Grows.refl w⟩

theorem Quiet.trans {a b c : LWorld V} (h : Quiet a b) (h' : Quiet b c) : Quiet a c := fun ht => by
  obtain ⟨h1, h2⟩ := h ht
  obtain ⟨h3, h4⟩ := h' (h1.tidy ht)
  exact ⟨h1.trans h3, h2.trans h4⟩

theorem Quiet.setLink {w : LWorld V} {r : Nat} {n : Str} {l l' : Link} (hl : w.link? r n = some l) (he : l'.copyMeta = l.copyMeta)
    (hs : l'.flat.isSome = true) : Quiet w (w.setLink r n l') := fun ht => ⟨setLink_cacheOnly hl he ht, setLink_grows hl hs⟩

theorem makeIndexer_copy {l l' : Link} {a b : List (List V)} (h : E.makeIndexer l a b = .ok l') : l'.copyMeta = l.copyMeta ∧ l'.flat.isSome = true := by
  unfold LEnv.makeIndexer at h
  split at h
  · cases h; exact ⟨rfl, rfl⟩
  · split at h
    · cases h; exact ⟨rfl, rfl⟩
    · split at h
      · cases h; exact ⟨rfl, rfl⟩
      · cases h

theorem precompute_copy {w : LWorld V} {l l' : Link} (h : E.precompute w l = .ok l') : l'.copyMeta = l.copyMeta ∧ l'.flat.isSome = true := by
  unfold LEnv.precompute at h
  split at h
  · cases h
  · split at h
    · cases h
    · exact makeIndexer_copy h

theorem indexerMissing_quiet (w : LWorld V) (r : Nat) (n : Str) : Quiet w (E.indexerMissing w r n).1 := by
  unfold LEnv.indexerMissing
  cases hl : w.link? r n with
  | none => exact .refl w
  | some l =>
    simp only
    split
    · exact .refl w
    · rename_i l1 h1
      cases hfl : l1.flat with
      | none => exact .refl w
      | some fl =>
        refine .setLink hl ?_ (by simp)
        split at h1
        · cases h1; rfl
        · exact (precompute_copy h1).1

theorem resolve_quiet (kind : DKind) (fill : V) : ∀ (hs : List (Nat × Str)) (w : LWorld V) (a : List V), Quiet w (E.resolve kind fill w hs a).1
  | [], w, a => by rw [LEnv.resolve]; exact .refl w
  | h :: hs, w, a => by
    have hi := indexerMissing_quiet (E := E) w h.1 h.2
    rw [LEnv.resolve]
    rcases hx : E.indexerMissing w h.1 h.2 with ⟨w1, x⟩
    rw [hx] at hi
    cases x with
    | error e => exact hi
    | ok p =>
      obtain ⟨fl, m⟩ := p
      simp only
      cases takeInts a fl with
      | error e => exact hi
      | ok b =>
        simp only
        cases E.store kind fill with
        | error e => exact hi
        | ok v =>
          simp only
          cases putAll b m v with
          | error e => exact hi
          | ok c => exact hi.trans (resolve_quiet kind fill hs w1 c)

theorem lookup_quiet (w : LWorld V) (r : Nat) (path : List Str) (col : Str) : Quiet w (E.lookup w r path col).1 := by
  unfold LEnv.lookup
  cases w.walk r path [] with
  | error e => exact .refl w
  | ok p =>
    obtain ⟨l, h⟩ := p
    simp only
    cases w.frames[l.other]? with
    | none => exact .refl w
    | some g =>
      simp only
      cases l.node with
      | aggr => exact .refl w
      | leaf =>
        simp only
        cases dictGet g.cols col with
        | none => exact .refl w
        | some c => simp only; rw [asSeries_fst]; exact resolve_quiet _ _ _ _ _
      | node =>
        simp only
        split
        · exact .refl w
        · cases dictGet g.cols col with
          | none => exact .refl w
          | some c => simp only; rw [asSeries_fst]; exact resolve_quiet _ _ _ _ _

theorem orColumn_quiet (hev : ∀ w o a, Quiet w (ev w o a).1) (w : LWorld V) (o : Nat) (a : PExpr) : Quiet w (orColumn ev w o a).1 := by
  unfold orColumn
  split
  · rename_i g n _
    cases dictGet g.cols n with
    | none => exact hev _ _ _
    | some c => simp only; split <;> exact .refl w
  · exact hev _ _ _

theorem aggregate_quiet (hev : ∀ w o a, Quiet w (ev w o a).1) (w : LWorld V) (r : Nat) (path : List Str) (func : Str) (arg : PExpr) (intFill : V) :
    Quiet w (E.aggregate ev w r path func arg intFill).1 := by
  unfold LEnv.aggregate
  cases w.walk r path [] with
  | error e => exact .refl w
  | ok p =>
    obtain ⟨l, h⟩ := p
    simp only
    cases w.frames[l.other]? with
    | none => exact .refl w
    | some g =>
      simp only
      cases l.node with
      | leaf => exact .refl w
      | node => exact .refl w
      | aggr =>
        simp only
        split
        · exact .refl w
        · have hi := hev w l.other arg
          rcases hx : ev w l.other arg with ⟨w1, x⟩
          rw [hx] at hi
          cases x with
          | error e => exact hi
          | ok c =>
            simp only
            split
            · exact hi
            · split
              · exact hi
              · split
                · exact hi
                · split
                  · exact hi
                  · rw [asSeries_fst]; exact hi.trans (resolve_quiet _ _ _ _ _)

theorem bindChains_quiet {ev : Evaluator V} (hev : ∀ w o a, Quiet w (ev w o a).1) (r : Nat) : ∀ (cs : List (Str × Str × Chain)) (w : LWorld V)
    (ld : List (Str × LocalVal F)), Quiet w (K.bindChains E ev r w cs ld).1
  | [], w, ld => .refl w
  | (sub, root, ch) :: rest, w, ld => by
    rw [EvEnv.bindChains]
    have hk : Quiet w (K.chain E ev w r root ch).1 := by
      unfold EvEnv.chain
      split
      · exact aggregate_quiet hev _ _ _ _ _ _
      · exact lookup_quiet _ _ _ _
      · exact .refl w
    cases w.link? r root with
    | none => exact .refl w
    | some l =>
      simp only
      rcases hx : K.chain E ev w r root ch with ⟨w1, e | c⟩
      · rw [hx] at hk; exact hk
      · rw [hx] at hk
        simp only
        cases K.conv c with
        | error e => exact hk
        | ok a => exact hk.trans (bindChains_quiet hev r rest _ _)

theorem evalWith_quiet {ev : Evaluator V} (hev : ∀ w o a, Quiet w (ev w o a).1) (w : LWorld V) (r : Nat) (e : PExpr) (ls : List (Str × LocalVal F)) :
    Quiet w (K.evalWith E ev w r e ls).1 := by
  unfold EvEnv.evalWith
  cases w.frames[r]? with
  | none => exact .refl w
  | some f =>
    simp only
    split
    · exact .refl w
    · rcases visit { K.py with mode := .dataframe } e (freshParser [] []) with ⟨s, er | e'⟩
      · exact .refl w
      · simp only
        cases K.bindSymbols f s.visited (K.start ls) with
        | error er => exact .refl w
        | ok ld =>
          simp only
          have := bindChains_quiet (K := K) (E := E) hev r (subs s) w ld
          rcases hx : K.bindChains E ev r w (subs s) ld with ⟨w1, er | ld1⟩ <;> rw [hx] at this <;> exact this

theorem evalN_quiet : ∀ (k : Nat) (w : LWorld V) (r : Nat) (e : PExpr), Quiet w (K.evalN E k w r e).1
  | 0, w, r, e => .refl w
  | k + 1, w, r, e => by
    rw [EvEnv.evalN]
    have := evalWith_quiet (K := K) (E := E) (evalN_quiet k) w r e []
    simp only
    unfold EvEnv.orPandas
    split
    · rename_i w1 hx
      rw [hx] at this
      split <;> exact this
    · exact this

/-- evaluating the argument of an aggregation changes caches only -/
theorem argEval_quiet (w : LWorld V) (r : Nat) (e : PExpr) : Quiet w (K.argEval E w r e).1 := evalN_quiet _ w r e

theorem evaluate_quiet (w : LWorld V) (r : Nat) (e : PExpr) (ls : List (Str × LocalVal F)) : Quiet w (K.evaluate E w r e ls).1 :=
  evalWith_quiet (K := K) (E := E) argEval_quiet w r e ls

theorem computeLinks_quiet (refresh : Bool) (r : Nat) : ∀ (ns : List Str) (w : LWorld V), Quiet w (E.computeLinks refresh r w ns).1
  | [], w => .refl w
  | n :: ns, w => by
    rw [LEnv.computeLinks]
    cases hl : w.link? r n with
    | none => exact .refl w
    | some l =>
      simp only
      split
      · cases hp : E.precompute w l with
        | error e => exact .refl w
        | ok l1 =>
          have := precompute_copy hp
          exact (Quiet.setLink hl this.1 this.2).trans (computeLinks_quiet refresh r ns _)
      · exact computeLinks_quiet refresh r ns w

theorem computeIndexers_quiet (w : LWorld V) (r : Nat) (refresh : Bool) : Quiet w (E.computeIndexers w r refresh).1 := by
  unfold LEnv.computeIndexers
  cases w.frames[r]? with
  | none => exact .refl w
  | some f =>
    simp only
    split
    · exact .refl w
    · exact computeLinks_quiet refresh r _ w

end Cheval
