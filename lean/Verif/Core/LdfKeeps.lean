import Verif.Core.LdfCalls

/-!
# Lookups change nothing but caches
-/
namespace Cheval
variable {V : Type} [DecidableEq V] {E : LEnv V}

theorem link?_setLink_of_ne {w : LWorld V} {r q : Nat} {n m : Str} {l : Link} (h : ¬ (q = r ∧ m = n)) :
    (w.setLink r n l).link? q m = w.link? q m := by
  unfold LWorld.link? LWorld.setLink LWorld.setFrame
  simp only [List.getElem?_modify]
  cases hf : w.frames[q]? with
  | none => simp
  | some f =>
    by_cases hr : r = q
    · subst hr
      have hm : m ≠ n := fun hm => h ⟨rfl, hm⟩
      simp [dictGet_dictSet, hm]
    · simp [hr]

theorem Grows.refl (w : LWorld V) : Grows w w := fun _ _ l hl hs => ⟨l, hl, hs⟩

theorem Grows.trans {a b c : LWorld V} (h : Grows a b) (h' : Grows b c) : Grows a c := fun q n l hl hs => by
  obtain ⟨l', hl', hs'⟩ := h q n l hl hs
  exact h' q n l' hl' hs'

theorem setLink_grows {w : LWorld V} {r : Nat} {n : Str} {l l' : Link} (hl : w.link? r n = some l) (hs : l'.flat.isSome = true) :
    Grows w (w.setLink r n l') := by
  intro q m l0 hl0 hs0
  by_cases h : q = r ∧ m = n
  · obtain ⟨rfl, rfl⟩ := h
    exact ⟨l', link?_setLink hl, hs⟩
  · exact ⟨l0, by rw [link?_setLink_of_ne h]; exact hl0, hs0⟩

/-- only caches changed, the invariant still holds, and no cache was lost -/
def Keeps (E : LEnv V) (w w' : LWorld V) : Prop := CacheOnly w w' ∧ LGood E w' ∧ Grows w w'

theorem Keeps.refl {w : LWorld V} (h : LGood E w) : Keeps E w w := ⟨CacheOnly.refl w, h, Grows.refl w⟩

theorem Keeps.trans {a b c : LWorld V} (h : Keeps E a b) (h' : Keeps E b c) : Keeps E a c :=
  ⟨h.1.trans h'.1, h'.2.1, h.2.2.trans h'.2.2⟩

theorem indexerMissing_grows (w : LWorld V) (r : Nat) (n : Str) : Grows w (E.indexerMissing w r n).1 := by
  unfold LEnv.indexerMissing
  cases hl : w.link? r n with
  | none => exact Grows.refl w
  | some l =>
    simp only
    cases hp : (if l.flat.isSome = true then Except.ok l else E.precompute w l) with
    | error e => exact Grows.refl w
    | ok l1 =>
      simp only
      cases hfl : l1.flat with
      | none => exact Grows.refl w
      | some fl => exact setLink_grows hl (by simp)

theorem indexerMissing_keeps {w : LWorld V} (h : LGood E w) (r : Nat) (n : Str) : Keeps E w (E.indexerMissing w r n).1 := by
  cases hl : w.link? r n with
  | none =>
    have : E.indexerMissing w r n = (w, .error .key) := by unfold LEnv.indexerMissing; rw [hl]
    rw [this]; exact Keeps.refl h
  | some l =>
    obtain ⟨f, g, ks, ko, hf, -, hk⟩ := h.linkOk hl
    obtain ⟨w', h1, h2, h3⟩ := indexerMissing_good h hl hf hk
    have := indexerMissing_grows (E := E) w r n
    rw [h1] at this ⊢
    exact ⟨h2, h3, this⟩

theorem resolve_keeps (kind : DKind) (fill : V) : ∀ (hist : List (Nat × Str)) {w : LWorld V} (_ : LGood E w) (a : List V),
    Keeps E w (E.resolve kind fill w hist a).1
  | [], w, h, a => Keeps.refl h
  | p :: hist, w, h, a => by
    rw [LEnv.resolve]
    have hk := indexerMissing_keeps h p.1 p.2
    rcases hi : E.indexerMissing w p.1 p.2 with ⟨w1, e | ⟨fl, m⟩⟩
    · rw [hi] at hk; exact hk
    · rw [hi] at hk
      simp only at hk ⊢
      cases takeInts a fl with
      | error e => exact hk
      | ok b =>
        cases E.store kind fill with
        | error e => exact hk
        | ok v =>
          simp only
          cases putAll b m v with
          | error e => exact hk
          | ok c => exact hk.trans (resolve_keeps kind fill hist hk.2.1 c)

theorem asSeries_fst {A B : Type} (n : Nat) (kind : DKind) (x : A × Except Err (List B)) : (asSeries n kind x).1 = x.1 := by
  rcases x with ⟨a, e | b⟩ <;> rfl

theorem lookup_keeps {w : LWorld V} (h : LGood E w) (r : Nat) (path : List Str) (col : Str) : Keeps E w (E.lookup w r path col).1 := by
  unfold LEnv.lookup
  cases w.walk r path [] with
  | error e => exact Keeps.refl h
  | ok p =>
    simp only
    cases w.frames[p.1.other]? with
    | none => exact Keeps.refl h
    | some g =>
      simp only
      cases p.1.node with
      | aggr => exact Keeps.refl h
      | leaf =>
        simp only
        cases dictGet g.cols col with
        | none => exact Keeps.refl h
        | some c => simp only [asSeries_fst]; exact resolve_keeps _ _ _ h _
      | node =>
        simp only
        split
        · exact Keeps.refl h
        · cases dictGet g.cols col with
          | none => exact Keeps.refl h
          | some c => simp only [asSeries_fst]; exact resolve_keeps _ _ _ h _

/-- an evaluator of aggregation arguments that behaves: it fills caches only and returns one value per row -/
def EvKeeps (E : LEnv V) (ev : LWorld V → Nat → PExpr → LWorld V × Except Err (LCol V)) : Prop :=
  ∀ w r e, LGood E w → Keeps E w (ev w r e).1 ∧ ∀ c, (ev w r e).2 = .ok c → c.vals.length = w.rows r

theorem orColumn_keeps {ev : LWorld V → Nat → PExpr → LWorld V × Except Err (LCol V)} (hev : EvKeeps E ev) : EvKeeps E (orColumn ev) := by
  intro w r e h
  unfold orColumn
  split
  · rename_i g n hg
    cases hc : dictGet g.cols n with
    | none => exact hev w r _ h
    | some c =>
      simp only
      split
      · exact ⟨Keeps.refl h, fun c hc => by simp at hc⟩
      · refine ⟨Keeps.refl h, fun c' hc' => ?_⟩
        simp only [Except.ok.injEq] at hc'
        subst hc'
        have hr : w.rows r = g.rows := by simp [LWorld.rows, hg]
        rw [hr]
        exact (h.wf g (List.mem_of_getElem? hg)).cols _ (dictGet_mem hc)
  · exact hev w r _ h

theorem called_keeps {ev : LWorld V → Nat → PExpr → LWorld V × Except Err (LCol V)} (hev : EvKeeps E ev) (py : Bool) : EvKeeps E (called ev py) := by
  cases py
  · exact hev
  · exact orColumn_keeps hev

theorem aggregate_keeps {ev : LWorld V → Nat → PExpr → LWorld V × Except Err (LCol V)} (hev : EvKeeps E ev) {w : LWorld V} (h : LGood E w)
    (r : Nat) (path : List Str) (func : Str) (arg : PExpr) (intFill : V) : Keeps E w (E.aggregate ev w r path func arg intFill).1 := by
  unfold LEnv.aggregate
  cases w.walk r path [] with
  | error e => exact Keeps.refl h
  | ok p =>
    simp only
    cases hg : w.frames[p.1.other]? with
    | none => exact Keeps.refl h
    | some g =>
      simp only
      cases p.1.node with
      | leaf => exact Keeps.refl h
      | node => exact Keeps.refl h
      | aggr =>
        simp only
        split
        · exact Keeps.refl h
        · have hk := (hev w p.1.other arg h).1
          rcases he : ev w p.1.other arg with ⟨w1, e | c⟩
          · rw [he] at hk; exact hk
          · rw [he] at hk
            simp only at hk ⊢
            split
            · exact hk
            · split
              · exact hk
              · cases p.2 with
                | nil => exact hk
                | cons q hs =>
                  simp only
                  cases (w1.link? q.1 q.2).bind (·.grouper) with
                  | none => exact hk
                  | some codes =>
                    simp only
                    split
                    · exact hk
                    · rw [asSeries_fst]; exact hk.trans (resolve_keeps _ _ _ hk.2.1 _)

/-! ## compute_indexers -/

theorem computeLinks_keeps (refresh : Bool) (r : Nat) : ∀ (ns : List Str) {w : LWorld V} (_ : LGood E w)
    (_ : refresh = true → ∀ n l, w.link? r n = some l → l.owner = r),
    Keeps E w (E.computeLinks refresh r w ns).1
  | [], w, h, _ => Keeps.refl h
  | n :: ns, w, h, ho => by
    rw [LEnv.computeLinks]
    cases hl : w.link? r n with
    | none => exact Keeps.refl h
    | some l =>
      simp only
      by_cases hc : (refresh || l.flat.isNone) = true
      · rw [if_pos hc]
        obtain ⟨f, g, ks, ko, hf, -, hk⟩ := h.linkOk hl
        have hown : w.keys l.owner l.selfSpec = .ok ks := by
          cases hfl : l.flat with
          | none => exact hk.lazy hfl
          | some fl =>
            have hr : refresh = true := by simpa [hfl] using hc
            rw [ho hr n l hl]
            unfold LWorld.keys
            rw [hf]; exact hk.self
        have hmis : l.missing = none ∨ l.missing = some (missingOf (getIndexer (E.base l ko) ks)) := by
          cases hmi : l.missing with
          | none => exact Or.inl rfl
          | some m =>
            obtain ⟨fl, h1, h2⟩ := hk.missing m hmi
            right; rw [h2, hk.flat fl h1]
        rw [precompute_good hk hown]
        simp only
        have hok := linkOk_computed hk (m := l.missing) hmis
        have hset := h.setLink hl hf (l' := { l with flat := some (getIndexer (E.base l ko) ks), grouper := if l.agg then some (E.codes ko) else l.grouper }) rfl hok
        have hkp : Keeps E w (w.setLink r n { l with flat := some (getIndexer (E.base l ko) ks), grouper := if l.agg then some (E.codes ko) else l.grouper }) :=
          ⟨hset.1, hset.2, setLink_grows hl (by simp)⟩
        have hlinks : ∀ m l2, (w.setLink r n { l with flat := some (getIndexer (E.base l ko) ks), grouper := if l.agg then some (E.codes ko) else l.grouper }).link? r m = some l2 →
            ∃ l3, w.link? r m = some l3 ∧ l2.owner = l3.owner := by
          intro m l2 hl2
          by_cases hmn : m = n
          · subst hmn
            rw [link?_setLink hl] at hl2
            obtain rfl := Option.some.inj hl2
            exact ⟨l, hl, rfl⟩
          · rw [link?_setLink_of_ne (fun hh => hmn hh.2)] at hl2
            exact ⟨l2, hl2, rfl⟩
        refine hkp.trans (computeLinks_keeps refresh r ns hset.2 ?_)
        intro hr m l2 hl2
        obtain ⟨l3, h3, h4⟩ := hlinks m l2 hl2
        rw [h4]; exact ho hr m l3 h3
      · rw [if_neg hc]
        exact computeLinks_keeps refresh r ns h ho

end Cheval
