import Verif.Core.LdfAttr
import Verif.Props.LdfInfo

/-!
# C78: links as attributes

A link whose alias is an identifier can be used as an attribute: dotted access is the same as access by `[]`, and `dir` lists these aliases.
The statements about histories compare with the book of `Spec/LinkBook`.
-/
namespace Cheval
open Spec
variable {V F : Type} [DecidableEq V] {E : LEnv V} {own : OwnNames}

theorem followObj_append (step : LWorld V → LObj V → Str → LWorld V × Except Err (LObj V)) : ∀ (ns ms : List Str) (w : LWorld V) (o : LObj V),
    followObj step w o (ns ++ ms) = match followObj step w o ns with
      | (w1, .error e) => (w1, .error e)
      | (w1, .ok o1) => followObj step w1 o1 ms
  | [], ms, w, o => rfl
  | n :: ns, ms, w, o => by
    rw [List.cons_append, followObj, followObj]
    rcases step w o n with ⟨w1, e | o1⟩
    · rfl
    · exact followObj_append step ns ms w1 o1

theorem followObj_one (step : LWorld V → LObj V → Str → LWorld V × Except Err (LObj V)) (w : LWorld V) (o : LObj V) (n : Str) :
    followObj step w o [n] = step w o n := by
  rw [followObj]
  rcases step w o n with ⟨w1, e | o1⟩ <;> rfl

theorem asObject_node {A : Type} (x : A × Except Err (LCol V)) (w' : A) (root : Nat) (l : Link) (h : List (Nat × Str)) :
    asObject x ≠ (w', .ok (.node root l h)) := by
  rcases x with ⟨w, e | c⟩ <;> intro h <;> cases h

theorem asObject_series {A : Type} (x : A × Except Err (LCol V)) (w' : A) (c : LCol V) : asObject x = (w', .ok (.series c)) ↔ x = (w', .ok c) := by
  rcases x with ⟨w, e | c'⟩ <;> simp [asObject]

theorem follow_series (w : LWorld V) (c : LCol V) (n : Str) (ns : List Str) : followObj E.item w (.series c) (n :: ns) = (w, .error .key) := rfl

theorem follow_asObject (w' : LWorld V) (root : Nat) (l : Link) (h : List (Nat × Str)) (x : LWorld V × Except Err (LCol V)) (ns : List Str) :
    (match asObject x with
      | (w1, .error e) => (w1, .error e)
      | (w1, .ok o1) => followObj E.item w1 o1 ns) ≠ (w', .ok (.node root l h)) := by
  rcases x with ⟨w, e | c⟩
  · intro h; cases h
  · cases ns with
    | nil => intro h; cases h
    | cons n ns => intro h; cases h

/-- items from a node reach a node exactly along links -/
theorem followObj_node (w : LWorld V) : ∀ (ns : List Str) (root : Nat) (l : Link) (h : List (Nat × Str)) (w' : LWorld V) (root' : Nat) (l' : Link) (h' : List (Nat × Str)),
    followObj E.item w (.node root l h) ns = (w', .ok (.node root' l' h')) ↔
      w' = w ∧ root' = root ∧ ((ns = [] ∧ l' = l ∧ h' = h) ∨ (ns ≠ [] ∧ l.node = .node ∧ w.walk l.other ns h = .ok (l', h')))
  | [], root, l, h, w', root', l', h' => by
    simp only [followObj, Prod.mk.injEq, Except.ok.injEq, LObj.node.injEq, true_and, ne_eq, not_true_eq_false, false_and, or_false]
    constructor
    · rintro ⟨rfl, rfl, rfl, rfl⟩; exact ⟨rfl, rfl, rfl, rfl⟩
    · rintro ⟨rfl, rfl, rfl, rfl⟩; exact ⟨rfl, rfl, rfl, rfl⟩
  | n :: ns, root, l, h, w', root', l', h' => by
    rw [followObj]
    cases hn : l.node with
    | aggr => simp [LEnv.item, hn]
    | leaf =>
      have hr : ¬ (w' = w ∧ root' = root ∧ ((n :: ns = [] ∧ l' = l ∧ h' = h) ∨ (n :: ns ≠ [] ∧ NodeKind.leaf = .node ∧ w.walk l.other (n :: ns) h = .ok (l', h')))) := by
        simp
      refine iff_of_false ?_ hr
      simp only [LEnv.item, hn]
      cases (w.frames[l.other]?).bind fun g => dictGet g.cols n with
      | none => simp
      | some c => exact follow_asObject (E := E) w' root' l' h' _ ns
    | node =>
      simp only [LEnv.item, hn]
      cases hg : w.frames[l.other]? with
      | none => simp [LWorld.walk, LWorld.link?, hg]
      | some g =>
        simp only
        cases hl : dictGet g.links n with
        | none =>
          have hr : ¬ (w' = w ∧ root' = root ∧ ((n :: ns = [] ∧ l' = l ∧ h' = h) ∨ (n :: ns ≠ [] ∧ True ∧ w.walk l.other (n :: ns) h = .ok (l', h')))) := by
            simp [LWorld.walk, LWorld.link?, hg, hl]
          refine iff_of_false ?_ (by simpa using hr)
          simp only
          cases dictGet g.cols n with
          | none => simp
          | some c => simp only; exact follow_asObject (E := E) w' root' l' h' _ ns
        | some l1 =>
          simp only
          rw [followObj_node w ns]
          have hlink : w.link? l.other n = some l1 := by simp [LWorld.link?, hg, hl]
          cases ns with
          | nil =>
            simp only [LWorld.walk, hlink, Except.ok.injEq, Prod.mk.injEq]
            constructor
            · rintro ⟨h1, h2, ⟨-, h3, h4⟩ | ⟨h3, -⟩⟩
              · exact ⟨h1, h2, .inr ⟨by simp, trivial, h3.symm, h4.symm⟩⟩
              · exact absurd rfl h3
            · rintro ⟨h1, h2, ⟨h3, -⟩ | ⟨-, -, h3, h4⟩⟩
              · cases h3
              · exact ⟨h1, h2, .inl ⟨trivial, h3.symm, h4.symm⟩⟩
          | cons m ms =>
            have hw : w.walk l.other (n :: m :: ms) h = match l1.node with
              | .node => w.walk l1.other (m :: ms) ((l.other, n) :: h)
              | .leaf => .error .key
              | .aggr => .error .type := by rw [LWorld.walk]; simp only [hlink]; cases l1.node <;> rfl
            rw [hw]
            cases l1.node <;> simp

/-- items from a frame reach a node exactly along links -/
theorem items_node (w : LWorld V) (r : Nat) {ns : List Str} (hne : ns ≠ []) (w' : LWorld V) (root : Nat) (l : Link) (h : List (Nat × Str)) :
    E.items w r ns = (w', .ok (.node root l h)) ↔ w' = w ∧ root = r ∧ w.walk r ns [] = .ok (l, h) := by
  cases ns with
  | nil => exact absurd rfl hne
  | cons n ns =>
    unfold LEnv.items
    rw [followObj]
    cases hf : w.frames[r]? with
    | none => simp [LEnv.item, LWorld.walk, LWorld.link?, hf]
    | some f =>
      simp only [LEnv.item, hf]
      cases hl : dictGet f.links n with
      | none =>
        simp only
        refine iff_of_false ?_ (by simp [LWorld.walk, LWorld.link?, hf, hl])
        cases dictGet f.cols n with
        | none => simp
        | some c => cases ns <;> simp [followObj, LEnv.item]
      | some l1 =>
        simp only
        rw [followObj_node]
        have hlink : w.link? r n = some l1 := by simp [LWorld.link?, hf, hl]
        cases ns with
        | nil =>
          simp only [LWorld.walk, hlink, Except.ok.injEq, Prod.mk.injEq]
          constructor
          · rintro ⟨h1, h2, ⟨-, h3, h4⟩ | ⟨h3, -⟩⟩
            · exact ⟨h1, h2, h3.symm, h4.symm⟩
            · exact absurd rfl h3
          · rintro ⟨h1, h2, h3, h4⟩
            exact ⟨h1, h2, .inl ⟨trivial, h3.symm, h4.symm⟩⟩
        | cons m ms =>
          have hw : w.walk r (n :: m :: ms) [] = match l1.node with
            | .node => w.walk l1.other (m :: ms) [(r, n)]
            | .leaf => .error .key
            | .aggr => .error .type := by rw [LWorld.walk]; simp only [hlink]; cases l1.node <;> rfl
          rw [hw]
          cases l1.node <;> simp

/-- items never give the frame back, an aggregator or an attribute -/
theorem item_kind (w : LWorld V) (o : LObj V) (n : Str) : (∃ w' e, E.item w o n = (w', .error e)) ∨ (∃ w' root l h, E.item w o n = (w', .ok (.node root l h))) ∨
    ∃ w' c, E.item w o n = (w', .ok (.series c)) := by
  have hs : ∀ x : LWorld V × Except Err (LCol V), (∃ w' e, asObject x = (w', .error e)) ∨ (∃ w' root l h, asObject x = (w', .ok (.node root l h))) ∨
      ∃ w' c, asObject x = (w', .ok (.series c)) := by
    rintro ⟨w', e | c⟩
    · exact .inl ⟨w', e, rfl⟩
    · exact .inr (.inr ⟨w', c, rfl⟩)
  cases o with
  | frame r =>
    simp only [LEnv.item]
    split
    · exact .inl ⟨_, _, rfl⟩
    · split
      · exact .inr (.inl ⟨_, _, _, _, rfl⟩)
      · split
        · exact .inr (.inr ⟨_, _, rfl⟩)
        · exact .inl ⟨_, _, rfl⟩
  | node root l h =>
    simp only [LEnv.item]
    split
    · exact .inl ⟨_, _, rfl⟩
    · split
      · exact .inl ⟨_, _, rfl⟩
      · exact hs _
    · split
      · exact .inl ⟨_, _, rfl⟩
      · split
        · exact .inr (.inl ⟨_, _, _, _, rfl⟩)
        · split
          · exact .inl ⟨_, _, rfl⟩
          · exact hs _
  | series c => exact .inl ⟨_, _, rfl⟩
  | aggregator root l h func => exact .inl ⟨_, _, rfl⟩
  | own n => exact .inl ⟨_, _, rfl⟩

theorem followObj_kind : ∀ (ns : List Str) (_ : ns ≠ []) (w : LWorld V) (o : LObj V) (w' : LWorld V) (o' : LObj V), followObj E.item w o ns = (w', .ok o') →
    (∃ root l h, o' = .node root l h) ∨ ∃ c, o' = .series c
  | [], hne, _, _, _, _, _ => absurd rfl hne
  | n :: ns, _, w, o, w', o', h => by
    rw [followObj] at h
    rcases item_kind (E := E) w o n with ⟨w1, e, h1⟩ | ⟨w1, root, l, hh, h1⟩ | ⟨w1, c, h1⟩
    · rw [h1] at h; cases h
    · rw [h1] at h
      cases ns with
      | nil => cases h; exact .inl ⟨_, _, _, rfl⟩
      | cons m ms => exact followObj_kind (m :: ms) (by simp) _ _ _ _ h
    · rw [h1] at h
      cases ns with
      | nil => cases h; exact .inr ⟨_, rfl⟩
      | cons m ms => exact followObj_kind (m :: ms) (by simp) _ _ _ _ h

/-- **C78 (items)** Access by `[]`, one step at a time, returns a Series exactly when the lookup along the whole chain does, and the same one. -/
theorem C78_items (w : LWorld V) (r : Nat) {path : List Str} (hp : path ≠ []) (col : Str) (w' : LWorld V) (c : LCol V) :
    E.items w r (path ++ [col]) = (w', .ok (.series c)) ↔ E.lookup w r path col = (w', .ok c) := by
  have hstep : E.items w r (path ++ [col]) = match E.items w r path with
      | (w1, .error e) => (w1, .error e)
      | (w1, .ok o1) => E.item w1 o1 col := by
    unfold LEnv.items
    rw [followObj_append]
    rcases followObj E.item w (.frame r) path with ⟨w1, e | o1⟩
    · rfl
    · exact followObj_one ..
  cases hw : w.walk r path [] with
  | ok p =>
    obtain ⟨l, h⟩ := p
    have h1 := (items_node (E := E) w r hp w r l h).mpr ⟨rfl, rfl, hw⟩
    rw [hstep, h1]
    simp only [LEnv.item, LEnv.lookup, hw]
    cases hn : l.node with
    | aggr => cases w.frames[l.other]? <;> simp
    | leaf =>
      simp only
      cases hg : w.frames[l.other]? with
      | none => simp
      | some g =>
        simp only [Option.bind_some]
        cases dictGet g.cols col with
        | none => simp
        | some cc => exact asObject_series ..
    | node =>
      simp only
      cases hg : w.frames[l.other]? with
      | none => simp
      | some g =>
        simp only
        cases hl : dictGet g.links col with
        | some l1 =>
          have hm : col ∈ g.links.map (·.1) := by
            by_contra hc
            rw [dictGet_eq_none.mpr hc] at hl
            cases hl
          simp [hm]
        | none =>
          have hm : col ∉ g.links.map (·.1) := dictGet_eq_none.mp hl
          simp only [if_neg hm]
          cases dictGet g.cols col with
          | none => simp
          | some cc => exact asObject_series ..
  | error e =>
    have hr : ¬ E.lookup w r path col = (w', .ok c) := by simp [LEnv.lookup, hw]
    refine iff_of_false ?_ hr
    rw [hstep]
    rcases hi : E.items w r path with ⟨w1, e1 | o1⟩
    · simp
    · simp only
      rcases followObj_kind path hp _ _ _ _ hi with ⟨root, l, h, rfl⟩ | ⟨c1, rfl⟩
      · have := (items_node (E := E) w r hp w1 root l h).mp hi
        rw [hw] at this
        cases this.2.2
      · simp [LEnv.item]

/-- no name of the chain is found by normal attribute lookup -/
def NoneOwn (own : OwnNames) (ns : List Str) : Prop := ∀ n ∈ ns, ∀ k, own k n = false

theorem keyAsAttribute_ok {A B : Type} (x : A × Except Err B) (w' : A) (b : B) : keyAsAttribute x = (w', .ok b) ↔ x = (w', .ok b) := by
  unfold keyAsAttribute
  split
  · simp
  · rfl

theorem keyAsAttribute_not_key {A B : Type} (x : A × Except Err B) : (keyAsAttribute x).2 ≠ .error .key := by
  unfold keyAsAttribute
  split
  · simp
  · rename_i h
    intro hx
    rcases x with ⟨w, y⟩
    simp only at hx
    subst hx
    exact h w rfl

theorem attribute_or_item {n : Str} (hn : ∀ k, own k n = false) (w : LWorld V) (o : LObj V) (w' : LWorld V) (o' : LObj V) :
    E.attribute own w o n = (w', .ok o') ↔ E.item w o n = (w', .ok o') ∨
      ∃ root l h, o = .node root l h ∧ l.node = .aggr ∧ n ∈ numericAggs ++ otherAggs ∧ w' = w ∧ o' = .aggregator root l h n := by
  cases o with
  | frame r =>
    simp only [LEnv.attribute, hn, Bool.false_eq_true, if_false]
    rw [keyAsAttribute_ok]
    simp
  | node root l h =>
    cases hl : l.node with
    | aggr =>
      simp only [LEnv.attribute, LEnv.item, hl, hn, Bool.false_eq_true, if_false]
      by_cases hm : n ∈ numericAggs ++ otherAggs
      · rw [if_pos hm]
        simp only [Prod.mk.injEq, Except.ok.injEq, reduceCtorEq, and_false, false_or, LObj.node.injEq]
        constructor
        · rintro ⟨rfl, rfl⟩; exact ⟨root, l, h, ⟨rfl, rfl, rfl⟩, hl, hm, rfl, rfl⟩
        · rintro ⟨root', l', h', ⟨rfl, rfl, rfl⟩, -, -, rfl, rfl⟩; exact ⟨rfl, rfl⟩
      · rw [if_neg hm]
        simp [hm]
    | leaf =>
      simp only [LEnv.attribute, hl, hn, Bool.false_eq_true, if_false]
      rw [keyAsAttribute_ok]
      constructor
      · exact .inl
      · rintro (hx | ⟨root', l', h', h1, h2, -⟩)
        · exact hx
        · cases h1; rw [hl] at h2; cases h2
    | node =>
      simp only [LEnv.attribute, hl, hn, Bool.false_eq_true, if_false]
      rw [keyAsAttribute_ok]
      constructor
      · exact .inl
      · rintro (hx | ⟨root', l', h', h1, h2, -⟩)
        · exact hx
        · cases h1; rw [hl] at h2; cases h2
  | series c => simp [LEnv.attribute, LEnv.item, hn]
  | aggregator root l h func => simp [LEnv.attribute, LEnv.item]
  | own m => simp [LEnv.attribute, LEnv.item]

/-- what attributes give that is no aggregator, items give -/
theorem follow_attribute : ∀ (ns : List Str) (_ : NoneOwn own ns) (w : LWorld V) (o : LObj V) (w' : LWorld V) (o' : LObj V),
    (∀ root l h f, o' ≠ .aggregator root l h f) → (followObj (E.attribute own) w o ns = (w', .ok o') ↔ followObj E.item w o ns = (w', .ok o'))
  | [], _, w, o, w', o', _ => by simp [followObj]
  | n :: ns, hn, w, o, w', o', ho => by
    have h0 := attribute_or_item (E := E) (own := own) (hn n List.mem_cons_self) w o
    have hns : NoneOwn own ns := fun m hm => hn m (List.mem_cons_of_mem _ hm)
    have hagg : ∀ w1 root l h f, followObj (E.attribute own) w1 (.aggregator root l h f) ns ≠ (w', .ok o') := by
      intro w1 root l h f hx
      cases ns with
      | nil => cases hx; exact ho _ _ _ _ rfl
      | cons m ms => cases hx
    rw [followObj, followObj]
    constructor
    · intro h
      rcases hx : E.attribute own w o n with ⟨w1, e | o1⟩
      · rw [hx] at h; cases h
      · rw [hx] at h
        simp only at h
        rcases (h0 w1 o1).mp hx with h1 | ⟨root, l, hh, -, -, -, -, rfl⟩
        · rw [h1]
          exact (follow_attribute ns hns w1 o1 w' o' ho).mp h
        · exact absurd h (hagg _ _ _ _ _)
    · intro h
      rcases hx : E.item w o n with ⟨w1, e | o1⟩
      · rw [hx] at h; cases h
      · rw [hx] at h
        simp only at h
        rw [(h0 w1 o1).mpr (.inl hx)]
        exact (follow_attribute ns hns w1 o1 w' o' ho).mpr h

/-- **C78 (attributes)** If no name of the chain is an attribute of the classes, `frame.l1.l2.column` returns a Series exactly when
`frame[l1][l2][column]` does, and the same one, namely that of the lookup. -/
theorem C78_attributes (w : LWorld V) (r : Nat) {path : List Str} (hp : path ≠ []) {col : Str} (hn : NoneOwn own (path ++ [col])) (w' : LWorld V) (c : LCol V) :
    (E.attributes own w r (path ++ [col]) = (w', .ok (.series c)) ↔ E.items w r (path ++ [col]) = (w', .ok (.series c))) ∧
    (E.attributes own w r (path ++ [col]) = (w', .ok (.series c)) ↔ E.lookup w r path col = (w', .ok c)) := by
  have h1 := follow_attribute (E := E) (own := own) (path ++ [col]) hn w (.frame r) w' (.series c) (by simp)
  exact ⟨h1, h1.trans (C78_items w r hp col w' c)⟩

/-- **C78 (missing)** Attribute access never raises KeyError: a name that is not there is an AttributeError, so that `hasattr` and the
fallback of aggregations to `DataFrame.eval` work. -/
theorem C78_missing (w : LWorld V) (r : Nat) (ns : List Str) : (E.attributes own w r ns).2 ≠ .error .key := by
  have hone : ∀ w (o : LObj V) n, (E.attribute own w o n).2 ≠ .error .key := by
    intro w o n
    cases o with
    | frame r =>
      simp only [LEnv.attribute]
      split
      · simp
      · exact keyAsAttribute_not_key _
    | node root l h =>
      simp only [LEnv.attribute]
      split
      · split
        · simp
        · split <;> simp
      · split
        · simp
        · exact keyAsAttribute_not_key _
    | series c => simp only [LEnv.attribute]; split <;> simp
    | aggregator root l h func => simp [LEnv.attribute]
    | own m => simp [LEnv.attribute]
  have : ∀ (ns : List Str) (w : LWorld V) (o : LObj V), (followObj (E.attribute own) w o ns).2 ≠ .error .key := by
    intro ns
    induction ns with
    | nil => intro w o; simp [followObj]
    | cons n ns ih =>
      intro w o
      rw [followObj]
      have := hone w o n
      rcases hx : E.attribute own w o n with ⟨w1, e | o1⟩
      · rw [hx] at this; exact this
      · exact ih w1 o1
  exact this ns w _

/-- **C78 (aggregations)** `frame.l1.l2.func(arg)`: if no name of the chain is an attribute of the classes, the aggregation along the chain
succeeds exactly when the attributes give something that can be called with the argument, and with the same result. -/
theorem C78_aggregations (ev : LWorld V → Nat → PExpr → LWorld V × Except Err (LCol V)) (w : LWorld V) (r : Nat) {path : List Str} (hp : path ≠ []) {func : Str}
    (hn : NoneOwn own (path ++ [func])) (arg : PExpr) (intFill : V) (w' : LWorld V) (c : LCol V) :
    E.aggregate ev w r path func arg intFill = (w', .ok c) ↔
      ∃ a, E.attributes own w r (path ++ [func]) = (w, .ok a) ∧ E.callAggregator ev w arg intFill a = (w', .ok c) := by
  have hn1 : NoneOwn own path := fun m hm => hn m (List.mem_append_left _ hm)
  have hn2 : ∀ k, own k func = false := hn func (by simp)
  have hstep : E.attributes own w r (path ++ [func]) = match E.attributes own w r path with
      | (w1, .error e) => (w1, .error e)
      | (w1, .ok o1) => E.attribute own w1 o1 func := by
    unfold LEnv.attributes
    rw [followObj_append]
    rcases followObj (E.attribute own) w (.frame r) path with ⟨w1, e | o1⟩
    · rfl
    · exact followObj_one ..
  have hcall : ∀ (l : Link) (h : List (Nat × Str)), w.walk r path [] = .ok (l, h) → (∃ g, w.frames[l.other]? = some g) → l.node = .aggr → func ∈ numericAggs ++ otherAggs →
      E.aggregate ev w r path func arg intFill = E.callAggregator ev w arg intFill (.aggregator r l h func) := by
    rintro l h hw ⟨g, hg⟩ hl hf
    unfold LEnv.aggregate LEnv.callAggregator
    simp only [hw, hg, hl, hf, not_true_eq_false, if_false, Option.isNone_some, Bool.false_eq_true]
    rcases ev w l.other arg with ⟨w1, e | c1⟩ <;> rfl
  constructor
  · intro ha
    cases hw : w.walk r path [] with
    | error e => simp [LEnv.aggregate, hw] at ha
    | ok p =>
      obtain ⟨l, h⟩ := p
      cases hg : w.frames[l.other]? with
      | none => simp [LEnv.aggregate, hw, hg] at ha
      | some g =>
        have hl : l.node = .aggr := by
          cases hl : l.node with
          | aggr => rfl
          | leaf => simp [LEnv.aggregate, hw, hg, hl] at ha
          | node => simp [LEnv.aggregate, hw, hg, hl] at ha
        have hf : func ∈ numericAggs ++ otherAggs := by
          by_contra hc
          simp [LEnv.aggregate, hw, hg, hl, hc] at ha
        refine ⟨.aggregator r l h func, ?_, by rw [← hcall l h hw ⟨g, hg⟩ hl hf]; exact ha⟩
        have h1 := (follow_attribute (E := E) (own := own) path hn1 w (.frame r) w (.node r l h) (by simp)).mpr
          ((items_node (E := E) w r hp w r l h).mpr ⟨rfl, rfl, hw⟩)
        rw [hstep]
        unfold LEnv.attributes
        rw [h1]
        exact (attribute_or_item (E := E) hn2 w _ w _).mpr (.inr ⟨r, l, h, rfl, hl, hf, rfl, rfl⟩)
  · rintro ⟨a, ha, hc⟩
    rw [hstep] at ha
    rcases hx : E.attributes own w r path with ⟨w1, e | o1⟩
    · rw [hx] at ha; cases ha
    · rw [hx] at ha
      simp only at ha
      cases a with
      | frame q => cases hc
      | node root l h => cases hc
      | series c1 => cases hc
      | own m => cases hc
      | aggregator root l h f =>
        rcases (attribute_or_item (E := E) hn2 w1 o1 w _).mp ha with h1 | ⟨root', l', h', rfl, hl, hf, rfl, h2⟩
        · rcases item_kind (E := E) w1 o1 func with ⟨w2, e, h3⟩ | ⟨w2, a1, a2, a3, h3⟩ | ⟨w2, c2, h3⟩ <;> rw [h3] at h1 <;> cases h1
        · cases h2
          have h3 := (follow_attribute (E := E) (own := own) path hn1 w (.frame r) w (.node root l h) (by simp)).mp hx
          obtain ⟨-, rfl, hw⟩ := (items_node (E := E) w r hp w root l h).mp h3
          cases hg : w.frames[l.other]? with
          | some g => rw [hcall l h hw ⟨g, hg⟩ hl hf]; exact hc
          | none => simp [LEnv.callAggregator, hg] at hc

/-! ## listing -/

variable {isid : Str → Bool} {ev : LWorld V → Nat → PExpr → LWorld V × Except Err (LCol V)}

/-- the noted names are the links that are identifiers; `strict`: and only identifiers -/
def NamesOk (isid : Str → Bool) (strict : Bool) (f : LFrame V) : Prop :=
  (∀ n, isid n = true → (n ∈ f.identified ↔ n ∈ f.links.map (·.1))) ∧ (strict = true → ∀ n ∈ f.identified, isid n = true)

theorem NamesOk.same {strict : Bool} {f f' : LFrame V} (h : NamesOk isid strict f) (h1 : f'.identified = f.identified)
    (h2 : f'.links.map (·.1) = f.links.map (·.1)) : NamesOk isid strict f' := by
  unfold NamesOk at h ⊢
  rw [h1, h2]
  exact h

/-- all frames -/
def AllNamed (isid : Str → Bool) (strict : Bool) (w : LWorld V) : Prop := ∀ f ∈ w.frames, NamesOk isid strict f

theorem AllNamed.quiet {strict : Bool} {w w' : LWorld V} (h : AllNamed isid strict w) (ht : Tidy w) (hq : Quiet w w') : AllNamed isid strict w' := by
  intro f' hf'
  obtain ⟨q, hq'⟩ := List.getElem?_of_mem hf'
  obtain ⟨f, hf, hs⟩ := (hq ht).1.symm.frame hq'
  have hn := h f (List.mem_of_getElem? hf)
  exact hn.same (by rw [hs.1]) hs.names.symm

theorem AllNamed.push {strict : Bool} {w : LWorld V} (h : AllNamed isid strict w) {f : LFrame V} (hf : NamesOk isid strict f) :
    AllNamed isid strict (w.push f) := by
  intro f' hf'
  simp only [LWorld.push, List.mem_append, List.mem_singleton] at hf'
  rcases hf' with h1 | rfl
  · exact h f' h1
  · exact hf

theorem AllNamed.derive {strict : Bool} {w : LWorld V} (h : AllNamed isid strict w) {r : Nat} {g : LFrame V → Except Err (LFrame V)}
    (hg : ∀ f f', NamesOk isid strict f → g f = .ok f' → NamesOk isid strict f') : AllNamed isid strict (w.derive r g).1 := by
  unfold LWorld.derive
  cases hf : w.frames[r]? with
  | none => exact h
  | some f =>
    simp only
    cases hx : g f with
    | error e => exact h
    | ok f' => exact h.push (hg f f' (h f (List.mem_of_getElem? hf)) hx)

theorem AllNamed.setFrame {strict : Bool} {w : LWorld V} (h : AllNamed isid strict w) (r : Nat) {g : LFrame V → LFrame V}
    (hg : ∀ f, NamesOk isid strict f → NamesOk isid strict (g f)) : AllNamed isid strict (w.setFrame r g) := by
  intro f' hf'
  obtain ⟨q, hq⟩ := List.getElem?_of_mem hf'
  simp only [LWorld.setFrame, modify_get] at hq
  obtain ⟨f0, hf0, hq2⟩ := Option.map_eq_some_iff.mp hq
  have hn := h f0 (List.mem_of_getElem? hf0)
  split at hq2
  · subst hq2; exact hg f0 hn
  · subst hq2; exact hn

theorem AllNamed.changeFill {strict : Bool} {w : LWorld V} (h : AllNamed isid strict w) (r : Option Nat) (g : (DKind → V) → (DKind → V) × Except Err Unit) :
    AllNamed isid strict (w.changeFill r g).1 := by
  unfold LWorld.changeFill
  cases r with
  | none => exact h
  | some r =>
    simp only
    split
    · exact h
    · split
      · exact h
      · exact h.setFrame r fun f hf => hf.same rfl rfl

theorem mem_names_dictSet {d : List (Str × Link)} {k n : Str} {l : Link} : n ∈ (dictSet d k l).map (·.1) ↔ n = k ∨ n ∈ d.map (·.1) := by
  unfold dictSet
  split
  · rename_i hk
    rw [List.map_map]
    have : (d.map ((·.1) ∘ fun e : Str × Link => if e.1 = k then (k, l) else e)) = d.map (·.1) := by
      apply List.map_congr_left
      intro e _
      simp only [Function.comp]
      split
      · rename_i h; exact h.symm
      · rfl
    rw [this]
    constructor
    · exact .inr
    · rintro (rfl | h)
      · exact hk
      · exact h
  · simp only [List.map_append, List.map_cons, List.map_nil, List.mem_append, List.mem_singleton]
    exact or_comm

theorem AllNamed.step (hev : ∀ w o a, Quiet w (ev w o a).1) {strict : Bool} {w : LWorld V} (h : AllNamed isid strict w) (ht : Tidy w) (op : LOp V)
    (hop : strict = true → ∀ r ix, op ≠ .grouped r ix) : AllNamed isid strict (lstep E isid ev w op).1 := by
  cases op with
  | new linked levels index cols =>
    refine h.push ⟨fun n _ => ?_, fun _ n hn => ?_⟩
    · simp [LEnv.newFrame]
    · simp [LEnv.newFrame] at hn
  | linkTo r o name args =>
    simp only [lstep]
    unfold LEnv.linkTo
    split
    · exact h
    · split
      · split
        · exact h
        · split
          · exact h
          · refine h.setFrame r fun f hf => ⟨fun n hn => ?_, fun hs n hn => ?_⟩
            · rw [mem_names_dictSet, ← hf.1 n hn]
              by_cases hi : (isid name && decide (name ∉ f.identified)) = true
              · rw [if_pos hi]
                simp only [List.mem_append, List.mem_singleton]
                exact or_comm
              · rw [if_neg hi]
                constructor
                · exact .inr
                · rintro (rfl | h1)
                  · by_contra hc
                    exact hi (by simp [hn, hc])
                  · exact h1
            · simp only at hn
              split at hn
              · rename_i hi
                simp only [List.mem_append, List.mem_singleton] at hn
                rcases hn with h1 | rfl
                · exact hf.2 hs n h1
                · simp only [Bool.and_eq_true] at hi
                  exact hi.1
              · exact hf.2 hs n hn
      · exact h
  | lookup r path col => exact h.quiet ht (lookup_quiet w r path col)
  | aggregate py r path func arg intFill => exact h.quiet ht (aggregate_quiet (orColumn_or hev py) w r path func arg intFill)
  | select r ix pk pc =>
    refine h.derive fun f f' hf hx => ?_
    unfold LEnv.select at hx
    cases hc : copyLinks (some ix) f.links with
    | error e => rw [hc] at hx; cases hx
    | ok ls => rw [hc] at hx; cases hx; exact hf.same rfl (copyLinks_names hc)
  | finalized r levels index cols =>
    refine h.derive fun f f' hf hx => ?_
    cases hx
    exact hf.same rfl (by simp [LEnv.finalized, List.map_map, Function.comp_def])
  | grouped r ix =>
    refine h.derive fun f f' hf hx => ?_
    unfold LEnv.grouped at hx
    simp only at hx
    split at hx
    · split at hx
      · cases hx
      · rename_i ls hc
        cases hx
        refine ⟨fun n _ => ?_, fun hs => absurd rfl (hop hs r ix)⟩
        simp only [copyLinks_names hc]
    · cases hx
  | copy r =>
    refine h.derive fun f f' hf hx => ?_
    unfold LEnv.copyFrame at hx
    cases hc : copyLinks none f.links with
    | error e => rw [hc] at hx; cases hx
    | ok ls => rw [hc] at hx; cases hx; exact hf.same rfl (copyLinks_names hc)
  | computeIndexers r refresh => exact h.quiet ht (computeIndexers_quiet w r refresh)
  | setColumn r col c =>
    simp only [lstep]
    unfold LWorld.setColumn
    split
    · exact h
    · split
      · exact h.setFrame r fun f hf => hf.same rfl rfl
      · exact h
  | setColumnFill r col v =>
    simp only [lstep]
    unfold LWorld.setColumnFill
    split
    · exact h
    · split
      · exact h
      · split
        · exact h.setFrame r fun f hf => hf.same rfl rfl
        · exact h
  | setFill r kvs => exact h.changeFill r fun g => setFills g kvs
  | tempFill r kvs => exact h.changeFill r fun g => tempFills g kvs
  | resetFill r => exact h.changeFill r fun _ => (E.defaultFill, .ok ())

theorem AllNamed.run (hev : ∀ w o a, Quiet w (ev w o a).1) {strict : Bool} : ∀ (ops : List (LOp V)) {w : LWorld V} {b : LinkBook},
    (strict = true → ∀ op ∈ ops, ∀ r ix, op ≠ .grouped r ix) → AllNamed isid strict w → BookOk w b → AllNamed isid strict (lrun E isid ev w ops)
  | [], w, b, _, h, _ => h
  | op :: ops, w, b, hop, h, hb => by
    have hb' := hb.step (E := E) (isid := isid) hev op
    exact AllNamed.run hev ops (fun hs o ho => hop hs o (List.mem_cons_of_mem _ ho)) (h.step hev hb.tidy op fun hs => hop hs op List.mem_cons_self) hb'

theorem AllNamed.start {strict : Bool} : AllNamed isid strict (E.start : LWorld V) := fun f hf => absurd hf List.not_mem_nil

/-- **C78 (listed)** After any history of calls, with errors caught: an identifier that is no other attribute is in `dir(frame)` exactly if
`link_to` made a link of that name on the frame, or on a frame it was derived from, before that. -/
theorem C78_listed (hev : ∀ w o a, Quiet w (ev w o a).1) (ops : List (LOp V)) (base : List Str) (r : Nat) {n : Str} (hid : isid n = true) (hb : n ∉ base) :
    n ∈ (lrun E isid ev E.start ops).dir base r ↔ ∃ e l, (bookAfter E isid ev E.start [] ops)[r]? = some (e, l) ∧ n ∈ l.map (·.1) := by
  have h := BookOk.run (E := E) (isid := isid) hev ops (BookOk.start (E := E))
  have hn := AllNamed.run (E := E) (isid := isid) (strict := false) hev ops (by simp) AllNamed.start (BookOk.start (E := E))
  rw [← h.entries, List.getElem?_map]
  unfold LWorld.dir
  cases hf : (lrun E isid ev E.start ops).frames[r]? with
  | none => simp [hb]
  | some f =>
    simp only [Option.elim_some, List.mem_append, hb, false_or, Option.map_some, Option.some.injEq, LFrame.entry, Prod.mk.injEq]
    rw [(hn f (List.mem_of_getElem? hf)).1 n hid]
    constructor
    · intro hx
      exact ⟨_, _, ⟨rfl, rfl⟩, by simpa [List.map_map, Function.comp_def] using hx⟩
    · rintro ⟨_, _, ⟨rfl, rfl⟩, hx⟩
      simpa [List.map_map, Function.comp_def] using hx

/-- **C78 (only identifiers)** As long as no group of a `groupby` is taken, `dir(frame)` lists no link alias that is not an identifier. -/
theorem C78_only_partial (hev : ∀ w o a, Quiet w (ev w o a).1) (ops : List (LOp V)) (hops : ∀ op ∈ ops, ∀ r ix, op ≠ .grouped r ix) (base : List Str) (r : Nat)
    {n : Str} (hn : n ∈ (lrun E isid ev E.start ops).dir base r) : n ∈ base ∨ isid n = true := by
  have h := AllNamed.run (E := E) (isid := isid) (strict := true) hev ops (fun _ => hops) AllNamed.start (BookOk.start (E := E))
  unfold LWorld.dir at hn
  rw [List.mem_append] at hn
  rcases hn with h1 | h1
  · exact .inl h1
  · cases hf : (lrun E isid ev E.start ops).frames[r]? with
    | none => rw [hf] at h1; exact absurd h1 List.not_mem_nil
    | some f => rw [hf] at h1; exact .inr ((h f (List.mem_of_getElem? hf)).2 rfl n h1)

/-- **C78 (groups)** The groups of a `groupby` list every alias, identifier or not. -/
theorem C78_group_refuted (w w' : LWorld V) (r q : Nat) (ix : List Nat) (h : lstep E isid ev w (.grouped r ix) = (w', .ok (.frame q))) (base : List Str) (n : Str) (l : Link)
    (hl : w.link? r n = some l) : n ∈ w'.dir base q := by
  simp only [lstep, LWorld.derive] at h
  cases hf : w.frames[r]? with
  | none => simp [hf] at h
  | some f =>
    simp only [hf] at h
    have hn : n ∈ f.links.map (·.1) := by
      by_contra hc
      simp [LWorld.link?, hf, dictGet_eq_none.mpr hc] at hl
    cases hx : E.grouped f ix with
    | error e => simp [hx] at h
    | ok f' =>
      rw [hx] at h
      cases h
      unfold LEnv.grouped at hx
      simp only at hx
      split at hx
      · split at hx
        · cases hx
        · cases hx
          simp [LWorld.dir, LWorld.push]
          exact .inr (by simpa using hn)
      · cases hx

/-- **C78 (reachable)** After any history of calls: a link alias that is no attribute of DataFrames gives, as attribute and as item of the frame, the
node of the link that was made last under that name (its target, keys and flags are those in the book). -/
theorem C78_reachable (hev : ∀ w o a, Quiet w (ev w o a).1) (ops : List (LOp V)) (r : Nat) {n : Str} (hn : own .frame n = false) {e : Bool} {l : List (Str × LinkFacts)} {x : LinkFacts}
    (hb : (bookAfter E isid ev E.start [] ops)[r]? = some (e, l)) (hx : (n, x) ∈ l) :
    let w := lrun E isid ev E.start ops
    ∃ k : Link, k.facts = x ∧ E.attributes own w r [n] = (w, .ok (.node r k [(r, n)])) ∧ E.items w r [n] = (w, .ok (.node r k [(r, n)])) := by
  intro w
  have h : BookOk w _ := BookOk.run (E := E) (isid := isid) hev ops (BookOk.start (E := E))
  rw [← h.entries, List.getElem?_map] at hb
  obtain ⟨f, hf, hfe⟩ := Option.map_eq_some_iff.mp hb
  simp only [LFrame.entry, Prod.mk.injEq] at hfe
  obtain ⟨-, rfl⟩ := hfe
  obtain ⟨e0, he0, hee⟩ := List.mem_map.mp hx
  cases hee
  have hl : dictGet f.links e0.1 = some e0.2 := (dictGet_eq_some (h.tidy f (List.mem_of_getElem? hf))).mpr he0
  have hi : E.item w (.frame r) e0.1 = (w, .ok (.node r e0.2 [(r, e0.1)])) := by simp [LEnv.item, hf, hl]
  refine ⟨e0.2, rfl, ?_, ?_⟩
  · unfold LEnv.attributes
    rw [followObj_one]
    simp only [LEnv.attribute, hn, Bool.false_eq_true, if_false, hi]
    rfl
  · unfold LEnv.items
    rw [followObj_one, hi]

/-- **C78 (shadowed)** `link_to` accepts an alias that is an attribute of DataFrames, `dir` lists it, and the attribute is not the link. -/
theorem C78_shadowed_refuted (w w' : LWorld V) (r o : Nat) (args : LinkArgs) (b : Bool) {n : Str} (hid : isid n = true) (hn : own .frame n = true)
    (h : E.linkTo isid w r o n args = (w', .ok b)) (base : List Str) :
    n ∈ w'.dir base r ∧ E.attributes own w' r [n] = (w', .ok (.own n)) ∧ ∃ l, E.items w' r [n] = (w', .ok (.node r l [(r, n)])) := by
  have hkey : ∃ f l, w'.frames[r]? = some f ∧ n ∈ f.identified ∧ dictGet f.links n = some l := by
    unfold LEnv.linkTo at h
    split at h
    · cases h
    · split at h
      · rename_i f g hf hg
        split at h
        · cases h
        · split at h
          · cases h
          · rename_i l _
            cases h
            refine ⟨{ f with links := dictSet f.links n l, identified := if isid n && decide (n ∉ f.identified) then f.identified ++ [n] else f.identified }, l,
              by simp only [LWorld.setFrame, modify_get, hf, Option.map_some, if_true], ?_, by simp [dictGet_dictSet]⟩
            simp only [hid, Bool.true_and]
            split
            · simp
            · rename_i hi; simpa using hi
      · cases h
  obtain ⟨f, l, hf, h1, h2⟩ := hkey
  refine ⟨?_, ?_, l, ?_⟩
  · simp [LWorld.dir, hf, h1]
  · unfold LEnv.attributes
    rw [followObj_one]
    simp [LEnv.attribute, hn]
  · unfold LEnv.items
    rw [followObj_one]
    simp [LEnv.item, hf, h2]

/-! ## the example -/

/-- `index` is an attribute of DataFrames -/
def laIndex : Str := ['i', 'n', 'd', 'e', 'x']
def laOwn : OwnNames := fun k n => decide (k = .frame ∧ n = laIndex)
/-- identifiers are the words without a space -/
def laId : Str → Bool := fun n => decide (' ' ∉ n)
/-- `"my zone"` -/
def laMy : Str := ['m', 'y', ' ', 'z']

/-- `persons.hh.zone.a` is `persons["hh"]["zone"]["a"]`; `households.p.sum(...)` -/
example : lxE.attributes laOwn lxW 2 [lxHh, lxZone, lxA] = lxE.items lxW 2 [lxHh, lxZone, lxA] ∧
    NoneOwn laOwn ([lxHh, lxZone] ++ [lxA]) ∧
    ((lxE.items lxW 2 [lxHh, lxZone, lxA]).2.toOption.map fun o => match o with | .series c => c.vals | _ => []) = some [-5, 100, 100, -5] := by
  refine ⟨rfl, ?_, by decide⟩
  intro n hn k
  cases k <;> simp [laOwn, laIndex] at hn ⊢
  rcases hn with rfl | rfl | rfl <;> decide

/-- the attributes of the households lead to an aggregator, which computes the aggregation -/
example : ∃ a, lxE.attributes laOwn lxW 1 ([lxP] ++ [['s', 'u', 'm']]) = (lxW, .ok a) ∧
    lxVals (lxE.callAggregator (orColumn lxEv) lxW (.name lxH) 0 a) = .ok [20, 20, 0] := by
  have h : ∃ w' c, lxE.aggregate (orColumn lxEv) lxW 1 [lxP] ['s', 'u', 'm'] (.name lxH) 0 = (w', .ok c) ∧ c.vals = [20, 20, 0] := ⟨_, _, rfl, by decide⟩
  obtain ⟨w', c, h1, h2⟩ := h
  have hn : NoneOwn laOwn ([lxP] ++ [['s', 'u', 'm']]) := by
    intro n hn k
    simp only [List.cons_append, List.nil_append, List.mem_cons, List.not_mem_nil, or_false] at hn
    rcases hn with rfl | rfl <;> cases k <;> decide
  obtain ⟨a, h3, h4⟩ := (C78_aggregations (orColumn lxEv) lxW 1 (by simp) hn (.name lxH) 0 w' c).mp h1
  exact ⟨a, h3, by rw [h4]; simp [lxVals, Except.map, h2]⟩

/-- a link that is not there: AttributeError as attribute, KeyError as item -/
example : (lxE.attributes laOwn lxW 2 [lxP]).2.isOk = false ∧ (match (lxE.items lxW 2 [lxP]).2 with | .error .key => true | _ => false) = true := by decide

/-- the zones linked as `zone` and as `my z`, and a group of one household (frame 3) -/
def laOps : List (LOp Int) := lxNew ++ [.linkTo 1 0 lxZone { onSelf := some [lxZ] }, .linkTo 1 0 laMy { onSelf := some [lxZ] }]

/-- `dir` lists the identifier only (`C78_listed`, `C78_only_partial`) -/
example : lxZone ∈ (lrun lxE laId lxEv lxE.start laOps).dir [] 1 ∧ laMy ∉ (lrun lxE laId lxEv lxE.start laOps).dir [] 1 := by
  refine ⟨(C78_listed lxEv_quiet laOps [] 1 (by decide) (by simp)).mpr ⟨true, _, rfl, by decide⟩, fun h => ?_⟩
  rcases C78_only_partial lxEv_quiet laOps (by simp [laOps, lxNew]) [] 1 h with h1 | h1
  · cases h1
  · exact absurd h1 (by decide)

/-- the group lists both -/
example : laMy ∈ (lrun lxE laId lxEv lxE.start (laOps ++ [.grouped 1 [1]])).dir [] 3 := by decide

example : ∃ w' q, lstep lxE laId lxEv (lrun lxE laId lxEv lxE.start laOps) (.grouped 1 [1]) = (w', .ok (.frame q)) ∧ laMy ∈ w'.dir [] q :=
  by
  obtain ⟨l, hl⟩ := Option.isSome_iff_exists.mp (show ((lrun lxE laId lxEv lxE.start laOps).link? 1 laMy).isSome = true by decide)
  exact ⟨_, 3, rfl, C78_group_refuted (E := lxE) (isid := laId) (ev := lxEv) (lrun lxE laId lxEv lxE.start laOps) _ 1 3 [1] rfl [] laMy l hl⟩

/-- `zone` as attribute and as item of the households -/
example : ∃ k : Link, k.other = 0 ∧ lxE.attributes laOwn (lrun lxE laId lxEv lxE.start laOps) 1 [lxZone] =
    (lrun lxE laId lxEv lxE.start laOps, .ok (.node 1 k [(1, lxZone)])) := by
  obtain ⟨k, h1, h2, -⟩ := C78_reachable (E := lxE) (isid := laId) (own := laOwn) lxEv_quiet laOps 1 (n := lxZone) (by decide) (e := true) (l := _) (x := _) rfl List.mem_cons_self
  exact ⟨k, congrArg LinkFacts.target h1, h2⟩

/-- a link called `index` is accepted and listed, but `households.index` stays the index -/
example : ∃ w' b, lxE.linkTo laId lxW 1 0 laIndex { onSelf := some [lxZ] } = (w', .ok b) ∧ laIndex ∈ w'.dir [] 1 ∧
    lxE.attributes laOwn w' 1 [laIndex] = (w', .ok (.own laIndex)) := by
  refine ⟨_, false, rfl, ?_⟩
  have h := C78_shadowed_refuted (E := lxE) (own := laOwn) (isid := laId) lxW _ 1 0 { onSelf := some [lxZ] } false (n := laIndex) (by decide) (by decide) rfl []
  exact ⟨h.1, h.2.1⟩

end Cheval
