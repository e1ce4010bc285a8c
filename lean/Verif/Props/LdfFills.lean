import Verif.Spec.LdfFill
import Verif.Props.LdfLookups

/-!
# C50: fill values
-/
namespace Cheval
variable {V : Type}

/-! ## the fill manager -/

theorem ofName_kindName : ∀ k : DKind, DKind.ofName (kindName k) = some k := by intro k; cases k <;> decide

theorem ofName_some {n : Str} {k : DKind} (h : DKind.ofName n = some k) : n = kindName k := by
  unfold DKind.ofName at h
  repeat' split at h
  all_goals first | (simp only [Option.some.injEq] at h; subst h; assumption) | simp at h

theorem ofName_none {n : Str} : DKind.ofName n = none ↔ ∀ k, n ≠ kindName k := by
  constructor
  · rintro h k rfl
    rw [ofName_kindName] at h
    simp at h
  · intro h
    cases hk : DKind.ofName n with
    | none => rfl
    | some k => exact absurd (ofName_some hk) (h k)

theorem kindName_inj {j k : DKind} (h : kindName j = kindName k) : j = k := by
  have := ofName_kindName j
  rw [h, ofName_kindName] at this
  simpa using this.symm

/-- C50: one call of `set_fill_defaults` changes exactly the named kinds, up to the first unknown name, where it raises KeyError -/
theorem C50_set_named (k : DKind) : ∀ (kvs : List (Str × V)) (g : DKind → V),
    (setFills g kvs).1 k = ((namedFills k kvs).getLast?).getD (g k) ∧
    ((setFills g kvs).2 = .ok () ↔ ∀ e ∈ kvs, ∃ j, e.1 = kindName j) ∧ ((setFills g kvs).2 ≠ .ok () → (setFills g kvs).2 = .error .key)
  | [], g => by simp [setFills, namedFills]
  | e :: es, g => by
    classical
    rw [setFills]
    cases hn : DKind.ofName e.1 with
    | none =>
      have hno := ofName_none.mp hn
      have hno' : ¬ ∃ j, e.1 = kindName j := fun ⟨j, hj⟩ => hno j hj
      refine ⟨by simp [namedFills, hno'], ?_, by simp⟩
      simp [hno']
    | some j =>
      have hj := ofName_some hn
      obtain ⟨h1, h2, h3⟩ := C50_set_named k es (setFill g j e.2)
      have hy : ∃ j, e.1 = kindName j := ⟨j, hj⟩
      refine ⟨?_, ?_, h3⟩
      · simp only
        rw [h1]
        unfold namedFills
        rw [List.takeWhile_cons_of_pos (by simpa using hy), List.filterMap_cons]
        by_cases hk : k = j
        · subst hk
          rw [if_pos hj]
          simp only [setFill, if_true, List.getLast?_cons]
          simp
        · rw [if_neg (fun hx => hk (kindName_inj (hx.symm.trans hj)))]
          simp [setFill, hk]
      · simp only
        rw [h2]
        simp [hy]

/-- a case: two kinds named, then an unknown name -/
example : (setFills (fun _ => 0) [("INT_NAME".toList, 1), ("FLOAT_NAME".toList, 2), ("int".toList, 3), ("BOOL_NAME".toList, 4)]).1 .float = 2 ∧
    (setFills (fun _ => 0) [("INT_NAME".toList, 1), ("FLOAT_NAME".toList, 2), ("int".toList, 3), ("BOOL_NAME".toList, 4)]).1 .bool = 0 ∧
    (setFills (fun _ => 0) [("INT_NAME".toList, 1), ("FLOAT_NAME".toList, 2), ("int".toList, 3), ("BOOL_NAME".toList, 4)]).2 = .error .key := by decide

theorem tempFinally_apply {g0 : DKind → V} : ∀ (prev : List (DKind × V)) (g : DKind → V), (∀ e ∈ prev, e.2 = g0 e.1) →
    (∀ j, j ∉ prev.map (·.1) → g j = g0 j) → tempFinally g prev = g0
  | [], g, _, h => by funext j; exact h j (by simp)
  | e :: prev, g, h1, h2 => by
    unfold tempFinally
    rw [List.foldl_cons]
    refine tempFinally_apply prev _ (fun e he => h1 e (List.mem_cons_of_mem _ he)) fun j hj => ?_
    unfold setFill
    split
    · rename_i hje; rw [hje]; exact h1 e List.mem_cons_self
    · rename_i hje; exact h2 j (by simp [hj, hje])

theorem tempTry_inv {g0 : DKind → V} : ∀ (kvs : List (Str × V)) (g : DKind → V) (prev : List (DKind × V)), (kvs.map (·.1)).Nodup →
    (∀ e ∈ prev, e.2 = g0 e.1) → (∀ j, j ∉ prev.map (·.1) → g j = g0 j) → (∀ j ∈ prev.map (·.1), kindName j ∉ kvs.map (·.1)) →
    tempFinally (tempTry g prev kvs).1 (tempTry g prev kvs).2.1 = g0
  | [], g, prev, _, h1, h2, _ => tempFinally_apply prev g h1 h2
  | e :: es, g, prev, hn, h1, h2, h3 => by
    rw [tempTry]
    cases hk : DKind.ofName e.1 with
    | none => exact tempFinally_apply prev g h1 h2
    | some k =>
      have hek := ofName_some hk
      rw [List.map_cons, List.nodup_cons] at hn
      have hkp : k ∉ prev.map (·.1) := fun hm => h3 k hm (by simp [hek])
      refine tempTry_inv es _ _ hn.2 ?_ ?_ ?_
      · intro x hx
        rcases mem_dictSet.mp hx with rfl | ⟨hx, -⟩
        · exact h2 k hkp
        · exact h1 x hx
      · intro j hj
        rw [dictSet_keys] at hj
        simp only [not_or] at hj
        rw [setFill, if_neg hj.1]
        exact h2 j hj.2
      · intro j hj
        rw [dictSet_keys] at hj
        rcases hj with rfl | hj
        · rw [← hek]; exact hn.1
        · exact fun hm => h3 j hj (List.mem_cons_of_mem _ hm)

theorem tempFills_same (g : DKind → V) {kvs : List (Str × V)} (hn : (kvs.map (·.1)).Nodup) : (tempFills g kvs).1 = g := by
  have := tempTry_inv (g0 := g) kvs g [] hn (by simp) (by simp) (by simp)
  unfold tempFills
  rcases h : tempTry g [] kvs with ⟨g1, prev, x⟩
  rw [h] at this
  cases x with
  | error e => exact this
  | ok u => exact this

variable [DecidableEq V] {E : LEnv V} {isid : Str → Bool} {ev : LWorld V → Nat → PExpr → LWorld V × Except Err (LCol V)}

/-! ## what leaves fills alone -/

/-- same frames, as far as fills go -/
def FillSame (w w' : LWorld V) : Prop := w'.classFill = w.classFill ∧ ∀ (q : Nat) (f : LFrame V), w.frames[q]? = some f →
  ∃ f', w'.frames[q]? = some f' ∧ f'.linked = f.linked ∧ f'.filler = f.filler ∧ f'.colFills = f.colFills

theorem FillSame.refl (w : LWorld V) : FillSame w w := ⟨rfl, fun _ f hf => ⟨f, hf, rfl, rfl, rfl⟩⟩

theorem FillSame.trans {a b c : LWorld V} (h : FillSame a b) (h' : FillSame b c) : FillSame a c := by
  refine ⟨h'.1.trans h.1, fun q f hf => ?_⟩
  obtain ⟨f1, h1, h2, h3, h4⟩ := h.2 q f hf
  obtain ⟨f2, i1, i2, i3, i4⟩ := h'.2 q f1 h1
  exact ⟨f2, i1, i2.trans h2, i3.trans h3, i4.trans h4⟩

theorem FillSame.setFrame (w : LWorld V) (r : Nat) {g : LFrame V → LFrame V}
    (hg : ∀ f, (g f).linked = f.linked ∧ (g f).filler = f.filler ∧ (g f).colFills = f.colFills) : FillSame w (w.setFrame r g) := by
  refine ⟨rfl, fun q f hf => ?_⟩
  by_cases hq : q = r
  · subst hq
    exact ⟨g f, setFrame_self hf g, hg f⟩
  · exact ⟨f, by rw [setFrame_other hq]; exact hf, rfl, rfl, rfl⟩

theorem FillSame.push (w : LWorld V) (f : LFrame V) : FillSame w (w.push f) :=
  ⟨rfl, fun q x hx => ⟨x, by simp only [LWorld.push]; rw [List.getElem?_append_left (List.getElem?_eq_some_iff.mp hx).1]; exact hx, rfl, rfl, rfl⟩⟩

theorem FillSame.derive (w : LWorld V) (r : Nat) (g : LFrame V → Except Err (LFrame V)) : FillSame w (w.derive r g).1 := by
  unfold LWorld.derive
  cases w.frames[r]? with
  | none => exact .refl w
  | some f =>
    simp only
    cases g f with
    | error e => exact .refl w
    | ok f' => exact .push w f'

theorem indexerMissing_fill (w : LWorld V) (r : Nat) (n : Str) : FillSame w (E.indexerMissing w r n).1 := by
  unfold LEnv.indexerMissing
  cases w.link? r n with
  | none => exact .refl w
  | some l =>
    simp only
    split
    · exact .refl w
    · rename_i l1 _
      cases l1.flat with
      | none => exact .refl w
      | some fl => exact .setFrame w r fun f => ⟨rfl, rfl, rfl⟩

theorem resolve_fill (kind : DKind) (fill : V) : ∀ (hs : List (Nat × Str)) (w : LWorld V) (a : List V), FillSame w (E.resolve kind fill w hs a).1
  | [], w, a => by rw [LEnv.resolve]; exact .refl w
  | h :: hs, w, a => by
    have hi := indexerMissing_fill (E := E) w h.1 h.2
    rw [LEnv.resolve]
    rcases hx : E.indexerMissing w h.1 h.2 with ⟨w1, x⟩
    rw [hx] at hi
    cases x with
    | error e => exact hi
    | ok p =>
      obtain ⟨fl, m⟩ := p
      simp only
      cases takeInts a fl with
      | error e => exact hi
      | ok b =>
        simp only
        cases E.store kind fill with
        | error e => exact hi
        | ok v =>
          simp only
          cases putAll b m v with
          | error e => exact hi
          | ok c => exact hi.trans (resolve_fill kind fill hs w1 c)

theorem lookup_fill (w : LWorld V) (r : Nat) (path : List Str) (col : Str) : FillSame w (E.lookup w r path col).1 := by
  unfold LEnv.lookup
  cases w.walk r path [] with
  | error e => exact .refl w
  | ok p =>
    obtain ⟨l, h⟩ := p
    simp only
    cases w.frames[l.other]? with
    | none => exact .refl w
    | some g =>
      simp only
      cases l.node with
      | aggr => exact .refl w
      | leaf =>
        simp only
        cases dictGet g.cols col with
        | none => exact .refl w
        | some c => simp only; rw [asSeries_fst]; exact resolve_fill _ _ _ _ _
      | node =>
        simp only
        split
        · exact .refl w
        · cases dictGet g.cols col with
          | none => exact .refl w
          | some c => simp only; rw [asSeries_fst]; exact resolve_fill _ _ _ _ _

theorem orColumn_fill (hev : ∀ w o a, FillSame w (ev w o a).1) (w : LWorld V) (o : Nat) (a : PExpr) : FillSame w (orColumn ev w o a).1 := by
  unfold orColumn
  split
  · rename_i g n _
    cases dictGet g.cols n with
    | none => exact hev _ _ _
    | some c => simp only; split <;> exact .refl w
  · exact hev _ _ _

theorem aggregate_fill (hev : ∀ w o a, FillSame w (ev w o a).1) (w : LWorld V) (r : Nat) (path : List Str) (func : Str) (arg : PExpr) (intFill : V) :
    FillSame w (E.aggregate ev w r path func arg intFill).1 := by
  unfold LEnv.aggregate
  cases w.walk r path [] with
  | error e => exact .refl w
  | ok p =>
    obtain ⟨l, h⟩ := p
    simp only
    cases w.frames[l.other]? with
    | none => exact .refl w
    | some g =>
      simp only
      cases l.node with
      | leaf => exact .refl w
      | node => exact .refl w
      | aggr =>
        simp only
        split
        · exact .refl w
        · have hi := hev w l.other arg
          rcases hx : ev w l.other arg with ⟨w1, x⟩
          rw [hx] at hi
          cases x with
          | error e => exact hi
          | ok c =>
            simp only
            split
            · exact hi
            · split
              · exact hi
              · split
                · exact hi
                · split
                  · exact hi
                  · rw [asSeries_fst]; exact hi.trans (resolve_fill _ _ _ _ _)

theorem computeLinks_fill (refresh : Bool) (r : Nat) : ∀ (ns : List Str) (w : LWorld V), FillSame w (E.computeLinks refresh r w ns).1
  | [], w => .refl w
  | n :: ns, w => by
    rw [LEnv.computeLinks]
    cases w.link? r n with
    | none => exact .refl w
    | some l =>
      simp only
      split
      · cases E.precompute w l with
        | error e => exact .refl w
        | ok l1 =>
          have h1 : FillSame w (w.setLink r n l1) := .setFrame w r fun f => ⟨rfl, rfl, rfl⟩
          exact h1.trans (computeLinks_fill refresh r ns _)
      · exact computeLinks_fill refresh r ns w

theorem linkTo_fill (w : LWorld V) (r o : Nat) (name : Str) (args : LinkArgs) : FillSame w (E.linkTo isid w r o name args).1 := by
  unfold LEnv.linkTo
  cases args.specs with
  | error e => exact .refl w
  | ok p =>
    obtain ⟨ss, os⟩ := p
    simp only
    cases w.frames[r]? with
    | none => exact .refl w
    | some f =>
      cases w.frames[o]? with
      | none => exact .refl w
      | some g =>
        simp only
        split
        · exact .refl w
        · cases E.createLink r o f g ss os args.precompute with
          | error e => exact .refl w
          | ok l => exact .setFrame w r fun f => ⟨rfl, rfl, rfl⟩

/-- keyword arguments have distinct names -/
def KwOk : LOp V → Prop
  | .setFill _ kvs => (kvs.map (·.1)).Nodup
  | .tempFill _ kvs => (kvs.map (·.1)).Nodup
  | _ => True

theorem FillSame.of_eq {w w' w1 : LWorld V} (h : FillSame w w') (e : w1 = w') : FillSame w w1 := e ▸ h

/-- operations that are no fill calls -/
theorem other_fill (hev : ∀ w o a, FillSame w (ev w o a).1) (w : LWorld V) (op : LOp V)
    (h : match op with | .setColumnFill .. | .setFill .. | .resetFill .. => False | _ => True) (hk : KwOk op) : FillSame w (lstep E isid ev w op).1 := by
  cases op with
  | new linked levels index cols => exact .push w _
  | linkTo r o name args => exact linkTo_fill w r o name args
  | lookup r path col => exact lookup_fill w r path col
  | aggregate py r path func arg intFill => exact aggregate_fill (by cases py <;> [exact hev; exact orColumn_fill hev]) w r path func arg intFill
  | select r ix pk pc => exact .derive w r _
  | finalized r levels index cols => exact .derive w r _
  | grouped r ix => exact .derive w r _
  | copy r => exact .derive w r _
  | computeIndexers r refresh =>
    simp only [lstep]
    unfold LEnv.computeIndexers
    cases w.frames[r]? with
    | none => exact .refl w
    | some f =>
      simp only
      split
      · exact .refl w
      · exact computeLinks_fill refresh r _ w
  | setColumn r col c =>
    simp only [lstep]
    unfold LWorld.setColumn
    cases w.frames[r]? with
    | none => exact .refl w
    | some f =>
      simp only
      split
      · exact .setFrame w r fun f => ⟨rfl, rfl, rfl⟩
      · exact .refl w
  | setColumnFill r col v => exact h.elim
  | setFill r kvs => exact h.elim
  | resetFill r => exact h.elim
  | tempFill r kvs =>
    simp only [lstep]
    cases r with
    | none =>
      refine ⟨tempFills_same _ hk, fun q f hf => ⟨f, hf, rfl, rfl, rfl⟩⟩
    | some r =>
      cases hf : w.frames[r]? with
      | none => simp only [LWorld.changeFill, hf]; exact .refl w
      | some f =>
        simp only [LWorld.changeFill, hf]
        split
        · exact .refl w
        · exact .setFrame w r fun f => ⟨rfl, tempFills_same _ hk, rfl⟩

/-- C50: `temporary_fill_defaults` leaves every fill value as it was -/
theorem C50_temporary (hev : ∀ w o a, FillSame w (ev w o a).1) (w : LWorld V) (r : Option Nat) {kvs : List (Str × V)} (hn : (kvs.map (·.1)).Nodup) :
    (lstep E isid ev w (.tempFill r kvs)).1.classFill = w.classFill ∧ ∀ (o : Nat) (f : LFrame V), w.frames[o]? = some f →
      ∃ f', (lstep E isid ev w (.tempFill r kvs)).1.frames[o]? = some f' ∧ ∀ col k, f'.fillOf col k = f.fillOf col k := by
  have h := other_fill (E := E) (isid := isid) hev w (.tempFill r kvs) trivial hn
  refine ⟨h.1, fun o f hf => ?_⟩
  obtain ⟨f', h1, -, h3, h4⟩ := h.2 o f hf
  exact ⟨f', h1, fun col k => by unfold LFrame.fillOf; rw [h3, h4]⟩

/-- what one call does to the fills of a frame and of the class -/
def FillStep (E : LEnv V) (isid : Str → Bool) (ev : LWorld V → Nat → PExpr → LWorld V × Except Err (LCol V)) (w : LWorld V) (op : LOp V) : Prop :=
  (∀ k, (lstep E isid ev w op).1.classFill k = ((fillRequests E none k op).getLast?).getD (w.classFill k)) ∧
    ∀ (o : Nat) (f : LFrame V), w.frames[o]? = some f → ∃ f', (lstep E isid ev w op).1.frames[o]? = some f' ∧ f'.linked = f.linked ∧
      (f.linked = true → (∀ k, f'.filler k = ((fillRequests E (some o) k op).getLast?).getD (f.filler k)) ∧
        ∀ col, dictGet f'.colFills col = (lastColumnFill o col [(op, (lstep E isid ev w op).2.isOk)]).or (dictGet f.colFills col))

theorem fill_step (hev : ∀ w o a, FillSame w (ev w o a).1) (w : LWorld V) (op : LOp V) (hk : KwOk op) : FillStep E isid ev w op := by
  have hother : FillSame w (lstep E isid ev w op).1 → (∀ t k, fillRequests E t k op = []) →
      (∀ o col b, lastColumnFill o col [(op, b)] = none) → FillStep E isid ev w op := fun h h1 h2 => ⟨fun k => by rw [h1, h.1]; rfl, fun o f hf => by
      obtain ⟨f', i1, i2, i3, i4⟩ := h.2 o f hf
      exact ⟨f', i1, i2, fun _ => ⟨fun k => by rw [h1, i3]; rfl, fun col => by rw [h2, i4]; rfl⟩⟩⟩
  have hch : ∀ (g : (DKind → V) → (DKind → V) × Except Err Unit) (t : Option Nat), (∀ x k, fillRequests E x k op = if t = x then fillRequests E t k op else []) →
      (∀ h k, (g h).1 k = ((fillRequests E t k op).getLast?).getD (h k)) → (∀ o col b, lastColumnFill o col [(op, b)] = none) →
      lstep E isid ev w op = ((w.changeFill t g).1, (w.changeFill t g).2.map fun _ => .unit) →
      FillStep E isid ev w op := by
    intro g t h1 h2 h3 h4
    unfold FillStep
    rw [h4]
    simp only
    cases t with
    | none =>
      refine ⟨fun k => h2 _ k, fun o f hf => ⟨f, hf, rfl, fun _ => ⟨fun k => ?_, fun col => by rw [h3]; rfl⟩⟩⟩
      rw [h1 (some o) k, if_neg (by simp)]
      rfl
    | some r =>
      constructor
      · intro k
        rw [h1 none k, if_neg (by simp)]
        unfold LWorld.changeFill
        simp only
        cases w.frames[r]? with
        | none => rfl
        | some f => simp only; split <;> rfl
      · intro o f hf
        by_cases ho : o = r
        · subst ho
          by_cases hl : f.linked = true
          · refine ⟨{ f with filler := (g f.filler).1 }, ?_, rfl, fun _ => ⟨fun k => h2 _ k, fun col => by rw [h3]; rfl⟩⟩
            simp only [LWorld.changeFill, hf]
            rw [if_neg (by simp [hl])]
            exact setFrame_self hf _
          · refine ⟨f, ?_, rfl, fun h => absurd h hl⟩
            simp only [LWorld.changeFill, hf, hl]
            simpa using hf
        · refine ⟨f, ?_, rfl, fun _ => ⟨fun k => ?_, fun col => by rw [h3]; rfl⟩⟩
          · unfold LWorld.changeFill
            simp only
            cases w.frames[r]? with
            | none => exact hf
            | some f0 =>
              simp only
              split
              · exact hf
              · rw [setFrame_other ho]; exact hf
          · rw [h1 (some o) k, if_neg (by simpa using fun h => ho h.symm)]
            rfl
  cases op with
  | setColumnFill r col v =>
    unfold FillStep
    simp only [lstep]
    unfold LWorld.setColumnFill
    cases hf : w.frames[r]? with
    | none =>
      refine ⟨fun k => rfl, fun o f ho => ⟨f, ho, rfl, fun _ => ⟨fun k => rfl, fun c => ?_⟩⟩⟩
      simp [lastColumnFill, Except.map, Except.isOk, Except.toBool]
    | some f0 =>
      simp only
      by_cases hl : f0.linked = true
      · simp only [hl, Bool.not_true, Bool.false_eq_true, if_false]
        by_cases hc : col ∈ f0.cols.map (·.1)
        · rw [if_pos hc]
          refine ⟨fun k => rfl, fun o f ho => ?_⟩
          by_cases hor : o = r
          · subst hor
            rw [hf] at ho
            cases ho
            refine ⟨_, setFrame_self hf _, rfl, fun _ => ⟨fun k => rfl, fun c => ?_⟩⟩
            simp only [dictGet_dictSet, lastColumnFill, Except.map, Except.isOk, Except.toBool]
            by_cases hcc : c = col
            · subst hcc; simp
            · simp [hcc, Ne.symm hcc]
          · refine ⟨f, by rw [setFrame_other hor]; exact ho, rfl, fun _ => ⟨fun k => rfl, fun c => ?_⟩⟩
            simp [lastColumnFill, Except.map, Except.isOk, Except.toBool, Ne.symm hor]
        · rw [if_neg hc]
          refine ⟨fun k => rfl, fun o f ho => ⟨f, ho, rfl, fun _ => ⟨fun k => rfl, fun c => ?_⟩⟩⟩
          simp [lastColumnFill, Except.map, Except.isOk, Except.toBool]
      · simp only [hl]
        refine ⟨fun k => rfl, fun o f ho => ⟨f, ho, rfl, fun _ => ⟨fun k => rfl, fun c => ?_⟩⟩⟩
        simp [lastColumnFill, Except.map, Except.isOk, Except.toBool]
  | setFill r kvs =>
    refine hch (fun g => setFills g kvs) r (fun x k => ?_) (fun h k => ?_) (fun o col b => rfl) rfl
    · simp [fillRequests]
    · rw [(C50_set_named k kvs h).1]; simp [fillRequests]
  | resetFill r =>
    refine hch (fun _ => (E.defaultFill, .ok ())) r (fun x k => ?_) (fun h k => ?_) (fun o col b => rfl) rfl
    · simp [fillRequests]
    · simp [fillRequests]
  | _ => exact hother (other_fill hev w _ trivial hk) (fun t k => rfl) fun o col b => rfl

theorem getLast?_append_or {A : Type} (a b : List A) : (a ++ b).getLast? = (b.getLast?).or a.getLast? := by
  rw [List.getLast?_append]

/-- C50, fills over a history: however the program goes on, the fill value a frame gives to a column is the column fill requested last
(by a call that did not raise), else the column fill it had, else the default for the column's kind requested last from the
frame, by setting or resetting, else the one it had. The class default of a kind is the one requested last from the class. -/
theorem C50_history (hev : ∀ w o a, FillSame w (ev w o a).1) : ∀ (ops : List (LOp V)) (w : LWorld V), (∀ op ∈ ops, KwOk op) →
    (∀ k, (lrun E isid ev w ops).classFill k = (lastRequest E none k ops).getD (w.classFill k)) ∧
    ∀ (o : Nat) (f : LFrame V), w.frames[o]? = some f → ∃ f', (lrun E isid ev w ops).frames[o]? = some f' ∧ f'.linked = f.linked ∧
      (f.linked = true → ∀ col k, f'.fillOf col k = ((lastColumnFill o col (lcalls E isid ev w ops)).or (dictGet f.colFills col)).getD
        ((lastRequest E (some o) k ops).getD (f.filler k)) ∧
        f'.filler k = (lastRequest E (some o) k ops).getD (f.filler k) ∧
        dictGet f'.colFills col = (lastColumnFill o col (lcalls E isid ev w ops)).or (dictGet f.colFills col))
  | [], w, _ => by
    refine ⟨fun k => by simp [lrun, lastRequest], fun o f hf => ⟨f, hf, rfl, fun _ col k => ⟨?_, by simp [lastRequest], by simp [lastColumnFill, lcalls]⟩⟩⟩
    simp only [lastColumnFill, lcalls, lastRequest, LFrame.fillOf, List.filterMap_nil, List.getLast?_nil, Option.none_or, List.flatMap_nil, Option.getD_none]
    cases dictGet f.colFills col <;> rfl
  | op :: ops, w, hk => by
    obtain ⟨s1, s2⟩ := fill_step (E := E) (isid := isid) hev w op (hk op List.mem_cons_self)
    obtain ⟨h1, h2⟩ := C50_history hev ops (lstep E isid ev w op).1 fun x hx => hk x (List.mem_cons_of_mem _ hx)
    have hreq : ∀ t k, lastRequest E t k (op :: ops) = (lastRequest E t k ops).or ((fillRequests E t k op).getLast?) := fun t k => by
      simp only [lastRequest, List.flatMap_cons]
      exact getLast?_append_or _ _
    have hcol : ∀ o col, lastColumnFill o col (lcalls E isid ev w (op :: ops)) =
        (lastColumnFill o col (lcalls E isid ev (lstep E isid ev w op).1 ops)).or (lastColumnFill o col [(op, (lstep E isid ev w op).2.isOk)]) := fun o col => by
      simp only [lcalls]
      unfold lastColumnFill
      rw [← getLast?_append_or, ← List.filterMap_append]
      rfl
    have hor : ∀ (a b : Option V) (c : V), (a.or b).getD c = a.getD (b.getD c) := by
      intro a b c; cases a <;> rfl
    refine ⟨fun k => ?_, fun o f hf => ?_⟩
    · show (lrun E isid ev (lstep E isid ev w op).1 ops).classFill k = _
      rw [h1, s1, hreq, hor]
    · obtain ⟨f1, e1, e2, e3⟩ := s2 o f hf
      obtain ⟨f2, i1, i2, i3⟩ := h2 o f1 e1
      refine ⟨f2, i1, i2.trans e2, fun hl col k => ?_⟩
      obtain ⟨e4, e5⟩ := e3 hl
      obtain ⟨i4, i5, i6⟩ := i3 (e2.trans hl) col k
      refine ⟨?_, ?_, ?_⟩
      · rw [i4, hreq, hcol, e5, e4]; simp only [hor]
      · rw [i5, hreq, e4, hor]
      · rw [i6, hcol, e5, Option.or_assoc]

/-- a frame that an operation just returned has the built-in defaults -/
theorem new_fills {w w' : LWorld V} {op : LOp V} {o : Nat} (h : lstep E isid ev w op = (w', .ok (.frame o))) :
    ∃ f, w'.frames[o]? = some f ∧ f.filler = E.defaultFill ∧ f.colFills = [] := by
  have hder : ∀ r (g : LFrame V → Except Err (LFrame V)), (∀ f f', g f = .ok f' → f'.filler = E.defaultFill ∧ f'.colFills = []) →
      w.derive r g = (w', .ok (.frame o)) → ∃ f, w'.frames[o]? = some f ∧ f.filler = E.defaultFill ∧ f.colFills = [] := by
    intro r g hg hd
    unfold LWorld.derive at hd
    cases hf : w.frames[r]? with
    | none => rw [hf] at hd; simp at hd
    | some f =>
      rw [hf] at hd
      simp only at hd
      cases hx : g f with
      | error e => rw [hx] at hd; simp at hd
      | ok f' =>
        rw [hx] at hd
        simp only [Prod.mk.injEq, Except.ok.injEq, LOut.frame.injEq] at hd
        obtain ⟨rfl, rfl⟩ := hd
        exact ⟨f', push_new w f', hg f f' hx⟩
  have hmap : ∀ {A : Type} (x : LWorld V × Except Err A) (c : A → LOut V), (∀ a, c a ≠ .frame o) →
      ((x.1, x.2.map c) : LWorld V × Except Err (LOut V)) ≠ (w', .ok (.frame o)) := by
    rintro A ⟨w1, x⟩ c hc hx
    cases x with
    | error e => simp [Except.map] at hx
    | ok a => simp only [Except.map, Prod.mk.injEq, Except.ok.injEq] at hx; exact hc a hx.2
  cases op with
  | new linked levels index cols =>
    simp only [lstep, Prod.mk.injEq, Except.ok.injEq, LOut.frame.injEq] at h
    obtain ⟨rfl, rfl⟩ := h
    exact ⟨_, push_new w _, rfl, rfl⟩
  | linkTo r o' name args => exact absurd h (hmap _ _ fun a => by simp)
  | lookup r path col => exact absurd h (hmap _ _ fun a => by simp)
  | aggregate py r path func arg intFill => exact absurd h (hmap _ _ fun a => by simp)
  | select r ix pk pc =>
    refine hder r _ (fun f f' hx => ?_) h
    unfold LEnv.select at hx
    cases hc : copyLinks (some ix) f.links with
    | error e => rw [hc] at hx; simp at hx
    | ok ls => rw [hc] at hx; simp only [Except.ok.injEq] at hx; subst hx; exact ⟨rfl, rfl⟩
  | finalized r levels index cols =>
    refine hder r (fun f => .ok (E.finalized f levels index cols)) (fun f f' hx => ?_) h
    simp only [Except.ok.injEq] at hx
    subst hx
    exact ⟨rfl, rfl⟩
  | grouped r ix =>
    refine hder r _ (fun f f' hx => ?_) h
    unfold LEnv.grouped at hx
    simp only at hx
    split at hx
    · split at hx
      · simp at hx
      · simp only [Except.ok.injEq] at hx; subst hx; exact ⟨rfl, rfl⟩
    · simp at hx
  | copy r =>
    refine hder r _ (fun f f' hx => ?_) h
    unfold LEnv.copyFrame at hx
    cases hc : copyLinks none f.links with
    | error e => rw [hc] at hx; simp at hx
    | ok ls => rw [hc] at hx; simp only [Except.ok.injEq] at hx; subst hx; exact ⟨rfl, rfl⟩
  | computeIndexers r refresh => exact absurd h (hmap _ _ fun a => by simp)
  | setColumn r col c => exact absurd h (hmap _ _ fun a => by simp)
  | setColumnFill r col v => exact absurd h (hmap _ _ fun a => by simp)
  | setFill r kvs => exact absurd h (hmap _ _ fun a => by simp)
  | tempFill r kvs => exact absurd h (hmap _ _ fun a => by simp)
  | resetFill r => exact absurd h (hmap _ _ fun a => by simp)

theorem lrun_append (w : LWorld V) (a b : List (LOp V)) : lrun E isid ev w (a ++ b) = lrun E isid ev (lrun E isid ev w a) b := by
  unfold lrun
  rw [List.foldl_append]

/-- C50, as seen by lookups: after any history of safe operations that creates a LinkedDataFrame (frame `o`, by whatever operation) and
goes on in any way, a lookup over a link to it gives the rows without a partner the column fill set last since, else the
default for the column's kind set last on the frame since, else the built-in default of the kind - whatever was done before
the frame existed, to other frames and to the class. -/
theorem C50_lookup (hev : EvKeeps E ev) (hef : ∀ w o a, FillSame w (ev w o a).1) {pre post : List (LOp V)} {op : LOp V} {w0 : LWorld V}
    (hs : SafeRun E isid ev E.start (pre ++ op :: post)) {o : Nat} (ho : lstep E isid ev (lrun E isid ev E.start pre) op = (w0, .ok (.frame o)))
    {w : LWorld V} (hw : w = lrun E isid ev E.start (pre ++ op :: post)) (hkw : ∀ x ∈ post, KwOk x)
    {r : Nat} {name : Str} {l : Link} (hl : w.link? r name = some l) (ha : l.agg = false) (hlo : l.other = o)
    {g : LFrame V} (hg : w.frames[o]? = some g) (hgl : g.linked = true) {col : Str} {c : LCol V} (hc : dictGet g.cols col = some c)
    {v : V} (hv : E.store c.kind ((lastColumnFill o col (lcalls E isid ev w0 post)).getD ((lastRequest E (some o) c.kind post).getD (E.defaultFill c.kind))) = .ok v)
    (hne : g.rows ≠ 0) :
    ∃ w' out, E.lookup w r [name] col = (w', .ok ⟨c.kind, out⟩) ∧ out.length = w.rows r ∧
      ∀ i, i < w.rows r → ∃ k, w.keyAt r l.selfSpec i = some k ∧ ((∀ j, g.keyAt l.otherSpec j ≠ some k) → out[i]? = some v) := by
  have hrun : w = lrun E isid ev w0 post := by
    rw [hw, show pre ++ op :: post = pre ++ [op] ++ post by simp, lrun_append, lrun_append]
    show lrun E isid ev (lstep E isid ev (lrun E isid ev E.start pre) op).1 post = _
    rw [ho]
  obtain ⟨f0, hf0, hf1, hf2⟩ := new_fills ho
  obtain ⟨f', i1, i2, i3⟩ := (C50_history (E := E) (isid := isid) hef post w0 hkw).2 o f0 hf0
  rw [← hrun, hg] at i1
  obtain rfl := Option.some.inj i1
  obtain ⟨i4, -, -⟩ := i3 (i2.symm.trans hgl) col c.kind
  have hfill : w.fillFor g col c.kind = (lastColumnFill o col (lcalls E isid ev w0 post)).getD ((lastRequest E (some o) c.kind post).getD (E.defaultFill c.kind)) := by
    unfold LWorld.fillFor
    rw [if_pos hgl, i4, hf1, hf2]
    simp [dictGet]
  rw [← hfill] at hv
  obtain ⟨h1, -⟩ := C42_lookup hev hs hw hl ha (g := g) (by rw [hlo]; exact hg) hc hv
  obtain ⟨w', out, h2, h3, h4⟩ := h1 (.inl hne)
  refine ⟨w', out, h2, h3, fun i hi => ?_⟩
  obtain ⟨k, k1, -, k3, -⟩ := h4 i hi
  exact ⟨k, k1, k3⟩

/-- C50 for a plain DataFrame as target: the class default of the column's kind -/
theorem C50_plain (hev : EvKeeps E ev) (hef : ∀ w o a, FillSame w (ev w o a).1) {ops : List (LOp V)}
    (hs : SafeRun E isid ev E.start ops) {w : LWorld V} (hw : w = lrun E isid ev E.start ops) (hkw : ∀ x ∈ ops, KwOk x)
    {r : Nat} {name : Str} {l : Link} (hl : w.link? r name = some l) (ha : l.agg = false)
    {g : LFrame V} (hg : w.frames[l.other]? = some g) (hgl : g.linked = false) {col : Str} {c : LCol V} (hc : dictGet g.cols col = some c)
    {v : V} (hv : E.store c.kind ((lastRequest E none c.kind ops).getD (E.defaultFill c.kind)) = .ok v) (hne : g.rows ≠ 0) :
    ∃ w' out, E.lookup w r [name] col = (w', .ok ⟨c.kind, out⟩) ∧ out.length = w.rows r ∧
      ∀ i, i < w.rows r → ∃ k, w.keyAt r l.selfSpec i = some k ∧ ((∀ j, g.keyAt l.otherSpec j ≠ some k) → out[i]? = some v) := by
  have h0 := (C50_history (E := E) (isid := isid) hef ops E.start hkw).1 c.kind
  rw [← hw] at h0
  have hfill : w.fillFor g col c.kind = (lastRequest E none c.kind ops).getD (E.defaultFill c.kind) := by
    unfold LWorld.fillFor
    rw [if_neg (by simp [hgl]), h0]
    rfl
  rw [← hfill] at hv
  obtain ⟨h1, -⟩ := C42_lookup hev hs hw hl ha hg hc hv
  obtain ⟨w', out, h2, h3, h4⟩ := h1 (.inl hne)
  refine ⟨w', out, h2, h3, fun i hi => ?_⟩
  obtain ⟨k, k1, -, k3, -⟩ := h4 i hi
  exact ⟨k, k1, k3⟩

/-! ## cases -/

/-- persons linked to households -/
def lxFresh0 : List (LOp Int) := lxNew ++ [.linkTo 2 1 lxHh { onSelf := some [lxH] }]

/-- frame 1 gets defaults and a column fill, in turn -/
def lxFills : List (LOp Int) := lxFresh0 ++ [.setFill (some 1) [("INT_NAME".toList, 41)], .setFill none [("INT_NAME".toList, 42)]]

/-- the fill value follows the calls: built-in, frame default, column fill, also after the frame default is reset -/
example :
    lxVals (lxE.lookup (lrun lxE lxId lxEv lxE.start lxFresh0) 2 [lxHh] lxInc) = .ok [6, 5, 5, 0] ∧
    lxVals (lxE.lookup (lrun lxE lxId lxEv lxE.start lxFills) 2 [lxHh] lxInc) = .ok [6, 5, 5, 41] ∧
    lxVals (lxE.lookup (lrun lxE lxId lxEv lxE.start (lxFills ++ [.resetFill (some 1)])) 2 [lxHh] lxInc) = .ok [6, 5, 5, 0] ∧
    lxVals (lxE.lookup (lrun lxE lxId lxEv lxE.start (lxFills ++ [.setColumnFill 1 lxInc 43, .resetFill (some 1)])) 2 [lxHh] lxInc) = .ok [6, 5, 5, 43] ∧
    (lstep lxE lxId lxEv (lrun lxE lxId lxEv lxE.start lxFills) (.setColumnFill 1 lxA 43)).2.isOk = false := by decide

example : SafeRun lxE lxId lxEv lxE.start lxFills ∧ (∀ x ∈ lxFills, KwOk x) ∧ ∀ w o a, FillSame w (lxEv w o a).1 := by
  refine ⟨safeRunCheck_ok (by decide), ?_, fun w o a => .refl w⟩
  simp [lxFills, lxFresh0, lxNew, KwOk]

/-- C50 fails for class-level defaults: set before the frame is made, they do not reach the new LinkedDataFrame -/
theorem C50_class_refuted :
    let w := lrun lxE lxId lxEv lxE.start ([.setFill none [("INT_NAME".toList, 42)]] ++ lxFresh0)
    lxVals (lxE.lookup w 2 [lxHh] lxInc) = .ok [6, 5, 5, 0] := by decide

/-- C50: the fills of a frame are lost by the frames derived from it: the households with a column fill, copied (frame 3), and the
persons linked to the copy -/
theorem C50_derived_refuted :
    let w := lrun lxE lxId lxEv lxE.start (lxFresh0 ++ [.setColumnFill 1 lxInc 43, .copy 1, .linkTo 2 3 lxZone { onSelf := some [lxH] }])
    lxVals (lxE.lookup w 2 [lxHh] lxInc) = .ok [6, 5, 5, 43] ∧ lxVals (lxE.lookup w 2 [lxZone] lxInc) = .ok [6, 5, 5, 0] := by decide

/-- C50: temporary defaults are never in force: the call raises TypeError, and nothing has changed -/
theorem C50_temporary_refuted :
    let w := lrun lxE lxId lxEv lxE.start lxFresh0
    (lstep lxE lxId lxEv w (.tempFill (some 1) [("INT_NAME".toList, 41)])).2.isOk = false ∧
    lxVals (lxE.lookup (lstep lxE lxId lxEv w (.tempFill (some 1) [("INT_NAME".toList, 41)])).1 2 [lxHh] lxInc) = .ok [6, 5, 5, 0] := by decide

end Cheval
