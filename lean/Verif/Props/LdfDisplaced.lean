import Verif.Props.LdfFinalize

/-!
# C47: what lookups of a frame that only passed through `__finalize__` give, whatever its rows are
-/
namespace Cheval
variable {V : Type} [DecidableEq V] {E : LEnv V} {isid : Str → Bool}
  {ev : LWorld V → Nat → PExpr → LWorld V × Except Err (LCol V)}

/-- the last step back to a frame whose link was reset: the keys are those of the link's owner -/
theorem reset_resolve {w : LWorld V} (h : LGood E w) {q : Nat} {n : Str} {lq : Link} (hq : w.link? q n = some lq) (hown : lq.owner = q)
    {f' : LFrame V} (hl : dictGet f'.links n = some lq.copyMeta) (kind : DKind) (fill : V) (h1 : List (Nat × Str))
    (hlt : ∀ p ∈ h1, p.1 < w.frames.length) (a : List V) :
    (E.resolve kind fill (w.push f') (h1 ++ [(w.frames.length, n)]) a).2 = (E.resolve kind fill w (h1 ++ [(q, n)]) a).2 ∧
    ∀ out, (E.resolve kind fill w (h1 ++ [(q, n)]) a).2 = .ok out → out.length = w.rows q := by
  rw [resolve_append, resolve_append, push_resolve kind fill f' h1 h hlt]
  have hk := resolve_keeps (E := E) kind fill h1 h a
  rcases hr : E.resolve kind fill w h1 a with ⟨w1, e | b⟩
  · exact ⟨rfl, fun out ho => by simp at ho⟩
  · rw [hr] at hk
    simp only at hk ⊢
    obtain ⟨hc, hg, -⟩ := hk
    obtain ⟨l1, hl1, hm1⟩ := hc.link_some hq
    obtain ⟨f1, g1, ks, ko, hf1, -, hk1⟩ := hg.linkOk hl1
    have hlen : w.frames.length = w1.frames.length := hc.length.symm
    have hlen2 : ks.length = w.rows q := by
      rw [(hk1.rows hg hf1).1]
      exact hc.rows q
    have hmeta : lq.copyMeta = l1.copyMeta := hm1.symm
    have hown1 : l1.owner = q := (congrArg (fun x => x.owner) hm1).trans hown
    obtain ⟨w2, hi, -, -⟩ := indexerMissing_good hg hl1 hf1 hk1
    have hfl : w1.frames[q]? = some f1 := hf1
    have hqlt : q < w1.frames.length := (List.getElem?_eq_some_iff.mp hf1).1
    have hkeys : (w1.push f').keys q l1.selfSpec = .ok ks := by
      rw [push_keys_lt hqlt]
      unfold LWorld.keys
      rw [hf1]
      exact hk1.self
    have hok : LinkOk E (w1.push f') f1 l1.copyMeta g1 ks ko :=
      { target := push_old hk1.target, chained := hk1.chained, self := hk1.self, oth := hk1.oth, uniq := hk1.uniq,
        flat := fun x hx => by simp [Link.copyMeta] at hx,
        lazy := fun _ => by
          show (w1.push f').keys l1.owner l1.selfSpec = _
          rw [hown1]; exact hkeys
        grouper := fun x hx => by simp [Link.copyMeta] at hx,
        grouped := fun _ hx => by simp [Link.copyMeta] at hx,
        missing := fun x hx => by simp [Link.copyMeta] at hx }
    have hpre := precompute_good hok (by show (w1.push f').keys l1.owner l1.selfSpec = _; rw [hown1]; exact hkeys)
    have hi2 : (E.indexerMissing (w1.push f') w.frames.length n).2 = (E.indexerMissing w1 q n).2 := by
      rw [hi]
      unfold LEnv.indexerMissing
      have : (w1.push f').link? w.frames.length n = some l1.copyMeta := by
        unfold LWorld.link?
        rw [hlen, push_new]
        simp only
        rw [hl, hmeta]
      rw [this]
      simp only
      rw [if_neg (by simp [Link.copyMeta]), hpre]
      simp only [Link.copyMeta, LEnv.base, Option.getD_none]
      rfl
    rw [LEnv.resolve, LEnv.resolve]
    rw [hi] at hi2 ⊢
    rcases hi3 : E.indexerMissing (w1.push f') w.frames.length n with ⟨w3, x⟩
    rw [hi3] at hi2
    simp only at hi2
    subst hi2
    simp only
    cases htk : takeInts b (getIndexer (E.base l1 ko) ks) with
    | error e => exact ⟨rfl, fun out ho => by simp at ho⟩
    | ok d =>
      simp only
      cases hst : E.store kind fill with
      | error e => exact ⟨rfl, fun out ho => by simp at ho⟩
      | ok v =>
        simp only
        cases hput : putAll d (missingOf (getIndexer (E.base l1 ko) ks)) v with
        | error e => exact ⟨rfl, fun out ho => by simp at ho⟩
        | ok out =>
          refine ⟨rfl, fun o ho => ?_⟩
          simp only [LEnv.resolve, Except.ok.injEq] at ho
          subst ho
          rw [(take_put_get htk hput).1, getIndexer_length, hlen2]

/-- what a lookup from a frame with as many rows as given, or not, makes of the values found -/
def atRows (same : Bool) : Except Err (LCol V) → Except Err (LCol V)
  | .error e => .error e
  | .ok c => if same then .ok c else .error .value

theorem asSeries_rows {A : Type} {n m : Nat} {kind : DKind} {x y : A × Except Err (List V)} (h : x.2 = y.2)
    (hl : ∀ out, y.2 = .ok out → out.length = m) :
    (asSeries n kind x).2 = atRows (decide (n = m)) (asSeries m kind y).2 := by
  obtain ⟨x1, x2⟩ := x
  obtain ⟨y1, y2⟩ := y
  simp only at h hl
  subst h
  cases x2 with
  | error e => rfl
  | ok a =>
    have := hl a rfl
    simp only [asSeries, this, if_true, atRows]
    by_cases hnm : n = m
    · simp [hnm]
    · simp [hnm, Ne.symm hnm]

/-- a frame with a reset link looks up, by position, what the link's owner looks up -/
theorem reset_lookup {w : LWorld V} (h : LGood E w) {q : Nat} {n : Str} {lq : Link} (hq : w.link? q n = some lq) (hown : lq.owner = q)
    {f' : LFrame V} (hl : dictGet f'.links n = some lq.copyMeta) (ns : List Str) (col : Str) :
    (E.lookup (w.push f') w.frames.length (n :: ns) col).2 =
      atRows (decide (f'.rows = w.rows q)) (E.lookup w q (n :: ns) col).2 := by
  have hlk : (w.push f').link? w.frames.length n = some lq.copyMeta := by
    unfold LWorld.link?
    rw [push_new]
    exact hl
  have ho := (h.link_lt hq).2.1
  have hwalk : (∃ e, w.walk q (n :: ns) [] = .error e ∧ (w.push f').walk w.frames.length (n :: ns) [] = .error e) ∨
      ∃ l l' h1, w.walk q (n :: ns) [] = .ok (l, h1 ++ [(q, n)]) ∧ (w.push f').walk w.frames.length (n :: ns) [] = .ok (l', h1 ++ [(w.frames.length, n)]) ∧
        l'.copyMeta = l.copyMeta ∧ (∀ p ∈ h1, p.1 < w.frames.length) ∧ l.other < w.frames.length := by
    rw [LWorld.walk, LWorld.walk, hq, hlk]
    simp only
    cases ns with
    | nil => exact .inr ⟨lq, lq.copyMeta, [], rfl, rfl, rfl, by simp, ho⟩
    | cons m ms =>
      simp only
      have hnode : lq.copyMeta.node = lq.node := rfl
      have hoth : lq.copyMeta.other = lq.other := rfl
      rw [hnode, hoth]
      cases lq.node with
      | leaf => exact .inl ⟨_, rfl, rfl⟩
      | aggr => exact .inl ⟨_, rfl, rfl⟩
      | node =>
        simp only
        rw [push_walk h f' ho, walk_base, walk_base (h := [(w.frames.length, n)])]
        cases hx : w.walk lq.other (m :: ms) [] with
        | error e => exact .inl ⟨e, rfl, rfl⟩
        | ok p =>
          obtain ⟨l, h1⟩ := p
          obtain ⟨_, _, q', _, _, _, hl', _⟩ := walk_trail hx
          exact .inr ⟨l, l, h1, rfl, rfl, rfl, walk_hist_lt h hx, (h.link_lt hl').2.1⟩
  unfold LEnv.lookup
  rcases hwalk with ⟨e, h1, h2⟩ | ⟨l, l', h1, hw1, hw2, hm, hlt, hol⟩
  · rw [h1, h2]; rfl
  · rw [hw1, hw2]
    have e1 : l'.other = l.other := congrArg (fun x => x.other) hm
    have e2 : l'.agg = l.agg := congrArg (fun x => x.agg) hm
    have e3 : l'.chained = l.chained := congrArg (fun x => x.chained) hm
    have hnode : l'.node = l.node := by simp [Link.node, e2, e3]
    simp only
    rw [e1, hnode, push_frames_lt hol]
    cases w.frames[l.other]? with
    | none => rfl
    | some g =>
      simp only
      rw [push_new]
      have key : ∀ (k : DKind) (x : V) (a : List V), (asSeries f'.rows k (E.resolve k x (w.push f') (h1 ++ [(w.frames.length, n)]) a)).2 =
          atRows (decide (f'.rows = w.rows q)) (asSeries (w.rows q) k (E.resolve k x w (h1 ++ [(q, n)]) a)).2 := fun k x a =>
        asSeries_rows (reset_resolve h hq hown hl k x h1 hlt a).1 (reset_resolve h hq hown hl k x h1 hlt a).2
      have hcf : (w.push f').classFill = w.classFill := rfl
      rw [hcf]
      cases l.node with
      | aggr => rfl
      | leaf =>
        simp only
        cases dictGet g.cols col with
        | none => rfl
        | some c => exact key _ _ _
      | node =>
        simp only
        split
        · rfl
        · cases dictGet g.cols col with
          | none => rfl
          | some c => exact key _ _ _

/-- C47, what happens instead: whatever rows and columns an operation that only passes through `__finalize__` returns, a lookup over a link
of its result gives, position by position, what the frame the link was made on (`q`: the frame itself, or the frame it is a slice of) gives for
its own rows - and raises ValueError if the numbers of rows differ. The rows of the result play no part. -/
theorem C47_effect (hev : EvKeeps E ev) {ops : List (LOp V)} (hs : SafeRun E isid ev E.start ops) {w : LWorld V}
    (hw : w = lrun E isid ev E.start ops) {r q : Nat} {n : Str} {l lq : Link} (hl : w.link? r n = some l) (hq : w.link? q n = some lq)
    (hown : l.owner = q) (hsame : l.copyMeta = lq.copyMeta)
    (levels : List (Option Str)) (index : List (List V)) (cols : List (Str × LCol V)) :
    ∃ w1 r', lstep E isid ev w (.finalized r levels index cols) = (w1, .ok (.frame r')) ∧
      (∀ i, i < w.frames.length → w1.frames[i]? = w.frames[i]?) ∧
      ∀ ns col,
        (∀ e, (E.lookup w q (n :: ns) col).2 = .error e → (E.lookup w1 r' (n :: ns) col).2 = .error e) ∧
        (∀ c, (E.lookup w q (n :: ns) col).2 = .ok c → index.length = w.rows q → (E.lookup w1 r' (n :: ns) col).2 = .ok c) ∧
        (∀ c, (E.lookup w q (n :: ns) col).2 = .ok c → index.length ≠ w.rows q → (E.lookup w1 r' (n :: ns) col).2 = .error .value) := by
  have h : LGood E w := by rw [hw]; exact good_run hev LGood.start hs
  obtain ⟨f, g, ks, ko, hf, hlf, hk⟩ := h.linkOk hl
  refine ⟨_, _, by simp [lstep, LWorld.derive, hf]; exact ⟨rfl, rfl⟩, fun i hi => push_frames_lt hi, fun ns col => ?_⟩
  have hl' : dictGet (E.finalized f levels index cols).links n = some lq.copyMeta := by
    simp only [LEnv.finalized]
    rw [dictGet_mapCols f.links (fun _ l => Link.copyMeta l), hlf, Option.map_some, hsame]
  have := reset_lookup h hq ((congrArg (fun x => x.owner) hsame.symm).trans hown) hl' ns col
  have hrows : (E.finalized f levels index cols).rows = index.length := rfl
  rw [hrows] at this
  refine ⟨fun e he => ?_, fun c hc hr => ?_, fun c hc hr => ?_⟩
  · rw [this, he]; rfl
  · rw [this, hc, hr]; simp [atRows]
  · rw [this, hc]; simp [atRows, hr]

/-- so a lookup after moving rows is wrong whenever the moved rows are linked to different values: if row `i` of the result is row `s` of the
original, and the values of rows `i` and `s` differ, then row `i` gets the value of row `i` -/
theorem C47_moved (hev : EvKeeps E ev) {ops : List (LOp V)} (hs : SafeRun E isid ev E.start ops) {w : LWorld V}
    (hw : w = lrun E isid ev E.start ops) {r : Nat} {f : LFrame V} (hf : w.frames[r]? = some f) {n : Str} {l : Link} (hl : w.link? r n = some l)
    (hown : l.owner = r) {p : List Nat} (hp : p.Perm (List.range f.rows)) {ns : List Str} {col : Str} {c : LCol V}
    (hc : (E.lookup w r (n :: ns) col).2 = .ok c) :
    ∃ w1 r' g out, lstep E isid ev w (.finalized r f.levels (p.filterMap fun i => f.index[i]?)
        (f.cols.map fun e => (e.1, ⟨e.2.kind, p.filterMap fun i => e.2.vals[i]?⟩))) = (w1, .ok (.frame r')) ∧
      w1.frames[r']? = some g ∧ (∀ i s : Nat, p[i]? = some s → g.index[i]? = f.index[s]?) ∧
      (E.lookup w1 r' (n :: ns) col).2 = .ok out ∧
      ((∀ i s : Nat, p[i]? = some s → out.vals[i]? = c.vals[s]?) ↔ ∀ i s : Nat, p[i]? = some s → c.vals[i]? = c.vals[s]?) := by
  obtain ⟨w1, r', h1, h2, h3⟩ := C47_effect hev hs hw hl hl hown rfl f.levels (p.filterMap fun i => f.index[i]?)
    (f.cols.map fun e => (e.1, ⟨e.2.kind, p.filterMap fun i => e.2.vals[i]?⟩))
  have hmem : ∀ i ∈ p, i < f.index.length := fun i hi => by simpa [LFrame.rows] using hp.mem_iff.mp hi
  have hget : ∀ {A : Type} (a : List A) (p : List Nat), (∀ i ∈ p, i < a.length) → (p.filterMap fun i => a[i]?).map some = p.map fun i => a[i]? := by
    intro A a p
    induction p with
    | nil => intro _; rfl
    | cons i p ih =>
      intro hx
      have hi := hx i List.mem_cons_self
      simp only [List.filterMap_cons, List.getElem?_eq_getElem hi, List.map_cons]
      rw [ih fun j hj => hx j (List.mem_cons_of_mem _ hj)]
  have hix := hget f.index p hmem
  have hlen : (p.filterMap fun i => f.index[i]?).length = w.rows r := by
    have := congrArg List.length hix
    simp only [List.length_map] at this
    rw [this, hp.length_eq]
    simp [LWorld.rows, hf]
  refine ⟨w1, r', E.finalized f f.levels (p.filterMap fun i => f.index[i]?) (f.cols.map fun e => (e.1, ⟨e.2.kind, p.filterMap fun i => e.2.vals[i]?⟩)),
    c, h1, ?_, ?_, (h3 ns col).2.1 c hc hlen, Iff.rfl⟩
  · simp only [lstep, LWorld.derive, hf, Prod.mk.injEq, Except.ok.injEq, LOut.frame.injEq] at h1
    obtain ⟨rfl, rfl⟩ := h1
    exact push_new w _
  · intro i s hi
    have := congrArg (fun a : List (Option (List V)) => a[i]?) hix
    simp only [List.getElem?_map, hi, Option.map_some] at this
    show (p.filterMap fun i => f.index[i]?)[i]? = _
    cases hz : (p.filterMap fun i => f.index[i]?)[i]? with
    | none => rw [hz] at this; simp at this
    | some z => rw [hz] at this; simpa using this

/-- C47, the part that holds: an operation that only passes through `__finalize__` and returns all rows in place (selecting, adding or
dropping columns, the key columns too) on a frame its links were made on keeps every lookup over its links, and the links.
(Missing: operations that move, drop or add rows, and all of these operations on frames that are themselves slices.) -/
theorem C47_columns_partial (hev : EvKeeps E ev) {ops : List (LOp V)} (hs : SafeRun E isid ev E.start ops) {w : LWorld V}
    (hw : w = lrun E isid ev E.start ops) {r : Nat} {f : LFrame V} (hf : w.frames[r]? = some f) (hown : ∀ e ∈ f.links, e.2.owner = r)
    (cols : List (Str × LCol V)) :
    ∃ w1 r' g, lstep E isid ev w (.finalized r f.levels f.index cols) = (w1, .ok (.frame r')) ∧
      w1.frames[r']? = some g ∧ g.index = f.index ∧ g.cols = cols ∧ g.links.map (·.1) = f.links.map (·.1) ∧
      ∀ path col c, (E.lookup w r path col).2 = .ok c → (E.lookup w1 r' path col).2 = .ok c := by
  refine ⟨w.push (E.finalized f f.levels f.index cols), w.frames.length, E.finalized f f.levels f.index cols, by simp [lstep, LWorld.derive, hf],
    push_new _ _, rfl, rfl, ?_, ?_⟩
  · simp [LEnv.finalized, List.map_map, Function.comp_def]
  · intro path col c hc
    cases path with
    | nil => simp [LEnv.lookup, LWorld.walk] at hc
    | cons n ns =>
      cases hl : w.link? r n with
      | none =>
        have : w.walk r (n :: ns) [] = .error .key := by rw [LWorld.walk, hl]
        simp [LEnv.lookup, this] at hc
      | some l =>
        have ho : l.owner = r := by
          unfold LWorld.link? at hl
          rw [hf] at hl
          exact hown _ (dictGet_mem hl)
        obtain ⟨w1, r', h1, -, h2⟩ := C47_effect hev hs hw hl hl ho rfl f.levels f.index cols
        simp only [lstep, LWorld.derive, hf, Prod.mk.injEq, Except.ok.injEq, LOut.frame.injEq] at h1
        obtain ⟨rfl, rfl⟩ := h1
        exact (h2 ns col).2.1 c hc (by simp [LWorld.rows, hf, LFrame.rows])

/-- a case: the key column is dropped and a column `b` is added to the persons (frame 4 is the result) -/
example : (∀ f, lxW.frames[2]? = some f → ∀ e ∈ f.links, e.2.owner = 2) ∧
    lxVals (lxE.lookup (lstep lxE lxId lxEv lxW (.finalized 2 [some lxP] [[0], [1], [2], [3]]
      [(lxA, ⟨.int, [1, 2, 3, 4]⟩)])).1 4 [lxHh] lxInc) = .ok [6, 5, 5, -1] := by
  refine ⟨?_, by decide⟩
  rintro f hf e he
  simp only [show lxW.frames[2]? = some _ from rfl, Option.some.injEq] at hf
  subst hf
  revert e
  decide

/-- a case: the slice with persons 3 and 1 (frame 3), put in another order, is not as long as the persons' frame (frame 2) its link was made on -/
example : ∃ w1 r', lstep lxE lxId lxEv lxW (.finalized 3 [some lxP] [[1], [3]] [(lxH, ⟨.int, [10, 77]⟩)]) = (w1, .ok (.frame r')) ∧
    (lxE.lookup w1 r' [lxHh] lxInc).2 = .error .value := by
  obtain ⟨l, hl⟩ := Option.isSome_iff_exists.mp (show (lxW.link? 3 lxHh).isSome = true by decide)
  obtain ⟨lq, hq⟩ := Option.isSome_iff_exists.mp (show (lxW.link? 2 lxHh).isSome = true by decide)
  have hown : (lxW.link? 3 lxHh).map (·.owner) = some 2 := by decide
  have hsame : (lxW.link? 3 lxHh).map Link.copyMeta = (lxW.link? 2 lxHh).map Link.copyMeta := by decide
  rw [hl] at hown hsame
  rw [hq] at hsame
  obtain ⟨w1, r', h1, -, h2⟩ := C47_effect (isid := lxId) lxEv_keeps lx_safe (w := lxW) rfl hl hq (by simpa using hown) (by simpa using hsame)
    [some lxP] [[1], [3]] [(lxH, ⟨.int, [10, 77]⟩)]
  exact ⟨w1, r', h1, (h2 [] lxInc).2.2 ⟨.int, [6, 5, 5, -1]⟩ (by decide) (by decide)⟩

/-- a case: the persons in the order 1, 0, 2, 3; the incomes of their households are not looked up in that order -/
example : ∃ w1 r' out, lstep lxE lxId lxEv lxW (.finalized 2 [some lxP] [[1], [0], [2], [3]] [(lxH, ⟨.int, [10, 20, 10, 77]⟩)]) = (w1, .ok (.frame r')) ∧
    (lxE.lookup w1 r' [lxHh] lxInc).2 = .ok out ∧ ¬ ∀ i s : Nat, [1, 0, 2, 3][i]? = some s → out.vals[i]? = [6, 5, 5, -1][s]? := by
  obtain ⟨l, hl⟩ := Option.isSome_iff_exists.mp (show (lxW.link? 2 lxHh).isSome = true by decide)
  have hown : (lxW.link? 2 lxHh).map (·.owner) = some 2 := by decide
  rw [hl] at hown
  obtain ⟨w1, r', g, out, h1, -, -, h2, h3⟩ := C47_moved (isid := lxId) lxEv_keeps lx_safe (w := lxW) rfl (r := 2) rfl hl (by simpa using hown)
    (p := [1, 0, 2, 3]) (by decide) (ns := []) (col := lxInc) (c := ⟨.int, [6, 5, 5, -1]⟩) (by decide)
  refine ⟨w1, r', out, h1, h2, fun h => ?_⟩
  have := h3.mp h 0 1 rfl
  simp at this

end Cheval
