import Verif.Props.LdfExample

/-!
# C45: aggregated lookups
-/
namespace Cheval
variable {V : Type} [DecidableEq V] {E : LEnv V} {isid : Str → Bool}
  {ev ev2 : LWorld V → Nat → PExpr → LWorld V × Except Err (LCol V)}

theorem admitted_parts {func : Str} {k : DKind} (h : Admitted func k) :
    func ∈ numericAggs ++ otherAggs ∧ (func ∈ numericAggs → k.numeric = true) ∧ k ≠ .datetime := by
  rcases h with ⟨h1, h2⟩ | ⟨h1, h2⟩
  · refine ⟨List.mem_append_right _ h1, fun h3 => absurd h3 ?_, h2⟩
    simp only [List.mem_cons, List.not_mem_nil, or_false] at h1
    rcases h1 with rfl | rfl | rfl | rfl <;> decide
  · refine ⟨List.mem_append_left _ h1, fun _ => ?_, ?_⟩ <;> rcases h2 with rfl | rfl | rfl | rfl <;> decide

theorem not_admitted {func : Str} {k : DKind} (h : ¬ Admitted func k) :
    func ∉ numericAggs ++ otherAggs ∨ (func ∈ numericAggs ∧ k.numeric = false) ∨ k = .datetime := by
  by_cases h1 : func ∈ numericAggs
  · right
    cases hk : k.numeric
    · exact .inl ⟨h1, rfl⟩
    · exact absurd (.inr ⟨h1, by cases k <;> simp_all [DKind.numeric]⟩) h
  · by_cases h2 : func ∈ otherAggs
    · right; right
      by_contra h3
      exact h (.inl ⟨h2, h3⟩)
    · left; simp [h1, h2]

theorem groupFill_eq (k : DKind) (a b : V) : groupFill k a b = if k.intLike then a else b := by
  cases k <;> rfl

/-- C45: after any history of safe operations, `frame.l1...lk.link.f(arg)`, where only the last link needs aggregation, has one
value per row. For a row that reaches row `j` of the frame owning the last link, it is the reduction `f` of the argument's
values, in row order, in the rows of the target whose key equals row `j`'s key (`ev2` evaluates the argument on the target, `orColumn ev` for a call from Python); it is the fill value (`int_fill` for
integer and boolean data) when no such row exists or no `j` is reached. Provided: the link is computed, the reduction is
admitted for the argument's type and has a value on every non-empty group, and no key of the target is NaN. -/
theorem C45_chain_partial (hev : EvKeeps E ev) (hev2 : EvKeeps E ev2) {ops : List (LOp V)} (hs : SafeRun E isid ev E.start ops) {w : LWorld V}
    (hw : w = lrun E isid ev E.start ops) {r : Nat} {ns : List Str} {n : Str} {l : Link} {hist : List (Nat × Str)}
    (hwalk : w.walk r (ns ++ [n]) [] = .ok (l, hist)) (ha : l.agg = true) (hcomp : l.flat.isSome = true)
    {g : LFrame V} (hg : w.frames[l.other]? = some g)
    {func : Str} {arg : PExpr} {w1 : LWorld V} {c : LCol V}
    (hc : ev2 w l.other arg = (w1, .ok c)) (hadm : Admitted func c.kind)
    (hna : ∀ j k, g.keyAt l.otherSpec j = some k → E.naKey k = false)
    (hagg : ∀ vs, vs ≠ [] → (E.agg func c.kind vs).isSome = true) {intFill v : V}
    (hv : E.store (E.aggKind func c.kind) (groupFill c.kind intFill E.nan) = .ok v) (hp : Passable w r (ns ++ [n])) :
    ∃ w' out q, E.aggregate ev2 w r (ns ++ [n]) func arg intFill = (w', .ok ⟨E.aggKind func c.kind, out⟩) ∧ out.length = w.rows r ∧
      w.follow r ns = some q ∧ w.link? q n = some l ∧ ∀ i, i < w.rows r →
        (∀ j k, Reaches w r ns i q j → w.keyAt q l.selfSpec j = some k →
          out[i]? = if g.matching l.otherSpec k c.vals = [] then some v else E.agg func c.kind (g.matching l.otherSpec k c.vals)) ∧
        ((∀ j, ¬ Reaches w r ns i q j) → out[i]? = some v) := by
  obtain ⟨hfunc, hnum, hdt⟩ := admitted_parts hadm
  rw [groupFill_eq] at hv
  have h : LGood E w := by rw [hw]; exact good_run hev LGood.start hs
  obtain ⟨⟨hk1, hk2, hk3⟩, hlen⟩ := hev2 w l.other arg h
  rw [hc] at hk1 hk2 hk3 hlen
  obtain ⟨ns', n', q0, h0, hpath, -, hlq, -⟩ := walk_trail hwalk
  obtain ⟨f0, g0, ks, ko, hf0, -, hko⟩ := h.linkOk hlq
  have hgg : g0 = g := by have := hko.target; rw [hg] at this; exact (Option.some.inj this).symm
  subst hgg
  have hwf := h.wf _ (List.mem_of_getElem? hg)
  have hnn : NoNa E ko := by
    intro k hk
    obtain ⟨j, hj⟩ := List.getElem?_of_mem hk
    exact hna j k (by rw [← (keys_ok hwf hko.oth).2]; exact hj)
  obtain ⟨w', -, -, h3, -⟩ := aggregate_good h hwalk ha hcomp hg hfunc hc hk1 hk3 hk2 (by rw [hlen c rfl]; simp [LWorld.rows, hg]) hnum hdt hko.oth hnn hagg hv
  obtain ⟨out, e1, e2, q, mid, ⟨_, e0⟩, e3, e4, e5, e6⟩ := h3 hp
  refine ⟨w', out, q, e1, e2, e0.follow, e3, fun i hi => ?_⟩
  have ho : out[i]? = some out[i] := List.getElem?_eq_getElem (by omega)
  obtain ⟨h8, h9⟩ := e4 i _ ho
  exact ⟨fun j k hj hk => by rw [ho, ← h8 j hj, e6 j k hk], fun hno => by rw [ho, h9 hno]⟩

/-- C45 over a single link: row `i` has the reduction of the rows of the target with row `i`'s key. -/
theorem C45_single_partial (hev : EvKeeps E ev) (hev2 : EvKeeps E ev2) {ops : List (LOp V)} (hs : SafeRun E isid ev E.start ops) {w : LWorld V}
    (hw : w = lrun E isid ev E.start ops) {r : Nat} {n : Str} {l : Link} (hl : w.link? r n = some l) (ha : l.agg = true)
    (hcomp : l.flat.isSome = true) {g : LFrame V} (hg : w.frames[l.other]? = some g) (hrows : g.rows ≠ 0)
    {func : Str} {arg : PExpr} {w1 : LWorld V} {c : LCol V}
    (hc : ev2 w l.other arg = (w1, .ok c)) (hadm : Admitted func c.kind)
    (hna : ∀ j k, g.keyAt l.otherSpec j = some k → E.naKey k = false)
    (hagg : ∀ vs, vs ≠ [] → (E.agg func c.kind vs).isSome = true) {intFill v : V}
    (hv : E.store (E.aggKind func c.kind) (groupFill c.kind intFill E.nan) = .ok v) :
    ∃ w' out, E.aggregate ev2 w r [n] func arg intFill = (w', .ok ⟨E.aggKind func c.kind, out⟩) ∧ out.length = w.rows r ∧
      ∀ i k, i < w.rows r → w.keyAt r l.selfSpec i = some k →
        out[i]? = if g.matching l.otherSpec k c.vals = [] then some v else E.agg func c.kind (g.matching l.otherSpec k c.vals) := by
  have hwalk : w.walk r ([] ++ [n]) [] = .ok (l, [(r, n)]) := by simp [LWorld.walk, hl]
  have hpass : Passable w r ([] ++ [n]) := by
    intro l' hl'
    rw [hl] at hl'
    cases hl'
    refine ⟨fun h0 => ?_, trivial⟩
    simp [LWorld.rows, hg, hrows] at h0
  obtain ⟨w', out, q, h1, h2, h0, h3, h4⟩ := C45_chain_partial hev hev2 hs hw hwalk ha hcomp hg hc hadm hna hagg hv hpass
  simp only [LWorld.follow, Option.some.injEq] at h0
  subst h0
  exact ⟨w', out, h1, h2, fun i k hi hk => (h4 i hi).1 i k (.here _ _) hk⟩

/-- C45 for a call from Python naming a column of the target: `frame.link.f("col")`. -/
theorem C45_column_partial (hev : EvKeeps E ev) {ops : List (LOp V)} (hs : SafeRun E isid ev E.start ops) {w : LWorld V}
    (hw : w = lrun E isid ev E.start ops) {r : Nat} {n : Str} {l : Link} (hl : w.link? r n = some l) (ha : l.agg = true)
    (hcomp : l.flat.isSome = true) {g : LFrame V} (hg : w.frames[l.other]? = some g) (hrows : g.rows ≠ 0)
    {func : Str} {col : Str} {c : LCol V}
    (hcol : dictGet g.cols col = some c) (hlink : col ∉ g.links.map (·.1)) (hadm : Admitted func c.kind)
    (hna : ∀ j k, g.keyAt l.otherSpec j = some k → E.naKey k = false)
    (hagg : ∀ vs, vs ≠ [] → (E.agg func c.kind vs).isSome = true) {intFill v : V}
    (hv : E.store (E.aggKind func c.kind) (groupFill c.kind intFill E.nan) = .ok v) :
    ∃ w' out, E.aggregate (orColumn ev) w r [n] func (.name col) intFill = (w', .ok ⟨E.aggKind func c.kind, out⟩) ∧ out.length = w.rows r ∧
      ∀ i k, i < w.rows r → w.keyAt r l.selfSpec i = some k →
        out[i]? = if g.matching l.otherSpec k c.vals = [] then some v else E.agg func c.kind (g.matching l.otherSpec k c.vals) :=
  C45_single_partial hev (orColumn_keeps hev) hs hw hl ha hcomp hg hrows (w1 := w) (by simp only [orColumn, hg, hcol, if_neg hlink]) hadm hna hagg hv

/-- C45 (refusals) A reduction that is not offered for the type of the argument's values raises; nothing else happens than the evaluation of
the argument. So does every aggregation over a path whose last link needs none. -/
theorem C45_refused (w : LWorld V) {r : Nat} {path : List Str} {l : Link} {hist : List (Nat × Str)} (hwalk : w.walk r path [] = .ok (l, hist))
    (func : Str) (arg : PExpr) (intFill : V) :
    (∀ w1 c, ev w l.other arg = (w1, .ok c) → ¬ Admitted func c.kind → ∃ e, (E.aggregate ev w r path func arg intFill).2 = .error e ∧
      ((E.aggregate ev w r path func arg intFill).1 = w ∨ (E.aggregate ev w r path func arg intFill).1 = w1)) ∧
    (l.agg = false → ∃ e, E.aggregate ev w r path func arg intFill = (w, .error e)) := by
  unfold LEnv.aggregate
  simp only [hwalk]
  cases hf : w.frames[l.other]? with
  | none => exact ⟨fun _ _ _ _ => ⟨_, rfl, .inl rfl⟩, fun _ => ⟨_, rfl⟩⟩
  | some g =>
    simp only
    refine ⟨fun w1 c hc hna => ?_, fun hl => ?_⟩
    · rcases hn : l.node with _ | _ | _
      · exact ⟨_, rfl, .inl rfl⟩
      · exact ⟨_, rfl, .inl rfl⟩
      · simp only
        by_cases h1 : func ∉ numericAggs ++ otherAggs
        · rw [if_pos h1]; exact ⟨_, rfl, .inl rfl⟩
        · rw [if_neg h1, hc]
          simp only
          rcases not_admitted hna with h | h | h
          · exact absurd h h1
          · rw [if_pos h]; exact ⟨_, rfl, .inr rfl⟩
          · split
            · exact ⟨_, rfl, .inr rfl⟩
            · exact ⟨_, rfl, .inr rfl⟩
    · unfold Link.node
      rw [hl]
      cases l.chained
      · exact ⟨_, rfl⟩
      · exact ⟨_, rfl⟩

/-- cases of C45_refused: the maximum of a column of texts, and an unknown reduction, are refused -/
example : ¬ Admitted "max".toList .text ∧ ¬ Admitted "mode".toList .int ∧ Admitted "first".toList .text ∧ Admitted "sum".toList .bool := by
  unfold Admitted; decide

example : ∃ e, (lxE.aggregate (orColumn lxEv) lxW 1 [lxP] "mode".toList (.name lxH) 0).2 = .error e := by
  obtain ⟨l, hist, hw, hc⟩ : ∃ l hist, lxW.walk 1 [lxP] [] = .ok (l, hist) ∧ orColumn lxEv lxW l.other (.name lxH) = (lxW, .ok ⟨.int, [20, 10, 10, 77]⟩) :=
    ⟨_, _, rfl, rfl⟩
  obtain ⟨e, he, -⟩ := (C45_refused (E := lxE) (ev := orColumn lxEv) lxW hw "mode".toList (.name lxH) 0).1 _ _ hc (by unfold Admitted; decide)
  exact ⟨e, he⟩

/-- a case of C45: the sum of a column of the persons of each household; household 30 has none -/
example : ∃ l g, lxW.link? 1 lxP = some l ∧ l.agg = true ∧ l.flat.isSome = true ∧ lxW.frames[l.other]? = some g ∧ g.rows ≠ 0 ∧
    (∀ k ∈ [[20], [10], [10], [(77 : Int)]], lxE.naKey k = false) ∧ g.keys l.otherSpec = .ok [[20], [10], [10], [77]] ∧
    lxVals (lxE.aggregate (orColumn lxEv) lxW 1 [lxP] ['s', 'u', 'm'] (.name lxH) (-3)) = .ok [20, 20, -3] :=
  ⟨_, _, rfl, by decide, by decide, rfl, by decide, by decide, by decide, by decide⟩

/-! ## Where it fails -/

/-- households 10 and 20 and persons the first of whom has a NaN household: `[NaN, 20, 10]` -/
def lxNanOps : List (LOp Int) := [
  .new true [some lxH] [[10], [20]] [],
  .new true [some lxP] [[0], [1], [2], [3]] [(lxH, ⟨.float, [-99, 20, 10, 10]⟩), (lxA, ⟨.int, [1, 2, 3, 4]⟩)],
  .linkTo 0 1 lxP { onOther := some [lxH] }]

/-- households 10 and 20, persons without NaN, and the slice (frame 2) of household 20 alone -/
def lxNthOps : List (LOp Int) := [
  .new true [some lxH] [[10], [20]] [],
  .new true [some lxP] [[0], [1], [2]] [(lxH, ⟨.int, [20, 10, 10]⟩), (lxA, ⟨.int, [2, 3, 4]⟩)],
  .linkTo 0 1 lxP { onOther := some [lxH] },
  .select 0 [1] (fun _ => []) (fun _ _ => 0)]

/-- the rows with a key, computed -/
theorem matching_dec (g : LFrame V) (s : KeySpec) (k : List V) (a : List V) :
    g.matching s k a = (List.range g.rows).filterMap fun j => if g.keyAt s j = some k then a[j]? else none := by
  unfold LFrame.matching
  congr
  funext j
  congr

/-- C45 fails when the target's keys contain NaN: household 10 has persons with values 3 and 4, household 20 one with value 2.
The sum over household 10's persons is reported as 2 and that over household 20's as 1 - every group is shifted by one. -/
theorem C45_nan_refuted :
    SafeRun lxE lxId lxEv lxE.start lxNanOps ∧
    ∃ l g, (lrun lxE lxId lxEv lxE.start lxNanOps).link? 0 lxP = some l ∧ (lrun lxE lxId lxEv lxE.start lxNanOps).frames[l.other]? = some g ∧
      g.matching l.otherSpec [10] [1, 2, 3, 4] = [3, 4] ∧ g.matching l.otherSpec [20] [1, 2, 3, 4] = [2] ∧
      lxVals (lxE.aggregate (orColumn lxEv) (lrun lxE lxId lxEv lxE.start lxNanOps) 0 [lxP] ['s', 'u', 'm'] (.name lxA) 0) = .ok [2, 1] := by
  refine ⟨safeRunCheck_ok (by decide), _, _, rfl, rfl, ?_, ?_, by decide⟩
  · rw [matching_dec]; decide
  · rw [matching_dec]; decide

/-- `nth(1)` of the persons' column: the group of household 20 has only one row and yields none, so that household 10's group
slides into its place: household 20 gets household 10's second person, and household 10's lookup raises. -/
theorem C45_nth_refuted :
    SafeRun lxE lxId lxEv lxE.start lxNthOps ∧
    ∃ l g, (lrun lxE lxId lxEv lxE.start lxNthOps).link? 0 lxP = some l ∧ (lrun lxE lxId lxEv lxE.start lxNthOps).frames[l.other]? = some g ∧
      g.matching l.otherSpec [10] [2, 3, 4] = [3, 4] ∧ g.matching l.otherSpec [20] [2, 3, 4] = [2] ∧
      (lxE.aggregate (orColumn lxEv) (lrun lxE lxId lxEv lxE.start lxNthOps) 0 [lxP] ['n', 't', 'h'] (.name lxA) 0).2 = .error .index ∧
      lxVals (lxE.aggregate (orColumn lxEv) (lrun lxE lxId lxEv lxE.start lxNthOps) 2 [lxP] ['n', 't', 'h'] (.name lxA) 0) = .ok [4] := by
  refine ⟨safeRunCheck_ok (by decide), _, _, rfl, rfl, ?_, ?_, by decide, by decide⟩
  · rw [matching_dec]; decide
  · rw [matching_dec]; decide

end Cheval
