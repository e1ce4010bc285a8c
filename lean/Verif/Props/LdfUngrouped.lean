import Verif.Props.LdfLazy
import Verif.Core.LdfQuiet
import Verif.Core.LdfEval

/-!
# C48: a lazily made aggregated link never works until `compute_indexers` is called
-/
set_option linter.unusedSectionVars false
namespace Cheval
variable {V : Type} [DecidableEq V] {E : LEnv V} {isid : Str → Bool}
  {ev : LWorld V → Nat → PExpr → LWorld V × Except Err (LCol V)}

/-- the frame `r` has an aggregated link `name` whose groups were never computed -/
def Ungrouped (w : LWorld V) (r : Nat) (name : Str) : Prop := ∃ l, w.link? r name = some l ∧ l.agg = true ∧ l.grouper = none

/-- evaluation of arguments leaves such links alone -/
def EvUngrouped (ev : LWorld V → Nat → PExpr → LWorld V × Except Err (LCol V)) (r : Nat) (name : Str) : Prop :=
  ∀ w o e, Ungrouped w r name → Ungrouped (ev w o e).1 r name

theorem indexerMissing_ungrouped {w : LWorld V} {r q : Nat} {name n : Str} (h : Ungrouped w r name) (hne : ¬ (r = q ∧ name = n)) :
    Ungrouped (E.indexerMissing w q n).1 r name := by
  unfold LEnv.indexerMissing
  split
  · exact h
  · split
    · exact h
    · split
      · exact h
      · obtain ⟨l, h1, h2⟩ := h
        exact ⟨l, (link?_setLink_of_ne hne).trans h1, h2⟩

theorem resolve_ungrouped {kind : DKind} {fill : V} {r : Nat} {name : Str} (hs : List (Nat × Str)) (hne : (r, name) ∉ hs) :
    ∀ (w : LWorld V) (a : List V), Ungrouped w r name → Ungrouped (E.resolve kind fill w hs a).1 r name := by
  induction hs with
  | nil => intro w a h; exact h
  | cons p hs ih =>
    intro w a h
    unfold LEnv.resolve
    have h1 := indexerMissing_ungrouped (E := E) h (q := p.1) (n := p.2) (fun hc => hne (by
      have : (r, name) = p := by ext1 <;> simp [hc]
      simp [this]))
    split
    · rename_i w1 e hi; rw [hi] at h1; exact h1
    · rename_i w1 fl m hi
      rw [hi] at h1
      split
      · exact h1
      · split
        · exact h1
        · split
          · exact h1
          · exact ih (fun hc => hne (by simp [hc])) _ _ h1

/-- only the last link of a path may be an aggregated one -/
theorem walk_links {w : LWorld V} : ∀ (path : List Str) (q : Nat) (h : List (Nat × Str)) (l : Link) (h' : List (Nat × Str)),
    w.walk q path h = .ok (l, h') → ∃ p t, h' = p :: t ∧ w.link? p.1 p.2 = some l ∧
      ∀ e ∈ t, e ∈ h ∨ ∃ l', w.link? e.1 e.2 = some l' ∧ l'.agg = false := by
  intro path
  induction path with
  | nil => intro q h l h' hw; simp [LWorld.walk] at hw
  | cons n ns ih =>
    intro q h l h' hw
    unfold LWorld.walk at hw
    cases hl : w.link? q n with
    | none => rw [hl] at hw; cases hw
    | some l0 =>
      rw [hl] at hw
      cases ns with
      | nil =>
        simp only [Except.ok.injEq, Prod.mk.injEq] at hw
        obtain ⟨rfl, rfl⟩ := hw
        exact ⟨(q, n), h, rfl, hl, fun e he => .inl he⟩
      | cons n2 ns =>
        simp only at hw
        cases hn : l0.node with
        | leaf => rw [hn] at hw; cases hw
        | aggr => rw [hn] at hw; cases hw
        | node =>
          rw [hn] at hw
          have hagg : l0.agg = false := by
            unfold Link.node at hn
            by_cases ha : l0.agg = true
            · simp [ha] at hn
            · simpa using ha
          obtain ⟨p, t, h1, h2, h3⟩ := ih _ _ _ _ hw
          refine ⟨p, t, h1, h2, fun e he => ?_⟩
          rcases h3 e he with h4 | h4
          · rcases List.mem_cons.mp h4 with rfl | h4
            · exact .inr ⟨l0, hl, hagg⟩
            · exact .inl h4
          · exact .inr h4

theorem lookup_ungrouped {w : LWorld V} {r : Nat} {name : Str} (h : Ungrouped w r name) (q : Nat) (path : List Str) (col : Str) :
    Ungrouped (E.lookup w q path col).1 r name := by
  unfold LEnv.lookup
  cases hw : w.walk q path [] with
  | error e => exact h
  | ok x =>
    obtain ⟨l, hs⟩ := x
    obtain ⟨p, t, rfl, h2, h3⟩ := walk_links _ _ _ _ _ hw
    have hnot : l.node ≠ .aggr → (r, name) ∉ p :: t := by
      intro hn hc
      obtain ⟨l', g1, g2, _⟩ := h
      rcases List.mem_cons.mp hc with rfl | hc
      · simp only at h2
        rw [g1] at h2
        cases h2
        exact hn (by simp [Link.node, g2])
      · rcases h3 _ hc with h4 | ⟨l'', g3, g4⟩
        · simp at h4
        · simp only at g3
          rw [g1] at g3
          cases g3
          rw [g2] at g4
          cases g4
    simp only
    split
    · exact h
    · split
      · exact h
      · split
        · exact h
        · rename_i hn _ _ _
          rw [asSeries_fst]
          exact resolve_ungrouped _ (hnot (by rw [hn]; simp)) _ _ h
      · split
        · exact h
        · split
          · exact h
          · rename_i hn _ _ _ _
            rw [asSeries_fst]
            exact resolve_ungrouped _ (hnot (by rw [hn]; simp)) _ _ h

/-- an aggregation leaves such a link alone, and does not succeed through it -/
theorem aggregate_ungrouped {w : LWorld V} {r : Nat} {name : Str} (hev : EvUngrouped ev r name) (h : Ungrouped w r name) (q : Nat) (path : List Str)
    (func : Str) (arg : PExpr) (intFill : V) :
    Ungrouped (E.aggregate ev w q path func arg intFill).1 r name ∧
    ∀ l t, w.walk q path [] = .ok (l, (r, name) :: t) → ∀ c, (E.aggregate ev w q path func arg intFill).2 ≠ .ok c := by
  unfold LEnv.aggregate
  cases hw : w.walk q path [] with
  | error e => exact ⟨h, fun l t hc => by cases hc⟩
  | ok x =>
    obtain ⟨l, hs⟩ := x
    obtain ⟨p, t, rfl, h2, h3⟩ := walk_links _ _ _ _ _ hw
    have ht : (r, name) ∉ t := by
      intro hc
      obtain ⟨l', g1, g2, _⟩ := h
      rcases h3 _ hc with h4 | ⟨l'', g3, g4⟩
      · simp at h4
      · simp only at g3
        rw [g1] at g3
        cases g3
        rw [g2] at g4
        cases g4
    simp only
    split
    · exact ⟨h, fun _ _ _ c hc => by cases hc⟩
    · split
      · exact ⟨h, fun _ _ _ c hc => by cases hc⟩
      · exact ⟨h, fun _ _ _ c hc => by cases hc⟩
      · split
        · exact ⟨h, fun _ _ _ c hc => by cases hc⟩
        · have h1 := hev w l.other arg h
          split
          · rename_i w1 e he
            rw [he] at h1
            exact ⟨h1, fun _ _ _ c hc => by cases hc⟩
          · rename_i w1 c he
            rw [he] at h1
            split
            · exact ⟨h1, fun _ _ _ c hc => by cases hc⟩
            · split
              · exact ⟨h1, fun _ _ _ c hc => by cases hc⟩
              · split
                · exact ⟨h1, fun _ _ _ c hc => by cases hc⟩
                · rename_i codes hco
                  have hp : (r, name) ≠ p := by
                    rintro rfl
                    obtain ⟨l', g1, _, g3⟩ := h1
                    simp [g1, g3] at hco
                  refine ⟨?_, fun l' t' hc => ?_⟩
                  · split
                    · exact h1
                    · rw [asSeries_fst]
                      exact resolve_ungrouped _ (by simp [hp, ht]) _ _ h1
                  · simp only [Except.ok.injEq, Prod.mk.injEq, List.cons.injEq] at hc
                    exact absurd hc.2.1.symm hp

theorem called_ungrouped {r : Nat} {name : Str} (hev : EvUngrouped ev r name) (py : Bool) : EvUngrouped (called ev py) r name := by
  cases py with
  | false => exact hev
  | true =>
    intro w o e h
    show Ungrouped (orColumn ev w o e).1 r name
    unfold orColumn
    split
    · split
      · split <;> exact h
      · exact hev _ _ _ h
    · exact hev _ _ _ h

/-- the calls after which the groups may be there: `compute_indexers` on the frame, and making the link again -/
def Regroups (r : Nat) (name : Str) : LOp V → Prop
  | .computeIndexers q _ => q = r
  | .linkTo q _ n _ => q = r ∧ n = name
  | _ => False

theorem push_ungrouped {w : LWorld V} {r : Nat} {name : Str} (h : Ungrouped w r name) (f : LFrame V) : Ungrouped (w.push f) r name := by
  obtain ⟨l, h1, h2⟩ := h
  have hr : r < w.frames.length := by
    by_contra hc
    unfold LWorld.link? at h1
    rw [List.getElem?_eq_none (by omega)] at h1
    cases h1
  exact ⟨l, (push_link? hr name).trans h1, h2⟩

theorem derive_ungrouped {w : LWorld V} {r : Nat} {name : Str} (h : Ungrouped w r name) (q : Nat) (g : LFrame V → Except Err (LFrame V)) :
    Ungrouped (w.derive q g).1 r name := by
  unfold LWorld.derive
  split
  · exact h
  · split
    · exact h
    · exact push_ungrouped h _

theorem setFrame_ungrouped {w : LWorld V} {r : Nat} {name : Str} (h : Ungrouped w r name) (q : Nat) (g : LFrame V → LFrame V)
    (hg : ∀ f, q = r → dictGet (g f).links name = dictGet f.links name) : Ungrouped (w.setFrame q g) r name := by
  obtain ⟨l, h1, h2⟩ := h
  refine ⟨l, ?_, h2⟩
  unfold LWorld.link? LWorld.setFrame at *
  simp only [List.getElem?_modify]
  cases hf : w.frames[r]? with
  | none => rw [hf] at h1; cases h1
  | some f =>
    rw [hf] at h1
    by_cases hq : q = r
    · simp only [if_pos hq]
      exact (hg f hq).trans h1
    · simp only [if_neg hq]; exact h1

theorem lstep_ungrouped {w : LWorld V} {r : Nat} {name : Str} (hev : EvUngrouped ev r name) (h : Ungrouped w r name) (op : LOp V)
    (hop : ¬ Regroups r name op) : Ungrouped (lstep E isid ev w op).1 r name := by
  cases op with
  | new => exact push_ungrouped h _
  | linkTo q o n a =>
    show Ungrouped (E.linkTo isid w q o n a).1 r name
    unfold LEnv.linkTo
    split
    · exact h
    · split
      · split
        · exact h
        · split
          · exact h
          · refine setFrame_ungrouped h _ _ (fun f hq => ?_)
            simp only
            rw [dictGet_dictSet, if_neg]
            rintro rfl
            exact hop ⟨hq, rfl⟩
      · exact h
  | lookup q path col => exact lookup_ungrouped h q path col
  | aggregate py q path func arg fill => exact (aggregate_ungrouped (called_ungrouped hev py) h q path func arg fill).1
  | select => exact derive_ungrouped h _ _
  | finalized => exact derive_ungrouped h _ _
  | grouped => exact derive_ungrouped h _ _
  | copy => exact derive_ungrouped h _ _
  | computeIndexers q refresh =>
    have hq : q ≠ r := hop
    show Ungrouped (E.computeIndexers w q refresh).1 r name
    unfold LEnv.computeIndexers
    split
    · exact h
    · rename_i f hf
      split
      · exact h
      · generalize f.links.map (·.1) = ns
        clear hf
        induction ns generalizing w with
        | nil => exact h
        | cons n ns ih =>
          unfold LEnv.computeLinks
          split
          · exact h
          · split
            · split
              · exact h
              · apply ih
                exact setFrame_ungrouped h _ _ (fun f hq' => absurd hq' hq)
            · exact ih h
  | setColumn q col c =>
    show Ungrouped (w.setColumn q col c).1 r name
    unfold LWorld.setColumn
    split
    · exact h
    · split
      · exact setFrame_ungrouped h _ _ (fun _ _ => rfl)
      · exact h
  | setColumnFill q col v =>
    show Ungrouped (w.setColumnFill q col v).1 r name
    unfold LWorld.setColumnFill
    split
    · exact h
    · split
      · exact h
      · split
        · exact setFrame_ungrouped h _ _ (fun _ _ => rfl)
        · exact h
  | setFill q kvs =>
    simp only [lstep]
    unfold LWorld.changeFill
    split
    · exact h
    · split
      · exact h
      · split
        · exact h
        · exact setFrame_ungrouped h _ _ (fun _ _ => rfl)
  | tempFill q kvs =>
    simp only [lstep]
    unfold LWorld.changeFill
    split
    · exact h
    · split
      · exact h
      · split
        · exact h
        · exact setFrame_ungrouped h _ _ (fun _ _ => rfl)
  | resetFill q =>
    simp only [lstep]
    unfold LWorld.changeFill
    split
    · exact h
    · split
      · exact h
      · split
        · exact h
        · exact setFrame_ungrouped h _ _ (fun _ _ => rfl)

theorem lrun_ungrouped {r : Nat} {name : Str} (hev : EvUngrouped ev r name) (ops : List (LOp V)) (hops : ∀ op ∈ ops, ¬ Regroups r name op) :
    ∀ w, Ungrouped w r name → Ungrouped (lrun E isid ev w ops) r name := by
  induction ops with
  | nil => intro w h; exact h
  | cons op ops ih =>
    intro w h
    exact ih (fun o ho => hops o (by simp [ho])) _ (lstep_ungrouped hev h op (hops op (by simp)))

theorem linkTo_ungrouped {w w0 : LWorld V} {r o : Nat} {name : Str} {a : LinkArgs}
    (h0 : E.linkTo isid w r o name { a with precompute := false } = (w0, .ok true)) : Ungrouped w0 r name := by
  unfold LEnv.linkTo at h0
  split at h0
  · cases h0
  · rename_i ss os hsp
    split at h0
    · rename_i f g hf hg
      split at h0
      · cases h0
      · split at h0
        · cases h0
        · rename_i l hl
          simp only [Prod.mk.injEq, Except.ok.injEq] at h0
          obtain ⟨rfl, hagg⟩ := h0
          refine ⟨l, ?_, hagg, ?_⟩
          · unfold LWorld.link? LWorld.setFrame
            simp only [List.getElem?_modify, hf, if_true]
            exact (dictGet_dictSet _ _ _ _).trans (if_pos rfl)
          · unfold LEnv.createLink at hl
            split at hl
            · cases hl
            · split at hl
              · cases hl
              · split at hl
                · cases hl
                · split at hl
                  · cases hl
                  · simp only [Bool.false_eq_true, if_false, Except.ok.injEq] at hl
                    rw [← hl]
    · cases h0

/-- **C48** fails for every aggregated link: if `link_to(precompute=False)` makes an aggregated link, then, whatever was done before and whatever is done afterwards
(except calling `compute_indexers` on the frame or making the link again), no aggregation through the link ever succeeds. -/
theorem C48_never_refuted {r : Nat} {name : Str} (hev : EvUngrouped ev r name) {w w0 : LWorld V} {o : Nat} {a : LinkArgs}
    (h0 : E.linkTo isid w r o name { a with precompute := false } = (w0, .ok true))
    (ops : List (LOp V)) (hops : ∀ op ∈ ops, ¬ Regroups r name op) (py : Bool) (func : Str) (arg : PExpr) (intFill : V) (c : LCol V) :
    (E.aggregate (called ev py) (lrun E isid ev w0 ops) r [name] func arg intFill).2 ≠ .ok c := by
  have h := lrun_ungrouped (E := E) (isid := isid) hev ops hops w0 (linkTo_ungrouped h0)
  obtain ⟨l, h1, h2, h3⟩ := h
  refine (aggregate_ungrouped (called_ungrouped hev py) ⟨l, h1, h2, h3⟩ r [name] func arg intFill).2 l [] ?_ c
  simp [LWorld.walk, h1]

/-- the evaluator of the package satisfies the hypothesis -/
theorem argEval_ungrouped {F : Type} (K : EvEnv V F) (E : LEnv V) (r : Nat) (name : Str) : EvUngrouped (K.argEval E) r name := by
  have hchain : ∀ ev, EvUngrouped ev r name → ∀ w q root ch, Ungrouped w r name → Ungrouped (K.chain E ev w q root ch).1 r name := by
    intro ev hev w q root ch h
    unfold EvEnv.chain
    split
    · exact (aggregate_ungrouped hev h _ _ _ _ _).1
    · exact lookup_ungrouped h _ _ _
    · exact h
  have hchains : ∀ ev, EvUngrouped ev r name → ∀ q (xs : List (Str × Str × Chain)) w ld, Ungrouped w r name →
      Ungrouped (K.bindChains E ev q w xs ld).1 r name := by
    intro ev hev q xs
    induction xs with
    | nil => intro w ld h; exact h
    | cons x xs ih =>
      intro w ld h
      obtain ⟨sub, root, ch⟩ := x
      unfold EvEnv.bindChains
      split
      · exact h
      · have h1 := hchain ev hev w q root ch h
        split
        · rename_i w1 e he; rw [he] at h1; exact h1
        · rename_i w1 c he
          rw [he] at h1
          split
          · exact h1
          · exact ih _ _ h1
  have hwith : ∀ ev, EvUngrouped ev r name → ∀ w q e ld, Ungrouped w r name → Ungrouped (K.evalWith E ev w q e ld).1 r name := by
    intro ev hev w q e ld h
    unfold EvEnv.evalWith
    split
    · exact h
    · split
      · exact h
      · split
        · exact h
        · split
          · exact h
          · rename_i s e' hv _ ld' hb
            have h1 := fun xs => hchains ev hev q xs w ld' h
            split
            · rename_i w1 er he; have h2 := h1 (Spec.subs s); rw [he] at h2; exact h2
            · rename_i w1 ld1 he; have h2 := h1 (Spec.subs s); rw [he] at h2; exact h2
  have hN : ∀ k, EvUngrouped (K.evalN E k) r name := by
    intro k
    induction k with
    | zero => intro w o e h; exact h
    | succ k ih =>
      intro w o e h
      have h1 := hwith _ ih w o e [] h
      show Ungrouped (K.orPandas o e (K.evalWith E (K.evalN E k) w o e [])).1 r name
      generalize K.evalWith E (K.evalN E k) w o e [] = x at h1
      unfold EvEnv.orPandas
      split
      · split <;> exact h1
      · exact h1
  intro w o e h
  exact hN _ w o e h

/-- the link from the households to their persons -/
example : ∃ w0, lxE.linkTo lxId (lrun lxE lxId lxEv lxE.start lxNew) 1 2 lxP { onOther := some [lxH], precompute := false } = (w0, .ok true) ∧
    ∀ (ops : List (LOp Int)), (∀ op ∈ ops, ¬ Regroups 1 lxP op) → ∀ c,
      (lxE.aggregate (orColumn lxEv) (lrun lxE lxId lxEv w0 ops) 1 [lxP] ['s', 'u', 'm'] (.name lxH) 0).2 ≠ .ok c := by
  refine ⟨(lxE.linkTo lxId (lrun lxE lxId lxEv lxE.start lxNew) 1 2 lxP { onOther := some [lxH], precompute := false }).1, ?_, fun ops hops c => ?_⟩
  · exact Prod.ext rfl (by decide)
  · exact C48_never_refuted (a := { onOther := some [lxH] }) (isid := lxId) (ev := lxEv) (w := lrun lxE lxId lxEv lxE.start lxNew) (o := 2)
      (fun w o e h => h) (Prod.ext rfl (by decide)) ops hops true _ _ _ c

end Cheval
