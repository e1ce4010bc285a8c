import Verif.Props.DebugCalls

/-!
# C68: the shape of `debug_results` in every run, labels that occur twice, copies
-/
namespace Cheval
open Spec FOps
variable {U F : Type} [DecidableEq U] [FOps F]

theorem debugLoop_length (K : Kernel F) (scope : List (Str × Sym F)) (labels : List (List Name)) (syms : List (Str × Local F)) (l : RowLoc)
    (xs : List Expression) : ∀ (u : Tab F) (acc : List (Option (List F))) (u' : Tab F) (rows : List (Option (List F))),
    debugLoop K scope labels syms (some l) xs u acc = (u', .ok rows) → rows.length = acc.length + xs.length := by
  induction xs with
  | nil => intro u acc u' rows h; rw [debugLoop] at h; cases h; simp
  | cons x xs ih =>
    intro u acc u' rows h
    rw [debugLoop] at h
    split at h
    · cases h
    · dsimp only at h
      split at h
      · cases h
      · have := ih _ _ _ _ h
        simp only [List.length_append, List.length_cons, List.length_nil] at this
        simp only [List.length_cons]
        omega

theorem debugLoop_many (K : Kernel F) (scope : List (Str × Sym F)) (labels : List (List Name)) (syms : List (Str × Local F))
    (xs : List Expression) : ∀ (u : Tab F) (acc : List (Option (List F))) (u' : Tab F) (rows : List (Option (List F))),
    debugLoop K scope labels syms (some .many) xs u acc = (u', .ok rows) → rows = acc ++ List.replicate xs.length none := by
  induction xs with
  | nil => intro u acc u' rows h; rw [debugLoop] at h; cases h; simp
  | cons x xs ih =>
    intro u acc u' rows h
    rw [debugLoop] at h
    split at h
    · cases h
    · have := ih _ _ _ _ (by simpa [debugRow] using h)
      rw [this, List.length_cons, List.replicate_succ, List.append_assoc]
      rfl

omit [DecidableEq U] [FOps F] in
theorem debugFrame_ok {texts : List Str} {labels : List (List Name)} {rows : List (Option (List F))} {t : DebugTab F}
    (h : debugFrame texts labels rows = .ok t) : t.index = texts ∧ t.cols = labels ∧ t.rows.length = rows.length ∧
      ∀ r ∈ t.rows, r.length = labels.length := by
  unfold debugFrame at h
  split at h
  · rename_i hall
    cases h
    refine ⟨rfl, rfl, ?_, ?_⟩
    · simp only
      clear * - hall
      induction rows with
      | nil => rfl
      | cons r rows ih =>
        rw [List.all_cons, Bool.and_eq_true] at hall
        cases r with
        | none => simp at hall
        | some l => rw [List.filterMap_cons_some (f := id) rfl, List.length_cons, List.length_cons, ih hall.2]
    · intro r hr
      obtain ⟨o, ho, rfl⟩ := List.mem_filterMap.mp hr
      have := (List.all_eq_true.mp hall) _ ho
      simpa using this
  · cases h

theorem finish_results (d : DModel U F) (n m : Nat) (u : Tab F) : (d.finish n m u).1 = d := by
  unfold DModel.finish; split
  · rfl
  · split <;> rfl

/-- what a run that records leaves -/
def DebugShaped (d : DModel U F) (c : Container) (t : DebugTab F) : Prop :=
  t.index = c.exprs.map (·.raw) ∧ choices d.base.tree = .ok t.cols ∧ t.rows.length = c.exprs.length ∧ ∀ r ∈ t.rows, r.length = t.cols.length

theorem evaluate_results (truthy : U → Bool) (K : Kernel F) (d : DModel U F) (c : Container) :
    (d.evaluate truthy K c).1.results = d.results ∨ ∃ t, (d.evaluate truthy K c).1.results = some t ∧ DebugShaped d c t := by
  unfold DModel.evaluate
  split
  · exact .inl rfl
  · exact .inl rfl
  · rename_i units labels hu hl
    split
    · exact .inl rfl
    · rename_i loc hloc
      split
      · exact .inl rfl
      · split
        · exact .inl rfl
        · split
          · exact .inl rfl
          · rename_i u' rows hloop
            dsimp only
            split
            · left; rw [finish_results]
            · split
              · exact .inl rfl
              · rename_i l t ht
                right
                obtain ⟨h1, h2, h3, h4⟩ := debugFrame_ok ht
                refine ⟨t, by rw [finish_results], h1, by rw [h2]; exact hl, ?_, by rw [h2]; exact h4⟩
                rw [h3, debugLoop_length K _ _ _ _ _ _ _ _ _ hloop]; simp

/-- **C68 (shape)** Whatever the model and whatever the outcome of a run, `debug_results` afterwards is what it was before, or a table with one row
for each expression of the run, in order and labelled with its text, and in each row one value for each choice. -/
theorem C68_shape (truthy : U → Bool) (K : Kernel F) (d : DModel U F) (g : Option Nat) (clear : Bool) :
    (d.runUtilities truthy K g clear).1.results = d.results ∨
    ∃ c t, d.base.container g = .ok c ∧ (d.runUtilities truthy K g clear).1.results = some t ∧ t.index = c.exprs.map (·.raw) ∧
      choices d.base.tree = .ok t.cols ∧ t.rows.length = c.exprs.length ∧ ∀ r ∈ t.rows, r.length = t.cols.length := by
  unfold DModel.runUtilities
  split
  · exact .inl rfl
  · exact .inl rfl
  · rename_i c hv hc
    have h := evaluate_results truthy K d c
    rcases he : d.evaluate truthy K c with ⟨d', e | u⟩
    all_goals
      rw [he] at h
      rcases h with h | ⟨t, h, hr⟩
    · exact .inl h
    · exact .inr ⟨c, t, hc, h, hr⟩
    · left; cases clear <;> exact h
    · right; refine ⟨c, t, hc, ?_, hr⟩; cases clear <;> exact h

theorem getLoc_many {units : List U} {id : U} {p q : Nat} (hp : units[p]? = some id) (hq : units[q]? = some id) (hne : p ≠ q) :
    getLoc units id = .ok .many := by
  have hmem : ∀ k, units[k]? = some id → k ∈ (List.range units.length).filter fun k => decide (units[k]? = some id) := fun k hk =>
    List.mem_filter.mpr ⟨List.mem_range.mpr (List.getElem?_eq_some_iff.mp hk).1, by simp [hk]⟩
  unfold getLoc
  have h1 := hmem p hp
  have h2 := hmem q hq
  split
  · rename_i h; rw [h] at h1; cases h1
  · rename_i k h
    rw [h, List.mem_singleton] at h1 h2
    exact absurd (h1.trans h2.symm) hne
  · rfl

/-- **C68 (repeated labels), the part that fails** If the label `debug_id` stands for two decision units, no run of the model (with at least one
expression) succeeds, and `debug_results` stays what it was. -/
theorem C68_repeated_refuted {truthy : U → Bool} (K : Kernel F) {d : DModel U F} {units : List U} (hu : d.base.units = some units) {id : U}
    (hd : d.debugId = some id) (ht : truthy id = true) {p q : Nat} (hp : units[p]? = some id) (hq : units[q]? = some id) (hne : p ≠ q)
    (g : Option Nat) {c : Container} (hc : d.base.container g = .ok c) (hx : c.exprs ≠ []) (clear : Bool) :
    (∃ e, (d.runUtilities truthy K g clear).2 = .error e) ∧ (d.runUtilities truthy K g clear).1.results = d.results := by
  have key : (∃ e, (d.evaluate truthy K c).2 = .error e) ∧ (d.evaluate truthy K c).1.results = d.results := by
    unfold DModel.evaluate
    rw [hu]
    split
    · exact ⟨⟨_, rfl⟩, rfl⟩
    · exact ⟨⟨_, rfl⟩, rfl⟩
    · rename_i us labels hus hl
      cases hus
      simp only [debugLabel, hd, ht, if_true, getLoc_many hp hq hne, Except.map]
      split
      · exact ⟨⟨_, rfl⟩, rfl⟩
      · split
        · exact ⟨⟨_, rfl⟩, rfl⟩
        · split
          · exact ⟨⟨_, rfl⟩, rfl⟩
          · rename_i u' rows hloop
            have hr := debugLoop_many K _ _ _ _ _ _ _ _ hloop
            have hf : debugFrame (c.exprs.map (·.raw)) labels rows = .error .value := by
              rw [hr]
              obtain ⟨x, xs, hxs⟩ := List.exists_cons_of_ne_nil hx
              rw [hxs]
              simp [debugFrame, List.replicate_succ]
            simp only [hf]
            exact ⟨⟨_, rfl⟩, trivial⟩
  unfold DModel.runUtilities
  rw [hc]
  cases d.base.validate true true true true g with
  | error e => exact ⟨⟨e, rfl⟩, rfl⟩
  | ok _ =>
    simp only
    rcases he : d.evaluate truthy K c with ⟨d', e | u⟩
    · rw [he] at key; exact ⟨⟨e, rfl⟩, key.2⟩
    · rw [he] at key; obtain ⟨⟨e, h⟩, -⟩ := key; cases h

omit [DecidableEq U] in
/-- **C68 (copies)** A copy is the copy of the model without debugging; it has the `debug_id` of the original and no results. -/
theorem C68_copies (d : DModel U F) (units sd sa ex ut : Bool) :
    (∀ d', d.copy units sd sa ex ut = .ok d' → d.base.copy units sd sa ex ut = .ok d'.base ∧ d'.debugId = d.debugId ∧ d'.results = none) ∧
    ∀ e, d.copy units sd sa ex ut = .error e ↔ d.base.copy units sd sa ex ut = .error e := by
  unfold DModel.copy
  cases d.base.copy units sd sa ex ut with
  | error e => exact ⟨fun d' h => (by cases h), fun e' => (by simp [Except.map])⟩
  | ok m => exact ⟨fun d' h => (by cases h; exact ⟨rfl, rfl, rfl⟩), fun e' => (by simp [Except.map])⟩

/-- the example model with decision unit 7 twice -/
example (env : PyEnv) (M : Arith XR) (clear : Bool) :
    ∃ e, ((⟨{ emModel env with units := some [7, 7] }, some 7, none⟩ : DModel Nat XR).runUtilities numTruth (emKernel M) none clear).2 = .error e :=
  (C68_repeated_refuted (truthy := numTruth) (emKernel M) rfl rfl (by decide) (p := 0) (q := 1) rfl rfl (by decide) none (em_container env) (by simp) clear).1

end Cheval
