import Verif.Props.Runs
import Verif.Props.Reserved

/-!
# C37: NaN utilities are reported, and stay
-/
namespace Cheval
open Spec FOps
variable {U F : Type} [FOps F]

/-- where a successful evaluation comes from -/
theorem evaluate_ok {K : Kernel F} {m m' : CModel U F} {c : Container} {u : Tab F} (h : m.evaluate K c = (m', .ok u)) :
    hasNan u = false ∧ (∃ ix, m'.cached = some (ix, u)) ∧ (∀ us, m.units = some us → u.rows = us.length) ∧
    ∃ labels, choices m.tree = .ok labels ∧ u.cols = labels.length := by
  unfold CModel.evaluate at h
  split at h
  · cases h
  · cases h
  · rename_i units labels hu hl
    rcases hp : m.partialUtilities with ⟨m1, r⟩
    rw [hp] at h
    cases r with
    | error e => cases h
    | ok p =>
      obtain ⟨ix, u0⟩ := p
      simp only at h
      cases hs : symLocals m1.scope c.simple with
      | error e => rw [hs] at h; cases h
      | ok syms =>
        rw [hs] at h
        simp only at h
        rcases he : evalLoop K m1.scope labels syms c.exprs u0 with ⟨u1, r⟩
        rw [he] at h
        cases r with
        | error e => cases h
        | ok _ =>
          simp only at h
          split at h
          · cases h
          · rename_i hn
            split at h
            · cases h
            · rename_i hsz
              cases h
              push Not at hsz
              exact ⟨by simpa using hn, ⟨ix, rfl⟩, fun us hus => by rw [hu] at hus; cases hus; exact hsz.1, labels, hl, hsz.2⟩

/-- **C37** A run that succeeds returns a table without NaN, one row per decision unit and one column per choice, which is the
table the model keeps. -/
theorem C37_success (K : Kernel F) (m m' : CModel U F) (g : Option Nat) (clear : Bool) (u : Tab F)
    (h : m.runUtilities K g clear = (m', .ok u)) :
    (∀ i j, i < u.rows → j < u.cols → isNan (u.val i j) = false) ∧ (∃ ix, m'.cached = some (ix, u)) ∧
    (∃ us, m.units = some us ∧ u.rows = us.length) ∧ ∃ labels, choices m.tree = .ok labels ∧ u.cols = labels.length := by
  unfold CModel.runUtilities at h
  split at h
  · cases h
  · cases h
  · rename_i c hv hc
    rcases he : m.evaluate K c with ⟨m1, r⟩
    rw [he] at h
    cases r with
    | error e => cases h
    | ok u1 =>
      simp only at h
      have hu : u1 = u := by cases h; rfl
      have hm : m' = if clear then m1.clearScope else m1 := by cases h; rfl
      subst hu
      obtain ⟨h1, ⟨ix, h2⟩, h3, h4⟩ := evaluate_ok he
      obtain ⟨_, ⟨us, hus⟩, _⟩ := validate_parts hc hv
      refine ⟨?_, ⟨ix, ?_⟩, ⟨us, hus, h3 us hus⟩, h4⟩
      · intro i j hi hj
        by_contra hh
        have := (hasNan_iff u1).mpr ⟨i, j, hi, hj, by simpa using hh⟩
        rw [h1] at this; cases this
      · rw [hm]; cases clear
        · exact h2
        · exact h2

/-- the table the model keeps has a NaN cell -/
def Poisoned (m : CModel U F) : Prop := ∃ ix u i j, m.cached = some (ix, u) ∧ i < u.rows ∧ j < u.cols ∧ isNan (u.val i j) = true

theorem validateTree_error {st : TreeSt F} {e : Err} (h : validateTree st = .error e) : e = .modelNotReady := by
  unfold validateTree at h
  split at h
  · cases h; rfl
  · split at h <;> cases h; rfl

theorem choices_not_bounds {st : TreeSt F} (h : choices st = .error .utilityBounds) : False := by
  unfold choices at h
  simp only [bind, Except.bind] at h
  split at h
  · rename_i e hv; have := validateTree_error hv; subst this; cases h
  · split at h
    · rename_i e hd
      cases h
      unfold depth at hd
      split at hd <;> cases hd
    · split at h <;> cases h

omit [FOps F] in
theorem checkSymbols_error {scope : List (Str × Sym F)} {a : Bool} {l : List Str} {e : Err} (h : checkSymbols scope a l = .error e) :
    e = .modelNotReady := by
  induction l with
  | nil => cases h
  | cons x xs ih =>
    unfold checkSymbols at h
    split at h
    · exact ih h
    · split at h
      · cases h; rfl
      · split at h
        · cases h; rfl
        · exact ih h

theorem validate_not_bounds {m : CModel U F} {g : Option Nat} (h : m.validate true true true true g = .error .utilityBounds) : False := by
  unfold CModel.validate at h
  simp only [bind, Except.bind, if_true, Bool.not_true, Bool.and_self, Bool.false_eq_true, if_false] at h
  split at h
  · rename_i e hv; have := validateTree_error hv; subst this; cases h
  · split at h
    · rename_i e hd
      cases h
      unfold CModel.decisionUnits at hd
      split at hd <;> cases hd
    · split at h
      · rename_i e hc
        cases h
        cases g with
        | none => cases hc
        | some k =>
          simp only [CModel.container, ExprGroup.getGroup] at hc
          cases hd : dictGet m.exprs.subgroups k <;> simp [hd, Except.map] at hc
      · have := checkSymbols_error h; cases this

/-- **C37** UtilityBoundsError is raised only if a utility is NaN: then the table has a NaN cell (which the model keeps). Look-ups
in the assigned tables must not raise this error themselves. -/
theorem C37_error (K : Kernel F) (m m' : CModel U F) (ht : TablesNever .utilityBounds m.scope) (g : Option Nat) (clear : Bool)
    (h : m.runUtilities K g clear = (m', .error .utilityBounds)) : Poisoned m' := by
  unfold CModel.runUtilities at h
  split at h
  · rename_i e hv
    exfalso
    cases h
    exact validate_not_bounds hv
  · rename_i e hv hc
    exfalso
    cases h
    cases g with
    | none => cases hc
    | some k =>
      simp only [CModel.container, ExprGroup.getGroup] at hc
      cases hd : dictGet m.exprs.subgroups k <;> simp [hd, Except.map] at hc
  · rename_i c hv hc
    obtain ⟨hvt, ⟨us, hus⟩, hchk⟩ := validate_parts hc hv
    rcases he : m.evaluate K c with ⟨m1, r⟩
    rw [he] at h
    cases r with
    | ok u => cases h
    | error e =>
      simp only at h
      cases h
      unfold CModel.evaluate at he
      rw [hus] at he
      cases hch : choices m.tree with
      | error e =>
        rw [hch] at he
        cases he
        exact (choices_not_bounds hch).elim
      | ok labels =>
        rw [hch] at he
        simp only at he
        obtain ⟨t, hk⟩ := partialUtilities_keeps m
        rcases hp : m.partialUtilities with ⟨m2, r⟩
        rw [hp] at he hk
        simp only at hk
        cases r with
        | error e =>
          exfalso
          unfold CModel.partialUtilities at hp
          have : m.validate true true false false none = .ok () := by
            simp [CModel.validate, bind, Except.bind, hvt, CModel.decisionUnits, hus]
          simp only [this, CModel.decisionUnits, hus, hch] at hp
          cases hc' : m.cached <;> rw [hc'] at hp <;> cases hp
        | ok p =>
          obtain ⟨ix, u0⟩ := p
          subst hk
          simp only at he
          cases hsl : symLocals m.scope c.simple with
          | error e =>
            rw [hsl] at he
            cases he
            have := symLocals_error hsl fun x hx hr => by
              obtain ⟨s, h1, h2⟩ := checkSymbols_ok hchk x (List.mem_append_left _ hx) hr
              exact ⟨s, h1, h2 rfl⟩
            cases this
          | ok syms =>
            rw [hsl] at he
            simp only at he
            have hnev := evalLoop_never K (by decide) ht (labels := labels) (syms := syms) c.exprs u0
            rcases hl : evalLoop K m.scope labels syms c.exprs u0 with ⟨u1, r⟩
            rw [hl] at he hnev
            cases r with
            | error e => simp only at he hnev; cases he; exact (hnev rfl).elim
            | ok _ =>
              simp only at he
              split at he
              · rename_i hn
                cases he
                obtain ⟨i, j, hi, hj, hh⟩ := (hasNan_iff u1).mp hn
                exact ⟨ix, u1, i, j, rfl, hi, hj, hh⟩
              · split at he <;> cases he

/-- **C37** On a consistent model whose expressions can be evaluated: the run raises UtilityBoundsError if the specified utility of
some decision unit and choice is NaN, and succeeds if none is. -/
theorem C37_iff (K : Kernel F) {env : PyEnv} {py : PyParser} {m : CModel U F} {paths : List (List Name)} {depth : Nat} {units : List U}
    (hm : Consistent m paths depth units) (hheld : Held env py m.exprs) {g : Option Nat} {c : Container} (hc : m.container g = .ok c)
    (hv : m.validate true true true true g = .ok ()) {srcs : List Source}
    (hready : List.Forall₂ (Ready env m.scope paths depth) srcs c.exprs)
    (htab : ∀ y ∈ c.simple, ∀ o ma al t, dictGet m.scope y ≠ some (.table o ma al t))
    (hval : ∀ i j (_ : i < units.length) (hj : j < paths.length), (cellTotal K m.scope paths[j] i j srcs (startAt m i j)).isSome)
    (clear : Bool) :
    ((m.runUtilities K g clear).2 = .error .utilityBounds ↔ ∃ i j, ∃ (_ : i < units.length) (hj : j < paths.length), ∃ v,
      cellTotal K m.scope paths[j] i j srcs (startAt m i j) = some v ∧ isNan v = true) ∧
    ((∃ u, (m.runUtilities K g clear).2 = .ok u) ↔ ∀ i j (_ : i < units.length) (hj : j < paths.length) v,
      cellTotal K m.scope paths[j] i j srcs (startAt m i j) = some v → isNan v = false) := by
  classical
  obtain ⟨u, _, _, h3, h4, _⟩ := C35_sum K hm hheld hc hv hready htab hval clear
  by_cases hn : ∃ i j, i < units.length ∧ j < paths.length ∧ isNan (u.val i j) = true
  · rw [if_pos hn] at h4
    obtain ⟨i, j, hi, hj, hn⟩ := hn
    rw [h4]
    refine ⟨⟨fun _ => ⟨i, j, hi, hj, _, (h3 i j hi hj).symm, hn⟩, fun _ => rfl⟩, ⟨(by rintro ⟨u, h⟩; cases h), fun h => ?_⟩⟩
    rw [h i j hi hj _ (h3 i j hi hj).symm] at hn
    cases hn
  · rw [if_neg hn] at h4
    rw [h4]
    refine ⟨⟨(by rintro h; cases h), ?_⟩, ⟨fun _ => ?_, fun _ => ⟨u, rfl⟩⟩⟩
    · rintro ⟨i, j, hi, hj, v, h, hv⟩
      rw [← h3 i j hi hj] at h
      cases h
      exact (hn ⟨i, j, hi, hj, hv⟩).elim
    · intro i j hi hj v h
      rw [← h3 i j hi hj] at h
      cases h
      by_contra hh
      exact hn ⟨i, j, hi, hj, by simpa using hh⟩

/-- NaN + anything = NaN -/
def NanAbsorbing (K : Kernel F) : Prop := ∀ a v b, isNan a = true → K.acc a v = some b → isNan b = true

def PoisonedTab (u : Tab F) : Prop := ∃ i j, i < u.rows ∧ j < u.cols ∧ isNan (u.val i j) = true

theorem evalExpr_poison {K : Kernel F} (hK : NanAbsorbing K) {scope : List (Str × Sym F)} {labels : List (List Name)}
    {syms : List (Str × Local F)} {u u' : Tab F} {x : Expression} (h : evalExpr K scope labels syms u x = .ok u') (hp : PoisonedTab u) :
    PoisonedTab u' := by
  unfold evalExpr at h
  simp only [bind, Except.bind] at h
  split at h
  · cases h
  rename_i mask _
  split at h
  · cases h
  split at h
  · cases h
  rename_i d hd
  unfold kernelEval at h
  split at h
  · cases h
  split at h
  · cases h
    obtain ⟨i, j, hi, hj, hn⟩ := hp
    refine ⟨i, j, hi, hj, ?_⟩
    simp only
    split
    · cases hc : newCell K x.transformed d u mask i j with
      | none => exact hn
      | some b =>
        unfold newCell at hc
        rw [Option.bind_eq_some_iff] at hc
        obtain ⟨v, _, hv⟩ := hc
        exact hK _ _ _ hn hv
    · exact hn
  · cases h

theorem evalLoop_poison {K : Kernel F} (hK : NanAbsorbing K) {scope : List (Str × Sym F)} {labels : List (List Name)}
    {syms : List (Str × Local F)} : ∀ (xs : List Expression) (u : Tab F), PoisonedTab u → PoisonedTab (evalLoop K scope labels syms xs u).1
  | [], u, hp => hp
  | x :: xs, u, hp => by
    unfold evalLoop
    cases hx : evalExpr K scope labels syms u x with
    | error e => exact hp
    | ok u' => exact evalLoop_poison hK xs u' (evalExpr_poison hK hx hp)

theorem evaluate_poison {K : Kernel F} (hK : NanAbsorbing K) {m : CModel U F} (hp : Poisoned m) (c : Container) :
    Poisoned (m.evaluate K c).1 ∧ ∀ u, (m.evaluate K c).2 ≠ .ok u := by
  obtain ⟨ix, u, i, j, hc, hi, hj, hn⟩ := hp
  have hp : Poisoned m := ⟨ix, u, i, j, hc, hi, hj, hn⟩
  unfold CModel.evaluate
  split
  · exact ⟨hp, by simp⟩
  · exact ⟨hp, by simp⟩
  · have hpu : m.partialUtilities = (m, .ok (ix, u)) ∨ ∃ e, m.partialUtilities = (m, .error e) := by
      unfold CModel.partialUtilities
      split
      · exact .inr ⟨_, rfl⟩
      · exact .inr ⟨_, rfl⟩
      · exact .inr ⟨_, rfl⟩
      · rw [hc]; exact .inl rfl
    rename_i units labels hus hl
    rcases hpu with hpu | ⟨e, hpu⟩
    · rw [hpu]
      simp only
      cases symLocals m.scope c.simple with
      | error e => exact ⟨hp, by simp⟩
      | ok syms =>
        simp only
        have hl := evalLoop_poison hK (scope := m.scope) (labels := labels) (syms := syms) c.exprs u ⟨i, j, hi, hj, hn⟩
        rcases he : evalLoop K m.scope labels syms c.exprs u with ⟨u1, r⟩
        rw [he] at hl
        obtain ⟨i', j', hi', hj', hn'⟩ := hl
        cases r with
        | error e => exact ⟨⟨ix, u1, i', j', rfl, hi', hj', hn'⟩, by simp⟩
        | ok _ =>
          have : hasNan u1 = true := (hasNan_iff u1).mpr ⟨i', j', hi', hj', hn'⟩
          simp only [this, if_true]
          exact ⟨⟨ix, u1, i', j', rfl, hi', hj', hn'⟩, by simp⟩
    · rw [hpu]; exact ⟨hp, by simp⟩

/-- calls that do not discard the kept table or rows of it -/
def KeepsTable : ModelOp U F → Prop
  | .addChoice _ _ => False
  | .addChoices _ _ => False
  | .copy _ _ _ _ utilities => utilities = true
  | .copySubset _ _ => False
  | _ => True

theorem run_poison {K : Kernel F} (hK : NanAbsorbing K) {m : CModel U F} (hp : Poisoned m) (g : Option Nat) (clear : Bool) :
    Poisoned (m.runUtilities K g clear).1 ∧ ∀ u, (m.runUtilities K g clear).2 ≠ .ok u := by
  unfold CModel.runUtilities
  split
  · exact ⟨hp, by simp⟩
  · exact ⟨hp, by simp⟩
  · rename_i c _ _
    obtain ⟨h1, h2⟩ := evaluate_poison hK hp c
    rcases he : m.evaluate K c with ⟨m1, r⟩
    rw [he] at h1 h2
    cases r with
    | error e => exact ⟨h1, by simp⟩
    | ok u => exact (h2 u rfl).elim

/-- adding to NaN gives NaN, as in IEEE arithmetic -/
def NanAdd (F : Type) [FOps F] : Prop := ∀ a b : F, isNan a = true → isNan (add a b) = true

/-- a NaN in the table survives the parallel addition, whatever the schedule: an iteration that stores to the cell has loaded it before -/
theorem addLoop_poison (hA : NanAdd F) {N : Nat} {loc : Nat → Nat × Nat} {a : Nat → F} {mem out : Nat × Nat → F}
    (h : AddLoop N loc a mem out) {l : Nat × Nat} (hl : isNan (mem l) = true) : isNan (out l) = true := by
  obtain ⟨s, hs, rfl⟩ := h
  suffices key : ∀ (ts : List (List AddOp)) (s : List AddOp), Interleaving ts s → ∀ st : AddSt F, isNan (st.mem l) = true →
      (∀ i t, ts[i]? = some t → t = [] ∨ t = [.load i, .store i] ∨ (t = [.store i] ∧ (loc i = l → isNan (st.reg i) = true))) →
      isNan ((s.foldl (addStep loc a) st).mem l) = true by
    refine key _ s hs _ hl ?_
    intro i t ht
    rw [List.getElem?_map] at ht
    obtain ⟨x, hx, rfl⟩ := Option.map_eq_some_iff.mp ht
    obtain ⟨hi, rfl⟩ := List.getElem?_eq_some_iff.mp hx
    rw [List.getElem_range]
    exact .inr (.inl rfl)
  intro ts s hs
  induction hs with
  | nil ts h => intro st h1 _; exact h1
  | step ts i x rest s hget hrest ih =>
    intro st h1 h2
    simp only [List.foldl_cons]
    have hi : i < ts.length := (List.getElem?_eq_some_iff.mp hget).1
    have hset : ∀ j t, (ts.set i rest)[j]? = some t → (j = i ∧ t = rest) ∨ (j ≠ i ∧ ts[j]? = some t) := by
      intro j t hj
      by_cases hji : j = i
      · subst hji
        rw [List.getElem?_set_self hi] at hj
        exact .inl ⟨rfl, (Option.some.inj hj).symm⟩
      · rw [List.getElem?_set_ne (Ne.symm hji)] at hj
        exact .inr ⟨hji, hj⟩
    rcases h2 i _ hget with h | h | ⟨h, hr⟩
    · cases h
    · simp only [List.cons.injEq] at h
      obtain ⟨rfl, rfl⟩ := h
      refine ih _ h1 ?_
      intro j t hj
      rcases hset j t hj with ⟨rfl, rfl⟩ | ⟨hne, hj⟩
      · refine .inr (.inr ⟨rfl, fun hl => ?_⟩)
        simp only [addStep, upd, if_true, hl]
        exact h1
      · rcases h2 j t hj with h | h | ⟨h, hr⟩
        · exact .inl h
        · exact .inr (.inl h)
        · refine .inr (.inr ⟨h, fun hl => ?_⟩)
          simp only [addStep, upd, if_neg hne]
          exact hr hl
    · simp only [List.cons.injEq] at h
      obtain ⟨rfl, rfl⟩ := h
      refine ih _ ?_ ?_
      · simp only [addStep]
        split
        · rename_i hl
          exact hA _ _ (hr hl.symm)
        · exact h1
      · intro j t hj
        rcases hset j t hj with ⟨rfl, rfl⟩ | ⟨hne, hj⟩
        · exact .inl rfl
        · rcases h2 j t hj with h | h | ⟨h, hr⟩
          · exact .inl h
          · exact .inr (.inl h)
          · exact .inr (.inr ⟨h, hr⟩)

/-- `add_partial_utilities` does not remove a NaN -/
theorem addPartial_poison [DecidableEq U] (hA : NanAdd F) {m : CModel U F} (hp : Poisoned m) {tb : Table U (List Name) F} {rr rc : Bool}
    {out : CModel U F × Except Err Unit} (h : m.AddPartial tb rr rc out) : Poisoned out.1 := by
  obtain ⟨ix, u, i, j, hc, hi, hj, hn⟩ := hp
  have hp : Poisoned m := ⟨ix, u, i, j, hc, hi, hj, hn⟩
  unfold CModel.AddPartial at h
  split at h
  · subst h; exact hp
  · subst h; exact hp
  · split at h
    · subst h; exact hp
    · split at h
      · subst h; exact hp
      · split at h
        · subst h; exact hp
        · have hpu : m.partialUtilities = (m, .ok (ix, u)) ∨ ∃ e, m.partialUtilities = (m, .error e) := by
            unfold CModel.partialUtilities
            split
            · exact .inr ⟨_, rfl⟩
            · exact .inr ⟨_, rfl⟩
            · exact .inr ⟨_, rfl⟩
            · rw [hc]; exact .inl rfl
          rcases hpu with hpu | ⟨e, hpu⟩
          · rw [hpu] at h
            simp only at h
            obtain ⟨r, hr, h⟩ := h
            cases r with
            | error e => simp only at h; subst h; exact hp
            | ok mem =>
              simp only at h
              subst h
              unfold FastIndexedAdd at hr
              split at hr
              · cases hr
              · cases hr
              · obtain ⟨mm, hm, hr⟩ := hr
                cases hm
                exact ⟨ix, _, i, j, rfl, hi, hj, addLoop_poison hA hr (l := (i, j)) hn⟩
          · rw [hpu] at h
            simp only at h
            subst h; exact hp

theorem step_poison [DecidableEq U] {K : Kernel F} (hK : NanAbsorbing K) (hA : NanAdd F) (env : PyEnv) (py : PyParser) {m : CModel U F} (hp : Poisoned m)
    (op : ModelOp U F) (hop : KeepsTable op) : Poisoned (modelStep K env py m op) := by
  cases op with
  | setUnits u => exact hp
  | declare n s =>
    simp only [modelStep, CModel.declare]
    split <;> exact hp
  | assign n d =>
    simp only [modelStep, CModel.assign]
    split
    · exact hp
    · split <;> exact hp
  | clearScope => exact hp
  | expr op => exact hp
  | addChoice n s => exact hop.elim
  | addNested h n s => exact hp
  | addChoices ns ss => exact hop.elim
  | setScale h v => exact hp
  | setExpressions ts => exact hp
  | setExpressionsText t => exact hp
  | addPartial tb rr rc out =>
    simp only [modelStep]
    split
    · rename_i h; exact addPartial_poison hA hp h
    · exact hp
  | setPrecision i =>
    simp only [modelStep, CModel.setPrecision]
    split <;> exact hp
  | run g c => exact (run_poison hK hp g c).1
  | preval k d c =>
    simp only [modelStep, CModel.preval]
    split
    · exact hp
    · exact hp
    · rename_i sg _ _
      obtain ⟨h1, h2⟩ := evaluate_poison hK hp ⟨sg.simple, sg.chained, sg.exprs⟩
      rcases he : m.evaluate K ⟨sg.simple, sg.chained, sg.exprs⟩ with ⟨m1, r⟩
      rw [he] at h1 h2
      cases r with
      | error e => exact h1
      | ok u => exact (h2 u rfl).elim
  | copy a b c d e =>
    have he : e = true := hop
    subst he
    simp only [modelStep]
    cases hc : m.copy a b c d true with
    | error er => exact hp
    | ok m' =>
      obtain ⟨sc, _, rfl⟩ := copy_ok hc
      have : (⟨m.tree, if d then m.exprs.copy else ExprGroup.empty, sc, if a || c then m.units else none,
            if true then m.cached else none, m.precision⟩ : CModel U F).cached = m.cached := rfl
      obtain ⟨ix, u, i, j, h⟩ := hp
      exact ⟨ix, u, i, j, this ▸ h⟩
  | copySubset ix mask => exact hop.elim

/-- **C37** (violated: "a failed run leaves the model usable") Once a run has left a NaN in the kept table, no later run, of any
group, succeeds again, whatever is assigned, declared, added or removed in between, `add_partial_utilities` included: until a top-level choice is added or a copy
without utilities is made. -/
theorem C37_stuck [DecidableEq U] (K : Kernel F) (hK : NanAbsorbing K) (hA : NanAdd F) (env : PyEnv) (py : PyParser) (m : CModel U F) (hp : Poisoned m)
    (ops : List (ModelOp U F)) (hops : ∀ op ∈ ops, KeepsTable op) (g : Option Nat) (clear : Bool) (u : Tab F) :
    ((modelRun K env py m ops).runUtilities K g clear).2 ≠ .ok u := by
  have : Poisoned (modelRun K env py m ops) := by
    unfold modelRun
    induction ops generalizing m with
    | nil => exact hp
    | cons op ops ih =>
      exact ih _ (step_poison hK hA env py hp op (hops op (by simp))) (fun o ho => hops o (by simp [ho]))
  exact (run_poison hK this g clear).2 u

/-! ## example: assigning NaN, running, and repairing the data -/

/-- `x` = NaN for unit 7, 200 for unit 8 -/
noncomputable def badVector : Nat → Val XR := fun i => if i = 0 then .num .nan else .num (.fin 200)
noncomputable def goodVector : Nat → Val XR := fun i => .num (.fin (100 * (i + 1)))

def emIndex : List (Lab Nat) := [.unit 7, .unit 8]

noncomputable def badScope : List (Str × Sym XR) :=
  [(exX, .vector false (some (shapeVector false 2 badVector))), (exT, .table true [] true (some emTable))]

noncomputable def badModel (env : PyEnv) : CModel Nat XR := { emModel env with scope := badScope }

theorem em_assign_bad (env : PyEnv) : (emModel env).assign exX (.series emIndex (.ok badVector)) = (badModel env, .ok ()) := by
  have hs : (emModel env).scope = emScope := rfl
  have hu : (emModel env).units = some [7, 8] := rfl
  have hl : (emModel env).labels false = .ok emIndex := by
    simp [CModel.labels, CModel.decisionUnits, hu, Except.map, emIndex]
  have hset : dictSet emScope exX (.vector false (some (shapeVector false 2 badVector))) = badScope := by
    simp [dictSet, emScope, badScope]; decide
  simp only [CModel.assign, hs, em_getx, Sym.assign, hl, bind, Except.bind]
  simp only [ne_eq, not_true_eq_false, if_false, Except.map, badModel]
  rw [show emIndex.length = 2 from rfl, hset]

theorem bad_getx : dictGet badScope exX = some (.vector false (some (shapeVector false 2 badVector))) := by simp [dictGet, badScope]
theorem bad_get : dictGet badScope exT = some (.table true [] true (some emTable)) := by
  simp [dictGet, badScope, show ¬ exX = exT by decide]

theorem bad_lookup : lookupCol badScope exT [exA] none = some (true, fun j => .num (.fin j)) := by
  simp [lookupCol, bad_get, emTable]

theorem bad_ready1 (env : PyEnv) : Ready env badScope emPaths 2 (.name exX, none) emExpr1 :=
  let h := em_ready1 env
  ⟨h.parsed, h.plain, h.filter, h.clash, h.internal, fun t ls sub ch h => by simp [emExpr1] at h, h.dicts⟩

theorem bad_ready2 (env : PyEnv) : Ready env badScope emPaths 2 (.attr (.name exT) exA, some emFilter) emExpr2 := by
  have h := em_ready2 env
  refine ⟨h.parsed, h.plain, h.filter, h.clash, h.internal, ?_, h.dicts⟩
  intro t ls sub ch h1 h2
  simp only [emExpr2, List.mem_singleton, Prod.mk.injEq] at h1
  obtain ⟨rfl, rfl⟩ := h1
  simp only [List.mem_singleton, Prod.mk.injEq] at h2
  obtain ⟨rfl, rfl⟩ := h2
  exact ⟨by simp [bad_lookup], by simp⟩

theorem bad_consistent (env : PyEnv) : Consistent (badModel env) emPaths 2 [7, 8] := by
  have h := em_consistent env
  refine ⟨h.unitsEq, h.choices, ?_, h.cached⟩
  intro e he
  simp only [badModel, badScope, List.mem_cons, List.not_mem_nil, or_false] at he
  rcases he with rfl | rfl
  · exact ⟨rfl, rfl⟩
  · exact rfl

theorem bad_container (env : PyEnv) : (badModel env).container none = .ok ⟨[exX], [exT, exT], [emExpr1, emExpr2]⟩ := em_container env

theorem bad_valid (env : PyEnv) : (badModel env).validate true true true true none = .ok () := by
  have h1 : exX ∉ reserved := by decide
  have h2 : exT ∉ reserved := by decide
  have ht : (badModel env).tree = after exampleOps := rfl
  have hs : (badModel env).scope = badScope := rfl
  have hu : (badModel env).units = some [7, 8] := rfl
  have hc : (badModel env).container none = (emModel env).container none := rfl
  simp [CModel.validate, ht, exampleOps_valid, hs, hc, em_container, CModel.decisionUnits, hu, checkSymbols, h1, h2, bad_get, bad_getx,
    Sym.filled, bind, Except.bind]

theorem bad_total (M : Arith XR) (i j : Nat) (_ : i < 2) (hj : j < emPaths.length) :
    ∃ v, cellTotal (emKernel M) badScope emPaths[j] i j emSrcs (.fin 0) = some v ∧ (i = 0 → v = .nan) := by
  have hx : isNanName exX = false := by decide
  have h1 : exX ≠ nanStr := by decide
  have h2 : exX ≠ outStr := by decide
  have h3 : exX ≠ negInfStr := by decide
  have s1 : cellStep (emKernel M) badScope emPaths[j] i j (.fin 0) (.name exX, none) = some (if i = 0 then .nan else .fin 200) := by
    simp only [cellStep, filterMeans, if_true, den, hx, Bool.false_eq_true, if_false]
    have hv : (cellEnv (emKernel M) badScope emPaths[j] (.fin 0) i j).sym exX = some (badVector i) := by
      simp [cellEnv, h1, h2, h3, bad_getx, symAt, shapeVector]
    rw [hv]
    by_cases hi : i = 0
    · simp only [badVector, hi, emKernel, if_true, Option.bind_some]; rfl
    · simp [badVector, hi, emKernel]
  have s2 : ∀ cur : XR, ∃ v, cellStep (emKernel M) badScope emPaths[j] i j cur (.attr (.name exT) exA, some emFilter) = some v ∧
      (cur = .nan → v = .nan) := by
    intro cur
    have hd : den (emKernel M).toArith (cellEnv (emKernel M) badScope emPaths[j] cur i j) (.attr (.name exT) exA) = some (.num (.fin j)) := by
      simp [den, dotted, cellEnv, bad_lookup]
    by_cases hf : filterMeans emPaths[j] (some emFilter) = true
    · have ha : ∀ x, (emKernel M).acc cur (.num x) = some (add cur x) := fun _ => rfl
      refine ⟨add cur (.fin j), ?_, ?_⟩
      · simp only [cellStep, hf, if_true, hd, Option.bind_some, ha]
      · rintro rfl; rfl
    · exact ⟨cur, by simp [cellStep, hf], id⟩
  obtain ⟨v, hv, hn⟩ := s2 (if i = 0 then .nan else .fin 200)
  refine ⟨v, ?_, fun hi => hn (by simp [hi])⟩
  have : cellTotal (emKernel M) badScope emPaths[j] i j emSrcs (.fin 0) =
      (cellStep (emKernel M) badScope emPaths[j] i j (.fin 0) (.name exX, none)).bind fun b =>
      (cellStep (emKernel M) badScope emPaths[j] i j b (.attr (.name exT) exA, some emFilter)) := by
    simp [cellTotal, emSrcs, List.foldlM, bind, pure]
  rw [this, s1, Option.bind_some, hv]

theorem nanAdd_XR : NanAdd XR := by
  intro a b h
  cases a <;> simp_all [isNan, XR.isNan, add, XR.add]

theorem em_absorbing (M : Arith XR) : NanAbsorbing (emKernel M) := by
  intro a v b ha hb
  cases v with
  | num x =>
    have : b = add a x := by simpa [emKernel] using hb.symm
    subst this
    cases a <;> simp [isNan, FOps.isNan, XR.isNan] at ha
    rfl
  | _ => simp [emKernel] at hb

/-- **C37** (violated) A NaN in the data of `x` is reported. After assigning the correct data, which alone give a successful run
(`em_run`), the run fails again, although the model validates and its data have no NaN. -/
theorem C37_refuted (env : PyEnv) (py : PyParser) (M : Arith XR) :
    ((emModel env).assign exX (.series emIndex (.ok badVector))).2 = .ok () ∧
    ((badModel env).runUtilities (emKernel M) none false).2 = .error .utilityBounds ∧
    ∀ (g : Option Nat) (u : Tab XR),
      ((modelRun (emKernel M) env py (emModel env) [.assign exX (.series emIndex (.ok badVector)), .run none false,
        .assign exX (.series emIndex (.ok goodVector))]).runUtilities (emKernel M) g false).2 ≠ .ok u := by
  have h0 : ∀ i j, startAt (badModel env) i j = .fin 0 := fun _ _ => rfl
  have hsc : (badModel env).scope = badScope := rfl
  have hval : ∀ i j (_ : i < 2) (hj : j < emPaths.length), (cellTotal (emKernel M) (badModel env).scope emPaths[j] i j emSrcs
      (startAt (badModel env) i j)).isSome := by
    intro i j hi hj
    obtain ⟨v, h, _⟩ := bad_total M i j hi hj
    rw [h0, hsc, h]; rfl
  obtain ⟨ix, u, h1, h2, h3, _, _, h5⟩ := run_sound (emKernel M) (bad_consistent env) (em_held env) (bad_container env) (bad_valid env)
    (srcs := emSrcs) (.cons (bad_ready1 env) (.cons (bad_ready2 env) .nil)) (by
      intro y hy o ma al t h
      rw [List.mem_singleton] at hy
      subst hy
      rw [hsc, bad_getx] at h
      cases h) hval false
  have hnan : isNan (u.val 0 0) = true := by
    obtain ⟨v, h, hv⟩ := bad_total M 0 0 (by omega) (by decide)
    have := h3 0 0 (by decide) (by decide)
    rw [h0, hsc, h] at this
    rw [Option.some.inj this, hv rfl]
    rfl
  have hn : hasNan u = true := (hasNan_iff u).mpr ⟨0, 0, by rw [h1]; decide, by rw [h2]; decide, hnan⟩
  rw [if_pos hn] at h5
  refine ⟨by rw [em_assign_bad], by rw [h5], fun g w => ?_⟩
  have hrun : modelRun (emKernel M) env py (emModel env) [.assign exX (.series emIndex (.ok badVector)), .run none false,
        .assign exX (.series emIndex (.ok goodVector))] =
      modelRun (emKernel M) env py { badModel env with cached := some (ix, u) } [.assign exX (.series emIndex (.ok goodVector))] := by
    simp only [modelRun, List.foldl_cons, List.foldl_nil]
    have e1 : modelStep (emKernel M) env py (emModel env) (.assign exX (.series emIndex (.ok badVector))) = badModel env := by
      simp only [modelStep, em_assign_bad]
    have e2 : modelStep (emKernel M) env py (badModel env) (.run none false) = { badModel env with cached := some (ix, u) } := by
      simp only [modelStep, h5]
    rw [e1, e2]
  rw [hrun]
  exact C37_stuck (emKernel M) (em_absorbing M) nanAdd_XR env py _ ⟨ix, u, 0, 0, rfl, by rw [h1]; decide, by rw [h2]; decide, hnan⟩
    [.assign exX (.series emIndex (.ok goodVector))] (by intro op hop; rw [List.mem_singleton] at hop; subst hop; trivial) g false w

end Cheval
