import Verif.Core.ModelHistory
import Verif.Props.ExampleModel

/-!
# C30-C34: the scope
-/
namespace Cheval
open Spec FOps
variable {U F : Type} [FOps F]

/-! ## C30 -/

theorem checkSymbols_iff (scope : List (Str × Sym F)) (l : List Str) :
    checkSymbols scope true l = if (∀ x ∈ l, x ∉ reserved → ∃ s, dictGet scope x = some s ∧ s.filled = true) then .ok () else .error .modelNotReady := by
  induction l with
  | nil => simp [checkSymbols]
  | cons x l ih =>
    unfold checkSymbols
    by_cases hx : x ∈ reserved
    · rw [if_pos hx, ih]
      congr 1
      simp [hx]
    · rw [if_neg hx]
      cases hd : dictGet scope x with
      | none =>
        rw [if_neg]
        intro h
        obtain ⟨s, hs, _⟩ := h x (by simp) hx
        rw [hd] at hs; cases hs
      | some s =>
        simp only [Bool.true_and]
        cases hf : s.filled with
        | false =>
          simp only [Bool.not_false, if_true]
          rw [if_neg]
          intro h
          obtain ⟨s', hs, hf'⟩ := h x (by simp) hx
          rw [hd] at hs; cases hs; rw [hf] at hf'; cases hf'
        | true =>
          simp only [Bool.not_true, Bool.false_eq_true, if_false]
          rw [ih]
          congr 1
          simp only [List.mem_cons, forall_eq_or_imp, eq_iff_iff]
          exact ⟨fun h => ⟨fun _ => ⟨s, hd, hf⟩, h⟩, fun h => h.2⟩

open Classical in
/-- **C30** On a model with a valid tree, decision units and (if a group is named) an existing group, `validate` succeeds iff every
symbol recorded in the container, other than the reserved words, is declared and assigned; otherwise it raises
ModelNotReadyError. -/
theorem C30_validate (m : CModel U F) (g : Option Nat) (c : Container) (ht : validateTree m.tree = .ok ()) (u : List U)
    (hu : m.units = some u) (hc : m.container g = .ok c) :
    m.validate true true true true g =
      if (∀ x, x ∈ c.simple ∨ x ∈ c.chained → x ∉ reserved → ∃ s, dictGet m.scope x = some s ∧ s.filled = true) then .ok ()
      else .error .modelNotReady := by
  have := checkSymbols_iff m.scope (c.simple ++ c.chained)
  simp only [List.mem_append] at this
  simp only [CModel.validate, ht, CModel.decisionUnits, hu, hc, bind, Except.bind, if_true, Bool.not_true, Bool.and_self,
    Bool.false_eq_true, if_false]
  rw [this]

/-- errors of table look-ups: those of the data, never "not ready" -/
def TablesReady (scope : List (Str × Sym F)) : Prop :=
  ∀ n o ma al t, dictGet scope n = some (.table o ma al (some t)) →
    (∀ a, t.column a ≠ .error .modelNotReady) ∧ ∀ p f, t.walk p f ≠ .error .modelNotReady

omit [FOps F] in
theorem symLocals_error {scope : List (Str × Sym F)} {names : List Str} {e : Err} (h : symLocals scope names = .error e)
    (hn : ∀ x ∈ names, x ∉ reserved → ∃ s, dictGet scope x = some s ∧ s.filled = true) : e = .assertion := by
  unfold symLocals at h
  revert h
  suffices key : ∀ d : List (Str × Local F), names.foldlM (fun d name =>
      if name ∈ reserved ∨ name ∈ d.map (·.1) then (Except.ok d : Except Err (List (Str × Local F)))
      else match dictGet scope name with
        | none => Except.error Err.key
        | some s => s.get.map fun l => d ++ [(name, l)]) d = .error e → e = .assertion from key []
  intro d h
  induction names generalizing d with
  | nil => cases h
  | cons y ys ih =>
    rw [List.foldlM_cons] at h
    by_cases hc : y ∈ reserved ∨ y ∈ d.map (·.1)
    · rw [if_pos hc] at h
      exact ih (fun x hx => hn x (by simp [hx])) d h
    · rw [if_neg hc] at h
      obtain ⟨s, hs, hf⟩ := hn y (by simp) (fun h => hc (.inl h))
      simp only [hs] at h
      cases hg : s.get with
      | ok l =>
        simp only [hg, Except.map, bind, Except.bind] at h
        exact ih (fun x hx => hn x (by simp [hx])) _ h
      | error e' =>
        simp only [hg, Except.map, bind, Except.bind] at h
        cases h
        match s, hf, hg with
        | .number (some _), _, hg => cases hg
        | .vector _ (some _), _, hg => cases hg
        | .matrix _ _ _ _ (some _), _, hg => cases hg
        | .table _ _ _ (some _), _, hg => cases hg; rfl

omit [FOps F] in
theorem foldlM_error {α β : Type} (f : β → α → Except Err β) (P : Err → Prop) (l : List α)
    (hf : ∀ a ∈ l, ∀ d e, f d a = .error e → P e) : ∀ d e, l.foldlM f d = .error e → P e := by
  induction l with
  | nil => intro d e h; cases h
  | cons a l ih =>
    intro d e h
    rw [List.foldlM_cons] at h
    cases hfa : f d a with
    | error e' => rw [hfa] at h; cases h; exact hf a (by simp) d e hfa
    | ok d' => rw [hfa] at h; exact ih (fun b hb => hf b (by simp [hb])) d' e h

/-- errors raised by the evaluation itself -/
def plainErrors : List Err := [.assertion, .key, .type, .index, .value]

/-- look-ups in the assigned tables do not raise `er` -/
def TablesNever (er : Err) (scope : List (Str × Sym F)) : Prop :=
  ∀ n o ma al t, dictGet scope n = some (.table o ma al (some t)) → (∀ a, t.column a ≠ .error er) ∧ ∀ p f, t.walk p f ≠ .error er

omit [FOps F] in
theorem getChain_never {er : Err} {scope : List (Str × Sym F)} (her : er ∉ plainErrors) (ht : TablesNever er scope) {n : Str} {s : Sym F} (hs : dictGet scope n = some s) (ch : Chain) :
    s.getChain ch ≠ .error er := by
  intro h
  match s, hs, h with
  | .number _, _, h => first | (cases h; done) | (cases h; exact (her (by decide)).elim)
  | .vector _ _, _, h => first | (cases h; done) | (cases h; exact (her (by decide)).elim)
  | .matrix _ _ _ _ _, _, h => first | (cases h; done) | (cases h; exact (her (by decide)).elim)
  | .table o ma al none, _, h =>
    simp only [Sym.getChain] at h
    split at h <;> first | (simp at *; done) | (cases h; exact (her (by decide)).elim) | (rename_i hq; cases hq)
  | .table o ma al (some t), hs, h =>
    have := ht n o ma al t hs
    simp only [Sym.getChain] at h
    split at h
    · first | (cases h; done) | (cases h; exact (her (by decide)).elim)
    · rename_i t' heq
      cases heq
      split at h
      · cases hw : t.walk ch.path.reverse ch.func with
        | error e => rw [hw] at h; simp only [Except.map] at h; cases h; exact this.2 _ _ hw
        | ok f => rw [hw] at h; cases h
      · first | (cases h; done) | (cases h; exact (her (by decide)).elim)
    · first | (cases h; done) | (cases h; exact (her (by decide)).elim)
    · rename_i a t' _ heq
      cases heq
      cases hw : t.column a with
      | error e => rw [hw] at h; simp only [Except.map] at h; cases h; exact this.1 _ hw
      | ok f => rw [hw] at h; cases h
    · first | (cases h; done) | (cases h; exact (her (by decide)).elim)

omit [FOps F] in
theorem insertDictVal_error {labels : List (List Name)} {k : List Str} {v : ℚ} {arr : Nat → ℚ} {e : Err}
    (h : insertDictVal labels k v arr = .error e) : e = .assertion ∨ e = .key := by
  unfold insertDictVal at h
  simp only at h
  split at h
  · split at h
    · cases h; exact .inl rfl
    · split at h <;> cases h; exact .inr rfl
  · split at h
    · split at h
      · cases h; exact .inr rfl
      · split at h <;> cases h <;> exact .inr rfl
    · split at h <;> cases h; exact .inr rfl

omit [FOps F] in
theorem columnMask_error {labels : List (List Name)} {f : Option Str} {e : Err} (h : columnMask labels f = .error e) :
    e = .assertion ∨ e = .key := by
  cases f with
  | none => cases h
  | some f =>
    simp only [columnMask] at h
    split at h
    · split at h
      · cases h; exact .inl rfl
      · split at h <;> cases h; exact .inr rfl
    · split at h
      · cases h; exact .inl rfl
      · split at h <;> cases h; exact .inr rfl

theorem evalExpr_never {er : Err} (K : Kernel F) {scope : List (Str × Sym F)} (her : er ∉ plainErrors) (ht : TablesNever er scope) {labels : List (List Name)}
    {syms : List (Str × Local F)} {u : Tab F} {x : Expression} : evalExpr K scope labels syms u x ≠ .error er := by
  intro h
  unfold evalExpr at h
  simp only [bind, Except.bind] at h
  cases hm : columnMask labels x.filter with
  | error e =>
    rw [hm] at h; cases h
    rcases columnMask_error hm with h | h <;> subst h <;> exact her (by decide)
  | ok mask =>
    rw [hm] at h
    simp only at h
    cases hd1 : addDicts K labels (reservedLocals K u ++ syms) x.dicts with
    | error e =>
      rw [hd1] at h; cases h
      have := foldlM_error _ (fun e => e ≠ er) x.dicts (by
        intro a _ d e he hc
        subst hc
        cases hr : dictRow labels a.2 with
        | ok r => rw [hr] at he; cases he
        | error e =>
          rw [hr] at he
          cases he
          have := foldlM_error _ (fun e => e = .assertion ∨ e = .key) a.2 (fun a _ d e he => insertDictVal_error he) _ _ hr
          rcases this with h | h <;> subst h <;> exact her (by decide)) _ _ hd1
      exact this rfl
    | ok d1 =>
      rw [hd1] at h
      simp only at h
      cases hd2 : addChains scope d1 x.chains with
      | error e =>
        rw [hd2] at h; cases h
        have := foldlM_error _ (fun e => e ≠ er) x.chains (by
          intro a _ d e he hc
          subst hc
          cases hs : dictGet scope a.1 with
          | none => rw [hs] at he; cases he; exact her (by decide)
          | some s =>
            rw [hs] at he
            have := foldlM_error _ (fun e' => e' ≠ e) a.2 (by
              intro l _ d e2 he2 hc
              subst hc
              cases hg : s.getChain l.2 with
              | ok v => rw [hg] at he2; cases he2
              | error e' => rw [hg] at he2; cases he2; exact getChain_never her ht hs l.2 hg) _ _ he
            exact this rfl) _ _ hd2
        exact this rfl
      | ok d =>
        rw [hd2] at h
        simp only [kernelEval] at h
        split at h
        · first | (cases h; done) | (cases h; exact (her (by decide)).elim)
        · split at h <;> first | (cases h; done) | (cases h; exact (her (by decide)).elim)

theorem evalLoop_never {er : Err} (K : Kernel F) {scope : List (Str × Sym F)} (her : er ∉ plainErrors) (ht : TablesNever er scope) {labels : List (List Name)}
    {syms : List (Str × Local F)} : ∀ (xs : List Expression) (u : Tab F), (evalLoop K scope labels syms xs u).2 ≠ .error er
  | [], u => by simp [evalLoop]
  | x :: xs, u => by
    intro h
    unfold evalLoop at h
    cases hx : evalExpr K scope labels syms u x with
    | error e =>
      rw [hx] at h
      simp only at h
      cases h
      exact evalExpr_never K her ht hx
    | ok u' => rw [hx] at h; exact evalLoop_never K her ht xs u' h

theorem evalLoop_ready (K : Kernel F) {scope : List (Str × Sym F)} (ht : TablesReady scope) {labels : List (List Name)}
    {syms : List (Str × Local F)} (xs : List Expression) (u : Tab F) : (evalLoop K scope labels syms xs u).2 ≠ .error .modelNotReady :=
  evalLoop_never K (by decide) ht xs u

/-- **C30** After a successful `validate`, evaluation of the container never raises ModelNotReadyError; every symbol of the
expressions to be evaluated (other than reserved words) is found in the scope with data, so reading it raises no KeyError; reading the
simple symbols can only fail with AssertionError, when one of them is a table. -/
theorem C30_sound (K : Kernel F) {env : PyEnv} {py : PyParser} (m : CModel U F) (hh : Held env py m.exprs) (g : Option Nat) (c : Container)
    (hc : m.container g = .ok c) (hv : m.validate true true true true g = .ok ()) (ht : TablesReady m.scope) :
    (∀ x ∈ c.exprs, ∀ y, y ∈ x.symbols ∨ y ∈ x.chains.map (·.1) → y ∉ reserved → ∃ s, dictGet m.scope y = some s ∧ s.filled = true) ∧
    (∀ e, symLocals m.scope c.simple = .error e → e = .assertion) ∧
    (m.evaluate K c).2 ≠ .error .modelNotReady := by
  obtain ⟨hvt, ⟨us, hus⟩, hchk⟩ := validate_parts hc hv
  have hsym := checkSymbols_ok hchk
  obtain ⟨hrec1, hrec2, _⟩ := container_recorded hh hc
  have hloc : ∀ e, symLocals m.scope c.simple = .error e → e = .assertion := by
    intro e he
    exact symLocals_error he fun x hx hr => by
      obtain ⟨s, h1, h2⟩ := hsym x (List.mem_append_left _ hx) hr
      exact ⟨s, h1, h2 rfl⟩
  refine ⟨?_, hloc, ?_⟩
  · intro x hx y hy hr
    rcases hy with hy | hy
    · obtain ⟨s, h1, h2⟩ := hsym y (List.mem_append_left _ (hrec1 x hx y hy)) hr
      exact ⟨s, h1, h2 rfl⟩
    · obtain ⟨s, h1, h2⟩ := hsym y (List.mem_append_right _ (hrec2 x hx y hy)) hr
      exact ⟨s, h1, h2 rfl⟩
  · intro h
    have htree : ∃ labels, choices m.tree = .ok labels ∨ ∃ e, choices m.tree = .error e ∧ e ≠ .modelNotReady := by
      cases hch : choices m.tree with
      | ok l => exact ⟨l, .inl rfl⟩
      | error e =>
        refine ⟨[], .inr ⟨e, rfl, ?_⟩⟩
        rintro rfl
        unfold choices at hch
        simp only [hvt, bind, Except.bind] at hch
        split at hch
        · rename_i hd
          cases hch
          unfold depth at hd
          split at hd <;> cases hd
        · split at hch <;> cases hch
    unfold CModel.evaluate at h
    rw [hus] at h
    obtain ⟨labels, hl | ⟨e, hl, hne⟩⟩ := htree
    · rw [hl] at h
      simp only at h
      have hp : m.partialUtilities.2 ≠ .error .modelNotReady := by
        unfold CModel.partialUtilities
        have : m.validate true true false false none = .ok () := by
          simp [CModel.validate, bind, Except.bind, hvt, CModel.decisionUnits, hus]
        simp only [this, CModel.decisionUnits, hus, hl]
        cases m.cached <;> simp
      obtain ⟨t, hk⟩ := partialUtilities_keeps m
      rcases hpp : m.partialUtilities with ⟨m', r⟩
      rw [hpp] at hk hp h
      simp only at hk hp
      subst hk
      cases r with
      | error e => simp only at h; cases h; exact hp rfl
      | ok p =>
        obtain ⟨ix, u⟩ := p
        simp only at h
        cases hsl : symLocals m.scope c.simple with
        | error e =>
          rw [hsl] at h
          simp only at h
          cases h
          have := hloc _ hsl
          cases this
        | ok syms =>
          rw [hsl] at h
          simp only at h
          have hlp := evalLoop_ready K ht (labels := labels) (syms := syms) c.exprs u
          rcases he : evalLoop K m.scope labels syms c.exprs u with ⟨u', r⟩
          rw [he] at h hlp
          cases r with
          | error e => simp only at h hlp; cases h; exact hlp rfl
          | ok _ =>
            simp only at h
            split at h
            · cases h
            · split at h <;> cases h
    · rw [hl] at h
      simp only at h
      cases h
      exact hne rfl

end Cheval
