import Verif.Props.ExampleModel

/-!
# C27: choice filters
-/
namespace Cheval
open Spec FOps
variable {U F : Type}

private theorem isBlank_iff (c : Char) : isBlank c = true ↔ c ∈ whiteSpace := by
  simp [isBlank, whiteSpace]

private theorem strip_stripped (s : Str) : Stripped s (strip s) := by
  have hd : ∀ s : Str, ∃ l, s = l ++ s.dropWhile isBlank ∧ (∀ c ∈ l, c ∈ whiteSpace) ∧
      ∀ c, (s.dropWhile isBlank).head? = some c → c ∉ whiteSpace := by
    intro s
    refine ⟨s.takeWhile isBlank, (List.takeWhile_append_dropWhile).symm, ?_, ?_⟩
    · intro c hc
      have := List.all_takeWhile (p := isBlank) (l := s)
      rw [List.all_eq_true] at this
      exact (isBlank_iff c).mp (this c hc)
    · intro c hc hw
      have := List.head?_dropWhile_not isBlank s
      rw [hc] at this
      simp only at this
      rw [(isBlank_iff c).mpr hw] at this
      cases this
  obtain ⟨l, h1, h2, h3⟩ := hd s
  obtain ⟨r, h4, h5, h6⟩ := hd (s.dropWhile isBlank).reverse
  have e : s.dropWhile isBlank = strip s ++ r.reverse := by
    unfold strip
    rw [← List.reverse_append, ← h4, List.reverse_reverse]
  refine ⟨l, r.reverse, ?_, h2, ?_, ?_, ?_⟩
  · rw [List.append_assoc, ← e]; exact h1
  · intro c hc; exact h5 c (by simpa using hc)
  · intro c hc
    apply h3 c
    rw [e]
    cases hs : strip s with
    | nil => rw [hs] at hc; cases hc
    | cons x xs => rw [hs] at hc; simpa using hc
  · intro c hc
    apply h6 c
    unfold strip at hc
    rwa [List.getLast?_reverse] at hc

/-- the text without its surrounding white space is determined -/
theorem stripped_unique {s t t' : Str} (h : Stripped s t) (h' : Stripped s t') (hne : t ≠ []) (hne' : t' ≠ []) : t = t' := by
  have key : ∀ (l l' : Str) (x x' : Char) (y y' : Str), (∀ c ∈ l, c ∈ whiteSpace) → (∀ c ∈ l', c ∈ whiteSpace) → x ∉ whiteSpace →
      x' ∉ whiteSpace → l ++ x :: y = l' ++ x' :: y' → l = l' := by
    intro l
    induction l with
    | nil =>
      intro l' x x' y y' _ h' hx _ e
      cases l' with
      | nil => rfl
      | cons a l' =>
        simp only [List.nil_append, List.cons_append, List.cons.injEq] at e
        exact absurd (h' a (by simp)) (e.1 ▸ hx)
    | cons a l ih =>
      intro l' x x' y y' h h' hx hx' e
      cases l' with
      | nil =>
        simp only [List.nil_append, List.cons_append, List.cons.injEq] at e
        exact absurd (h a (by simp)) (e.1 ▸ hx')
      | cons b l' =>
        simp only [List.cons_append, List.cons.injEq] at e
        rw [e.1, ih l' x x' y y' (fun c hc => h c (by simp [hc])) (fun c hc => h' c (by simp [hc])) hx hx' e.2]
  obtain ⟨l, r, e, hl, hr, ht, hq⟩ := h
  obtain ⟨l', r', e', hl', hr', ht', hq'⟩ := h'
  obtain ⟨x, xs, rfl⟩ := List.exists_cons_of_ne_nil hne
  obtain ⟨x', xs', rfl⟩ := List.exists_cons_of_ne_nil hne'
  have e1 : l ++ x :: (xs ++ r) = l' ++ x' :: (xs' ++ r') := by
    have := e.symm.trans e'
    simpa using this
  have hll := key l l' x x' _ _ hl hl' (ht x rfl) (ht' x' rfl) e1
  subst hll
  have e2 := List.append_cancel_left e1
  obtain ⟨q, p, hp⟩ : ∃ q p, x :: xs = q ++ [p] := ⟨_, _, (List.dropLast_append_getLast hne).symm⟩
  obtain ⟨q', p', hp'⟩ : ∃ q p, x' :: xs' = q ++ [p] := ⟨_, _, (List.dropLast_append_getLast hne').symm⟩
  have e3 : (r.reverse ++ p :: q.reverse) = (r'.reverse ++ p' :: q'.reverse) := by
    have : (x :: xs) ++ r = (x' :: xs') ++ r' := e2
    rw [hp, hp'] at this
    have := congrArg List.reverse this
    simpa using this
  have hrr := key r.reverse r'.reverse p p' _ _ (by simpa using hr) (by simpa using hr')
    (hq p (by rw [hp]; simp)) (hq' p' (by rw [hp']; simp)) e3
  have hrr : r = r' := List.reverse_injective hrr
  subst hrr
  have : (x :: xs) ++ r = (x' :: xs') ++ r := e2
  exact List.append_cancel_right this

/-- **C27** No `@`: no filter. One `@`: what precedes it is the expression, what follows it the filter, both without
surrounding blanks. More: the text is rejected as unsupported syntax, wherever it is appended, and nothing changes. -/
theorem C27_split (e : Str) :
    (ats e = 0 → splitFilter e = .ok (e, none)) ∧
    (∀ a b, '@' ∉ a → '@' ∉ b → e = a ++ '@' :: b →
      ∃ x f, splitFilter e = .ok (x, some f) ∧ Stripped a x ∧ Stripped b f) ∧
    (2 ≤ ats e → ∀ (env : PyEnv) (py : PyParser) (g : ExprGroup) (k : Option Nat), g.append env py e k = (g, .error .unsupportedSyntax)) := by
  have hl := splitOn_length '@' e
  refine ⟨?_, ?_, ?_⟩
  · intro h
    unfold ats at h
    unfold splitFilter
    rw [h] at hl
    match hs : splitOn '@' e, hl with
    | [_], _ => simp
  · intro a b ha hb he
    have hsplit : splitOn '@' e = [a, b] := by
      rw [he]
      clear hl he
      induction a with
      | nil =>
        have : splitOn '@' b = [b] := by
          have h1 := splitOn_length '@' b
          rw [List.count_eq_zero.mpr hb] at h1
          have h2 := intercalate_splitOn '@' b
          match hs : splitOn '@' b, h1 with
          | [x], _ => rw [hs] at h2; simpa using h2
        simp [splitOn, this]
      | cons x a ih =>
        simp only [List.mem_cons, not_or] at ha
        obtain ⟨p, ps, h1, h2⟩ := splitOn_cons '@' x (a ++ '@' :: b) (Ne.symm ha.1)
        rw [ih ha.2] at h1
        obtain ⟨rfl, rfl⟩ := List.cons.inj h1
        exact h2
    exact ⟨strip a, strip b, by simp [splitFilter, hsplit], strip_stripped a, strip_stripped b⟩
  · intro h env py g k
    have hs : splitFilter e = .error .unsupportedSyntax := by
      unfold splitFilter
      unfold ats at h
      match hs : splitOn '@' e, hl with
      | [], hl => simp at hl
      | [_], hl => simp only [List.length_singleton] at hl; omega
      | [_, _], hl => simp only [List.length_cons, List.length_nil] at hl; omega
      | _ :: _ :: _ :: _, _ => rfl
    simp [ExprGroup.append, parse, hs]

example : splitFilter ("x + 1 @ A.b".toList) = .ok ("x + 1".toList, some "A.b".toList) ∧ 2 ≤ ats "x @ A @ B".toList := by decide

section
variable [FOps F]

theorem kernelEval_cells {K : Kernel F} {e : PExpr} {d : List (Str × Local F)} {u u' : Tab F} {mask : Option Nat}
    (h : kernelEval K e d u mask = .ok u') : u'.rows = u.rows ∧ u'.cols = u.cols ∧
      (∀ i j, applies mask j = false → u'.val i j = u.val i j) ∧
      (∀ i j, i < u.rows → j < u.cols → applies mask j = true → newCell K e d u mask i j = some (u'.val i j)) := by
  unfold kernelEval at h
  split at h
  · cases h
  · split at h
    · rename_i hall
      cases h
      refine ⟨rfl, rfl, ?_, ?_⟩
      · intro i j ha; simp [ha]
      · intro i j hi hj ha
        rw [List.all_eq_true] at hall
        have := hall i (List.mem_range.mpr hi)
        rw [List.all_eq_true] at this
        have := this j (List.mem_range.mpr hj)
        rw [ha] at this
        simp only [Bool.not_true, Bool.false_or] at this
        obtain ⟨v, hv⟩ := Option.isSome_iff_exists.mp this
        simp [hi, hj, ha, hv]
    · cases h

/-- **C27** Evaluating any expression with a filter, whatever it contains and whatever the scope: if the filter is the dotted
path of a choice, all cells of all other choices stay as they are, and the cells of the choice change as they would without
the filter, if that is possible. -/
theorem C27_confined (K : Kernel F) (scope : List (Str × Sym F)) (syms : List (Str × Local F)) {paths : List (List Name)} {depth : Nat}
    {labels : List (List Name)} (hL : Labelled paths depth labels) (x : Expression) (f : Str) (hf : x.filter = some f) (j : Nat)
    (hj : j < paths.length) (hfj : f = joinDots paths[j]) (u u' : Tab F) (h : evalExpr K scope labels syms u x = .ok u') :
    u'.rows = u.rows ∧ u'.cols = u.cols ∧ (∀ i k, k ≠ j → u'.val i k = u.val i k) ∧
    ∀ u'', evalExpr K scope labels syms u { x with filter := none } = .ok u'' → u.cols = paths.length →
      ∀ i, i < u.rows → u'.val i j = u''.val i j := by
  have hm := (columnMask_spec hL f).1 j hj hfj
  unfold evalExpr at h
  rw [hf, hm] at h
  simp only [bind, Except.bind] at h
  cases hd1 : addDicts K labels (reservedLocals K u ++ syms) x.dicts with
  | error er => rw [hd1] at h; cases h
  | ok d1 =>
    rw [hd1] at h
    simp only at h
    cases hd2 : addChains scope d1 x.chains with
    | error er => rw [hd2] at h; cases h
    | ok d =>
      rw [hd2] at h
      simp only at h
      obtain ⟨h1, h2, h3, h4⟩ := kernelEval_cells h
      refine ⟨h1, h2, ?_, ?_⟩
      · intro i k hk; exact h3 i k (by simp [applies, hk])
      · intro u'' hu'' hcols i hi
        unfold evalExpr at hu''
        simp only [columnMask, bind, Except.bind, hd1, hd2] at hu''
        obtain ⟨_, _, _, h4'⟩ := kernelEval_cells hu''
        have hj' : j < u.cols := by omega
        have e1 := h4 i j hi hj' (by simp [applies])
        have e2 := h4' i j hi hj' rfl
        unfold newCell at e1 e2
        cases hne : ne K.toArith (fun id => (dictGet d id).bind (Local.at none u.rows u.cols i j)) x.transformed with
        | none => rw [hne] at e2; simp at e2
        | some v =>
          have := ne_mono K.toArith _ (fun id => (dictGet d id).bind (Local.at (some j) u.rows u.cols i j)) (by
            intro id w hw
            cases hdi : dictGet d id with
            | none => rw [hdi] at hw; simp at hw
            | some l =>
              rw [hdi] at hw
              simp only [Option.bind_some] at hw ⊢
              cases l with
              | scalar v => exact hw
              | nothing => exact hw
              | array a =>
                simp only [Local.at, Arr.cell] at hw
                split at hw
                · rename_i hc
                  simp only [Local.at, Arr.cellOf]
                  rw [if_pos ⟨hc.1, by omega⟩]; exact hw
                · cases hw) _ v hne
          rw [this, Option.bind_some] at e1
          rw [hne, Option.bind_some] at e2
          rw [e1] at e2
          exact Option.some.inj e2

/-- **C27** A filter that is not the dotted path of a choice is rejected when the expression is evaluated, before anything is
computed: with KeyError, or AssertionError when it has more parts than the tree has levels. -/
theorem C27_unknown (K : Kernel F) (scope : List (Str × Sym F)) (syms : List (Str × Local F)) {paths : List (List Name)} {depth : Nat}
    {labels : List (List Name)} (hL : Labelled paths depth labels) (x : Expression) (f : Str) (hf : x.filter = some f)
    (hfj : ∀ p ∈ paths, f ≠ joinDots p) (u : Tab F) (xs : List Expression) :
    evalLoop K scope labels syms (x :: xs) u = (u, .error (if depth < f.count '.' + 1 then .assertion else .key)) := by
  have hm := (columnMask_spec hL f).2 hfj
  have : evalExpr K scope labels syms u x = .error (if depth < f.count '.' + 1 then .assertion else .key) := by
    unfold evalExpr
    rw [hf, hm]
    rfl
  rw [evalLoop, this]

end

/-- the hypotheses are met by the example model: filter `A.x` -/
example (env : PyEnv) : ∃ labels, choices (emModel env).tree = .ok labels ∧ Labelled emPaths 2 labels ∧ emExpr2.filter = some emFilter ∧
    emFilter = joinDots emPaths[2] := by
  obtain ⟨labels, h1, h2⟩ := (em_consistent env).choices
  exact ⟨labels, h1, h2, rfl, by decide⟩

end Cheval
