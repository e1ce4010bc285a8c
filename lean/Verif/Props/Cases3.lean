import Verif.Props.PartialRun
import Verif.Props.PrevalScope
import Verif.Props.Reachable
import Verif.Props.NestedLaws
import Verif.Props.Unchecked
import Verif.Props.SubsetRuns
import Verif.Props.Utilities
import Verif.Props.LawRunCases
import Verif.Props.Columns

/-!
# further cases that meet the hypotheses of the theorems
-/
namespace Cheval
open FOps Spec XR

/-- a table for unit 8 and an unknown choice -/
noncomputable def strangeTable : Table Nat (List Name) XR := ⟨[8], [[['A'], ['z']]], fun _ _ => .fin 5⟩

/-- C13_model_rejected: an unknown choice; and all units are not given while reindexing is off -/
example (env : PyEnv) : ∃ m' e, (emModel env).AddPartial strangeTable true true (m', .error e) ∧ ∀ i j, startAt m' i j = startAt (emModel env) i j := by
  obtain ⟨⟨m', r⟩, h⟩ := C13_total (emModel env) strangeTable true true
  obtain ⟨⟨e, rfl⟩, -, h2⟩ := C13_model_rejected (em_consistent env) exampleOps_valid strangeTable
    (.inr (.inl ⟨[['A'], ['z']], by simp [strangeTable], by simp [emPaths, pad]⟩)) h
  exact ⟨m', e, h, h2⟩

example (env : PyEnv) : ∃ m' e, (emModel env).AddPartial ptTable false true (m', .error e) ∧ ∀ i j, startAt m' i j = startAt (emModel env) i j := by
  obtain ⟨⟨m', r⟩, h⟩ := C13_total (emModel env) ptTable false true
  obtain ⟨⟨e, rfl⟩, -, h2⟩ := C13_model_rejected (em_consistent env) exampleOps_valid ptTable (.inr (.inr (.inl ⟨by simp [ptTable], rfl⟩))) h
  exact ⟨m', e, h, h2⟩

/-- what the two appends of the example leave -/
theorem em_follow (env : PyEnv) : follow env emPy ExprGroup.empty ⟨[], []⟩ emOps = ⟨[exX], [(1, [emText2])]⟩ := by
  have h1 : isNanName exX = false := by decide
  have h2 : splitFilter exX = .ok (exX, none) := by decide
  have h3 : splitFilter emText2 = .ok (exT, some emFilter) := by decide
  have h4 : emPy exX = .ok (.name exX) := rfl
  have h5 : emPy exT = .ok (.attr (.name exT) exA) := rfl
  have e1 : parse env emPy exX [] [] = (([exX], []), .ok emExpr1) := by
    simp [parse, h2, h4, visit, visitName, h1, setAdd, emExpr1]
  have hne : exT ≠ exX := by decide
  have e2 : parse env emPy emText2 [exX] [] = (([exX], [exT]), .ok emExpr2) := by
    simp [parse, h3, h5, visit, visitAttr, nameOfAttr, addChain, hne, setAdd, emExpr2, dictGet, dictSet, subName]
  simp only [follow, emOps, groupStep, ExprGroup.append, ExprGroup.empty, e1]
  have e3 : setUnion [exX] emExpr1.symbols = [exX] := by simp [setUnion, emExpr1, setAdd]
  have e4 : setUnion [] (emExpr1.chains.map (·.1)) = [] := by simp [setUnion, emExpr1]
  simp only [e3, e4, e2]
  simp [Texts.step, dictSet, dictGet]

/-- C35_texts: all expressions, group 1, and a group that does not exist -/
example (env : PyEnv) : (∃ c, (emModel env).container none = .ok c ∧ c.exprs.map (·.raw) = [exX, emText2]) ∧
    (∃ c, (emModel env).container (some 1) = .ok c ∧ c.exprs.map (·.raw) = [emText2]) ∧ (emModel env).container (some 2) = .error .key := by
  obtain ⟨-, h2, h3⟩ := C35_texts env emPy emOps (emModel env) rfl
  rw [em_follow] at h2 h3
  exact ⟨by simpa using h2, by simpa [dictGet] using h3 1, by simpa [dictGet] using h3 2⟩

/-- C39_uncopied_partial and C39_kept_partial -/
example (env : PyEnv) (M : Arith XR) (drop clean : Bool) : ((emModel env).preval (emKernel M) 1 drop clean).1.scope = emScope ∧
    dictGet ((emModel env).preval (emKernel M) 1 drop clean).1.scope exX = dictGet emScope exX := by
  refine ⟨C39_uncopied_partial (emKernel M) env emPy emOps (emModel env) rfl 1 drop clean, ?_⟩
  refine C39_kept_partial (emKernel M) (emModel env) (em_held env) 1 drop clean exX (.inl ⟨emExpr1, ?_, .inl ?_⟩)
  · have : (emModel env).exprs = _ := em_exprs env
    rw [this]; simp
  · simp [emExpr1]

/-- C38_unknown_group: there is no group 2 -/
example (env : PyEnv) (M : Arith XR) (drop clean : Bool) : (emModel env).preval (emKernel M) 2 drop clean = (emModel env, .error .key) := by
  refine (C38_unknown_group (emKernel M) (emModel env) 2 ?_ drop clean).2.2 ?_
  · have : (emModel env).exprs = _ := em_exprs env
    rw [this]; simp
  · have hu : (emModel env).units = some [7, 8] := rfl
    have ht : (emModel env).tree = after exampleOps := rfl
    simp [CModel.validate, ht, exampleOps_valid, CModel.decisionUnits, hu, bind, Except.bind]

/-- C80_translation: 3 more for the choices 0, 4 and 5 at the top -/
example (u : Nat → Util) : (nested (row deepTree.n fun i => if (deepTree.spec deepθ).parent i = none then (u i).map (· + 3) else u i) deepTree true true).map (·.1) =
    (nested (row deepTree.n u) deepTree true true).map (·.1) :=
  C80_translation deepTree_wf deepTree_scales true true u 3

/-- one nest, choice 0, with the choices 1 and 3; choice 2 outside; the nest has scale 1/2 -/
noncomputable def flatNest : Flat XR where
  n := 4
  parent i := if i = 1 ∨ i = 3 then 0 else -1
  level i := if i = 1 ∨ i = 3 then 1 else 0
  scale i := .fin (if i = 0 then 1 / 2 else 1)
  bottom i := decide (i ≠ 0)

noncomputable def flatθ : Nat → ℝ := fun i => if i = 0 then 1 / 2 else 1

theorem flatNest_wf : flatNest.WF where
  pos := by simp [flatNest]
  node := by
    intro i hi
    have hi : i < 4 := hi
    by_cases h : i = 1 ∨ i = 3
    · right; exact ⟨0, by simp [flatNest], by simp [flatNest, h], by simp [flatNest, h]⟩
    · left; simp [flatNest, h]
  bottom := by
    intro i hi
    have hi : i < 4 := hi
    by_cases h : i = 0
    · subst h; simp [flatNest]; exact ⟨1, by norm_num, by simp⟩
    · simp [flatNest, h]
      intro x hx
      split <;> omega

theorem flatNest_scales : flatNest.HasScales flatθ := fun i _ => ⟨by simp [flatNest, flatθ], by unfold flatθ; split <;> norm_num⟩

/-- C80_cross_two_levels: raising choice 1 does not raise choice 3 or choice 2 -/
example : ∃ p p' : Nat → ℝ, ∃ ls ls' terms terms',
    nested (row 4 fun _ => some 0) flatNest true true = .ok (arr 4 (fun i => .fin (p i)), ls, terms) ∧
    nested (row 4 (Function.update (fun _ => some 0) 1 (some 1))) flatNest true true = .ok (arr 4 (fun i => .fin (p' i)), ls', terms') ∧
    p' 3 ≤ p 3 ∧ p' 2 ≤ p 2 := by
  have hpar : ∀ i, (flatNest.spec flatθ).parent i = if i = 1 ∨ i = 3 then some 0 else none := by
    intro i
    by_cases h : i = 1 ∨ i = 3
    · simp only [Flat.spec, flatNest, if_pos h]; rfl
    · simp only [Flat.spec, flatNest, if_neg h]; rfl
  have hleaf : ∀ i, i < 4 → i ≠ 0 → (flatNest.spec flatθ).Leaf i := by
    intro i hi h0
    rw [spec_leaf flatNest_wf i hi]; simp [flatNest, h0]
  have hrun : ∀ u : Nat → Util, u 2 ≠ none → ∃ (p : Nat → ℝ) (ls : XR) (terms : List XR),
      nested (row 4 u) flatNest true true = .ok (arr 4 (fun i => .fin (p i)), ls, terms) := by
    intro u hu
    obtain ⟨p, ls, terms, h, _⟩ := C08_distribution flatNest_wf flatNest_scales true true u
      ⟨2, by simp [flatNest], hleaf 2 (by norm_num) (by norm_num), .top 2 (by simp [hpar]) hu⟩
    exact ⟨p, ls, terms, h⟩
  obtain ⟨p, ls, terms, h⟩ := hrun (fun _ => some 0) (by simp)
  obtain ⟨p', ls', terms', h'⟩ := hrun (Function.update (fun _ => some 0) 1 (some 1)) (by simp [Function.update])
  have hy : ∀ x : ℝ, (fun _ => some 0 : Nat → Util) 1 = some x → x ≤ 1 := by intro x hx; simp at hx; linarith
  have key : ∀ i, i < 4 → i ≠ 0 → i ≠ 1 → p' i ≤ p i := by
    intro i hi h0 h1
    refine C80_cross_two_levels flatNest_wf flatNest_scales (fun i _ => ?_) (fun i _ q hq => ?_) true true _ 1 (by simp [flatNest]) 1 hy
      p p' ls ls' terms terms' h h' i hi (hleaf i hi h0) fun ha => ?_
    · unfold flatθ; split <;> norm_num
    · rw [hpar] at hq ⊢
      split at hq
      · cases hq; simp
      · cases hq
    · cases ha with
      | self => exact h1 rfl
      | child _ q hq h2 =>
        rw [hpar] at hq
        split at hq
        · cases hq
          cases h2 with
          | child _ q hq _ => simp [hpar] at hq
        · cases hq
  exact ⟨p, p', ls, ls', terms, terms', h, h', key 3 (by norm_num) (by norm_num) (by norm_num), key 2 (by norm_num) (by norm_num) (by norm_num)⟩

/-- C67_rejected: a missing cell beside a text is a TypeError, a text that is not ASCII a ValueError -/
example (lost : Categories → List (Option Nat) → Except Err NpArr) :
    convertSeries lost (.objects [.text ['a'], .missing]) = .error .type ∧ convertSeries lost (.objects [.text ['a'], .text ['é']]) = .error .value := by
  constructor
  · rw [C67_rejected lost _ (by simp) (by rintro ⟨-, h⟩; obtain ⟨s, h, -⟩ := h .missing (by simp); cases h)]; rfl
  · rw [C67_rejected lost _ (by simp) (by
      rintro ⟨-, h⟩
      obtain ⟨s, h, h2⟩ := h (.text ['é']) (by simp)
      cases h
      exact absurd h2 (by simp [Ascii]))]; rfl

end Cheval
