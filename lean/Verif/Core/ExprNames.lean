import Verif.Spec.ExprNames
import Verif.Core.ExprLemmas

/-! # What an accepted expression records -/
namespace Cheval
open Spec

/-- the recorded names of `s'` are those of `s` and the given ones -/
structure AddsNames (s s' : PSt) (si tb : List Str) : Prop where
  visited : ∀ x, x ∈ s'.visited ↔ x ∈ s.visited ∨ x ∈ si
  keys : ∀ x, x ∈ s'.chains.map (·.1) ↔ x ∈ s.chains.map (·.1) ∨ x ∈ tb

theorem AddsNames.refl (s : PSt) : AddsNames s s [] [] := ⟨by simp, by simp⟩

theorem AddsNames.trans {a b c : PSt} {s1 t1 s2 t2 : List Str} (h : AddsNames a b s1 t1) (h' : AddsNames b c s2 t2) :
    AddsNames a c (s1 ++ s2) (t1 ++ t2) :=
  ⟨fun x => by rw [h'.visited, h.visited, List.mem_append, or_assoc], fun x => by rw [h'.keys, h.keys, List.mem_append, or_assoc]⟩

theorem nameOfAttr_root : ∀ (e : PExpr) (name : Str) (path : List Str), nameOfAttr e = .ok (name, path) → rootName e = some name
  | .name id, name, path, h => by simp only [nameOfAttr, Except.ok.injEq, Prod.mk.injEq] at h; simp [rootName, h.1]
  | .attr e f, name, path, h => by
      simp only [nameOfAttr] at h
      split at h
      · rename_i a b hab
        simp only [Except.ok.injEq, Prod.mk.injEq] at h
        obtain ⟨rfl, rfl⟩ := h
        simpa [rootName] using nameOfAttr_root e _ _ hab
      · cases h
  | .num _, _, _, h => by simp [nameOfAttr] at h
  | .str _, _, _, h => by simp [nameOfAttr] at h
  | .bytes _, _, _, h => by simp [nameOfAttr] at h
  | .const _, _, _, h => by simp [nameOfAttr] at h
  | .unary _ _, _, _, h => by simp [nameOfAttr] at h
  | .bin _ _ _, _, _, h => by simp [nameOfAttr] at h
  | .boolop _ _ _, _, _, h => by simp [nameOfAttr] at h
  | .compare _ _ _ _, _, _, h => by simp [nameOfAttr] at h
  | .call _ _ _, _, _, h => by simp [nameOfAttr] at h
  | .dict _, _, _, h => by simp [nameOfAttr] at h
  | .banned _, _, _, h => by simp [nameOfAttr] at h
  | .display _, _, _, h => by simp [nameOfAttr] at h
  | .other _, _, _, h => by simp [nameOfAttr] at h

theorem addChain_adds {s s' : PSt} (hi : PInv s) {name : Str} {c : Chain} {e' : PExpr} (h : addChain s name c = (s', .ok e')) :
    AddsNames s s' [] [name] := by
  obtain ⟨_, _, ⟨_, _, h⟩ | ⟨_, k, _, _, _, h1, _, _, h2⟩⟩ := addChain_spec hi _ _ h
  · cases h
  · exact ⟨by simp [h1], by simpa using h2⟩

/-- calling something that is neither a name nor a dotted name -/
theorem visit_call_other (env : PyEnv) {f : PExpr} (h1 : ∀ n, f ≠ .name n) (h2 : ∀ e n, f ≠ .attr e n) (args kws : PList) (s : PSt) :
    visit env (.call f args kws) s = andThen (visit env f s) fun f' s => andThen (visitList env args s) fun args' s =>
      andThen (visitList env kws s) fun kws' s => (s, .ok (.call f' (.ofList args') (.ofList kws'))) := by
  rw [visit]
  · exact h1
  · exact h2

mutual
theorem visit_adds (env : PyEnv) : ∀ (e : PExpr) (s s1 : PSt) (e' : PExpr), PInv s → visit env e s = (s1, .ok e') →
    AddsNames s s1 (simpleNames e) (tableNames e)
  | .num x, s, s1, e', hi, hr => by
      rw [visit] at hr; cases hr; exact AddsNames.refl _
  | .bytes x, s, s1, e', hi, hr => by
      rw [visit] at hr; cases hr; exact AddsNames.refl _
  | .const x, s, s1, e', hi, hr => by
      rw [visit] at hr; cases hr; exact AddsNames.refl _
  | .str x, s, s1, e', hi, hr => by
      rw [visit] at hr; cases hr; exact AddsNames.refl _
  | .name n, s, s1, e', hi, hr => by
      rw [visit] at hr
      obtain ⟨_, _, ⟨hn, rfl, _⟩ | ⟨_, _, _, h⟩ | ⟨hn, _, _, _, _, h1, _, _, h2⟩⟩ := visitName_spec hi n hr
      · simp only [simpleNames, hn, if_true, tableNames]; exact AddsNames.refl _
      · cases h
      · exact ⟨by simpa [simpleNames, hn] using h2, by simp [h1, tableNames]⟩
  | .attr e f, s, s1, e', hi, hr => by
      rw [visit] at hr
      unfold visitAttr at hr
      split at hr
      · cases hr
      · rename_i name path hn
        have hroot := nameOfAttr_root _ _ _ hn
        simp only [rootName] at hroot
        have := addChain_adds hi hr
        simpa [simpleNames, tableNames, hroot] using this
  | .unary .not e, s, s1, e', hi, hr => by
      rw [visit] at hr
      obtain ⟨a, sa, h1, h2⟩ := andThen_ok hr
      cases h2
      simpa only [simpleNames, tableNames] using visit_adds env e _ _ _ hi h1
  | .unary .neg e, s, s1, e', hi, hr => by
      rw [visit] at hr; cases hr; exact AddsNames.refl _
  | .unary .pos e, s, s1, e', hi, hr => by simp [visit] at hr
  | .unary .invert e, s, s1, e', hi, hr => by simp [visit] at hr
  | .bin op l r, s, s1, e', hi, hr => by
      rw [visit] at hr
      obtain ⟨a, sa, h1, h2⟩ := andThen_ok hr
      obtain ⟨b, sb, h3, h4⟩ := andThen_ok h2
      cases h4
      have ia := (visit_inv env _ _ hi _ _ h1).1
      simpa only [simpleNames, tableNames] using (visit_adds env l _ _ _ hi h1).trans (visit_adds env r _ _ _ ia h3)
  | .boolop isAnd w ws, s, s1, e', hi, hr => by
      rw [visit] at hr
      obtain ⟨a, sa, h1, h2⟩ := andThen_ok hr
      obtain ⟨b, sb, h3, h4⟩ := andThen_ok h2
      cases h4
      have ia := (visit_inv env _ _ hi _ _ h1).1
      simpa only [simpleNames, tableNames] using (visit_adds env w _ _ _ hi h1).trans (visitList_adds env ws _ _ _ ia h3)
  | .compare l op r rest, s, s1, e', hi, hr => by
      rw [visit] at hr
      obtain ⟨a, sa, h1, h2⟩ := andThen_ok hr
      obtain ⟨b, sb, h3, h4⟩ := andThen_ok h2
      obtain ⟨ds, sd, h5, h6⟩ := andThen_ok h4
      cases h6
      have ia := (visit_inv env _ _ hi _ _ h1).1
      have ib := (visit_inv env _ _ ia _ _ h3).1
      simpa only [simpleNames, tableNames] using
        ((visit_adds env l _ _ _ hi h1).trans (visit_adds env r _ _ _ ia h3)).trans (visitCmps_adds env rest _ _ _ ib h5)
  | .call f args kws, s, s1, e', hi, hr => by
      by_cases hf1 : ∃ n, f = .name n
      · obtain ⟨n, rfl⟩ := hf1
        rw [visit] at hr
        split at hr
        · obtain ⟨a, sa, h1, h2⟩ := andThen_ok hr
          cases h2
          simpa only [simpleNames, tableNames] using visitList_adds env args _ _ _ hi h1
        · cases hr
      · by_cases hf2 : ∃ e n, f = .attr e n
        · obtain ⟨e, n, rfl⟩ := hf2
          rw [visit] at hr
          unfold visitMethod at hr
          split at hr
          · cases hr
          · cases hr
          · rename_i name fn path hn
            have hroot := nameOfAttr_root _ _ _ hn
            simp only [rootName] at hroot
            split at hr
            · cases hr
            · split at hr
              · cases hr
              · cases hr
              · have := addChain_adds hi hr
                simpa [simpleNames, tableNames, hroot] using this
        · have hf1' : ∀ n, f ≠ .name n := fun n h => hf1 ⟨n, h⟩
          have hf2' : ∀ e n, f ≠ .attr e n := fun e n h => hf2 ⟨e, n, h⟩
          rw [visit_call_other env hf1' hf2'] at hr
          obtain ⟨f', sa, h1, h2⟩ := andThen_ok hr
          obtain ⟨as, sb, h3, h4⟩ := andThen_ok h2
          obtain ⟨ks, sd, h5, h6⟩ := andThen_ok h4
          cases h6
          have ia := (visit_inv env _ _ hi _ _ h1).1
          have ib := (visitList_inv env _ _ ia _ _ h3).1
          have := ((visit_adds env f _ _ _ hi h1).trans (visitList_adds env args _ _ _ ia h3)).trans
            (visitList_adds env kws _ _ _ ib h5)
          cases f with
          | name n => exact absurd rfl (hf1' n)
          | attr e n => exact absurd rfl (hf2' e n)
          | _ => simpa only [simpleNames, tableNames] using this
  | .dict items, s, s1, e', hi, hr => by
      rw [visit] at hr
      obtain ⟨_, _, _, _, h1, h2, _⟩ := visitDict_spec hi env items hr
      exact ⟨by simp [simpleNames, h1], by simp [tableNames, h2]⟩
  | .banned _, s, s1, e', hi, hr => by simp [visit] at hr
  | .display es, s, s1, e', hi, hr => by
      rw [visit] at hr
      obtain ⟨a, sa, h1, h2⟩ := andThen_ok hr
      cases h2
  | .other es, s, s1, e', hi, hr => by
      rw [visit] at hr
      obtain ⟨a, sa, h1, h2⟩ := andThen_ok hr
      cases h2
      simpa only [simpleNames, tableNames] using visitList_adds env es _ _ _ hi h1
theorem visitList_adds (env : PyEnv) : ∀ (es : PList) (s s1 : PSt) (es' : List PExpr), PInv s → visitList env es s = (s1, .ok es') →
    AddsNames s s1 (simpleNamesL es) (tableNamesL es)
  | .nil, s, s1, es', hi, hr => by rw [visitList] at hr; cases hr; exact AddsNames.refl _
  | .cons e es, s, s1, es', hi, hr => by
      rw [visitList] at hr
      obtain ⟨a, sa, h1, h2⟩ := andThen_ok hr
      obtain ⟨b, sb, h3, h4⟩ := andThen_ok h2
      cases h4
      have ia := (visit_inv env _ _ hi _ _ h1).1
      simpa only [simpleNamesL, tableNamesL] using (visit_adds env e _ _ _ hi h1).trans (visitList_adds env es _ _ _ ia h3)
theorem visitCmps_adds (env : PyEnv) : ∀ (es : PCmps) (s s1 : PSt) (es' : List (COp × PExpr)), PInv s →
    visitCmps env es s = (s1, .ok es') → AddsNames s s1 (simpleNamesC es) (tableNamesC es)
  | .nil, s, s1, es', hi, hr => by rw [visitCmps] at hr; cases hr; exact AddsNames.refl _
  | .cons op e es, s, s1, es', hi, hr => by
      rw [visitCmps] at hr
      obtain ⟨a, sa, h1, h2⟩ := andThen_ok hr
      obtain ⟨b, sb, h3, h4⟩ := andThen_ok h2
      cases h4
      have ia := (visit_inv env _ _ hi _ _ h1).1
      simpa only [simpleNamesC, tableNamesC] using (visit_adds env e _ _ _ hi h1).trans (visitCmps_adds env es _ _ _ ia h3)
end

end Cheval
