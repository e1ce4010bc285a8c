import Verif.Core.ExprNames
import Verif.Props.ExprGroup

/-!
# C24: what a rejected expression can leave behind
-/
namespace Cheval
open Spec

/-- the recorded names of `s'` are at most those of `s` and the given ones -/
structure LeavesOnly (s s' : PSt) (si tb : List Str) : Prop where
  simple : ∀ x ∈ s'.simple, x ∈ s.simple ∨ x ∈ si
  chained : ∀ x ∈ s'.chainedAll, x ∈ s.chainedAll ∨ x ∈ tb

theorem LeavesOnly.refl (s : PSt) (si tb : List Str) : LeavesOnly s s si tb := ⟨fun _ h => .inl h, fun _ h => .inl h⟩

theorem LeavesOnly.trans {a b c : PSt} {s1 t1 s2 t2 : List Str} (h : LeavesOnly a b s1 t1) (h' : LeavesOnly b c s2 t2) :
    LeavesOnly a c (s1 ++ s2) (t1 ++ t2) := by
  refine ⟨fun x hx => ?_, fun x hx => ?_⟩
  · rcases h'.simple x hx with hx | hx
    · rcases h.simple x hx with hx | hx
      · exact .inl hx
      · exact .inr (List.mem_append_left _ hx)
    · exact .inr (List.mem_append_right _ hx)
  · rcases h'.chained x hx with hx | hx
    · rcases h.chained x hx with hx | hx
      · exact .inl hx
      · exact .inr (List.mem_append_left _ hx)
    · exact .inr (List.mem_append_right _ hx)

theorem LeavesOnly.left {a b : PSt} {s1 t1 : List Str} (h : LeavesOnly a b s1 t1) (s2 t2 : List Str) :
    LeavesOnly a b (s1 ++ s2) (t1 ++ t2) := h.trans (.refl b s2 t2)

theorem leaves_ret {α : Type} {s s' : PSt} {r r' : Except Err α} (hr : (s, r) = (s', r')) (si tb : List Str) : LeavesOnly s s' si tb := by
  cases hr; exact .refl _ _ _

/-- chaining two steps -/
theorem leaves_step {α β : Type} {s s' : PSt} {x : PSt × Except Err α} {f : α → PSt → PSt × Except Err β} {r : Except Err β}
    {s1 t1 s2 t2 : List Str} (hr : andThen x f = (s', r))
    (hx : ∀ sa ra, x = (sa, ra) → LeavesOnly s sa s1 t1)
    (hf : ∀ a sa sb rb, f a sa = (sb, rb) → LeavesOnly sa sb s2 t2) : LeavesOnly s s' (s1 ++ s2) (t1 ++ t2) := by
  rcases andThen_eq hr with ⟨e, h1, _⟩ | ⟨a, sa, h1, h2⟩
  · exact (hx _ _ h1).left _ _
  · exact (hx _ _ h1).trans (hf a sa _ _ h2)

/-- a last step that records nothing -/
theorem leaves_last {α β : Type} {s s' : PSt} {x : PSt × Except Err α} {f : α → PSt → PSt × Except Err β} {r : Except Err β}
    {s1 t1 : List Str} (hr : andThen x f = (s', r))
    (hx : ∀ sa ra, x = (sa, ra) → LeavesOnly s sa s1 t1)
    (hf : ∀ a sa sb rb, f a sa = (sb, rb) → sb = sa) : LeavesOnly s s' s1 t1 := by
  rcases andThen_eq hr with ⟨e, h1, _⟩ | ⟨a, sa, h1, h2⟩
  · exact hx _ _ h1
  · rw [hf a sa _ _ h2]; exact hx _ _ h1

theorem addChain_leaves {s s' : PSt} {name : Str} {c : Chain} {r : Except Err PExpr} (h : addChain s name c = (s', r)) :
    LeavesOnly s s' [] [name] := by
  unfold addChain at h
  split at h
  · exact leaves_ret h _ _
  · simp only [Prod.mk.injEq] at h
    obtain ⟨rfl, _⟩ := h
    refine ⟨fun _ h => .inl h, fun x hx => ?_⟩
    simp only [setAdd] at hx
    split at hx
    · exact .inl hx
    · rcases List.mem_append.mp hx with hx | hx
      · exact .inl hx
      · exact .inr hx

theorem visitName_leaves {s s' : PSt} {n : Str} {r : Except Err PExpr} (h : visitName n s = (s', r)) :
    LeavesOnly s s' (simpleNames (.name n)) [] := by
  unfold visitName at h
  split at h
  · exact leaves_ret h _ _
  · rename_i hn
    split at h
    · exact leaves_ret h _ _
    · simp only [Prod.mk.injEq] at h
      obtain ⟨rfl, _⟩ := h
      refine ⟨fun x hx => ?_, fun _ h => .inl h⟩
      simp only [setAdd] at hx
      simp only [simpleNames, hn]
      split at hx
      · exact .inl hx
      · rcases List.mem_append.mp hx with hx | hx
        · exact .inl hx
        · exact .inr hx

mutual
theorem visit_leaves (env : PyEnv) : ∀ (e : PExpr) (s s1 : PSt) (r : Except Err PExpr), visit env e s = (s1, r) →
    LeavesOnly s s1 (simpleNames e) (tableNames e)
  | .num x, s, s1, r, hr => by rw [visit] at hr; exact leaves_ret hr _ _
  | .bytes x, s, s1, r, hr => by rw [visit] at hr; exact leaves_ret hr _ _
  | .const x, s, s1, r, hr => by rw [visit] at hr; exact leaves_ret hr _ _
  | .str x, s, s1, r, hr => by rw [visit] at hr; exact leaves_ret hr _ _
  | .name n, s, s1, r, hr => by rw [visit] at hr; exact visitName_leaves hr
  | .attr e f, s, s1, r, hr => by
      rw [visit] at hr
      unfold visitAttr at hr
      split at hr
      · exact leaves_ret hr _ _
      · rename_i name path hn
        have hroot := nameOfAttr_root _ _ _ hn
        simp only [rootName] at hroot
        simpa [simpleNames, tableNames, hroot] using addChain_leaves hr
  | .unary .not e, s, s1, r, hr => by
      rw [visit] at hr
      simpa only [simpleNames, tableNames] using
        leaves_last hr (fun sa ra h => visit_leaves env e _ _ _ h) fun a sa sb rb h => by cases h; rfl
  | .unary .neg e, s, s1, r, hr => by rw [visit] at hr; exact leaves_ret hr _ _
  | .unary .pos e, s, s1, r, hr => by simp only [visit] at hr; exact leaves_ret hr _ _
  | .unary .invert e, s, s1, r, hr => by simp only [visit] at hr; exact leaves_ret hr _ _
  | .bin op l r', s, s1, r, hr => by
      rw [visit] at hr
      simpa only [simpleNames, tableNames] using
        leaves_step hr (fun sa ra h => visit_leaves env l _ _ _ h) fun a sa sb rb h =>
          leaves_last h (fun sa ra h => visit_leaves env r' _ _ _ h) fun a sa sb rb h => by cases h; rfl
  | .boolop isAnd w ws, s, s1, r, hr => by
      rw [visit] at hr
      simpa only [simpleNames, tableNames] using
        leaves_step hr (fun sa ra h => visit_leaves env w _ _ _ h) fun a sa sb rb h =>
          leaves_last h (fun sa ra h => visitList_leaves env ws _ _ _ h) fun a sa sb rb h => by cases h; rfl
  | .compare l op r' rest, s, s1, r, hr => by
      rw [visit] at hr
      simpa only [simpleNames, tableNames, List.append_assoc] using
        leaves_step hr (fun sa ra h => visit_leaves env l _ _ _ h) fun a sa sb rb h =>
          leaves_step h (fun sa ra h => visit_leaves env r' _ _ _ h) fun a sa sb rb h =>
            leaves_last h (fun sa ra h => visitCmps_leaves env rest _ _ _ h) fun a sa sb rb h => by cases h; rfl
  | .call f args kws, s, s1, r, hr => by
      by_cases hf1 : ∃ n, f = .name n
      · obtain ⟨n, rfl⟩ := hf1
        rw [visit] at hr
        split at hr
        · simpa only [simpleNames, tableNames] using
            leaves_last hr (fun sa ra h => visitList_leaves env args _ _ _ h) fun a sa sb rb h => by cases h; rfl
        · exact leaves_ret hr _ _
      · by_cases hf2 : ∃ e n, f = .attr e n
        · obtain ⟨e, n, rfl⟩ := hf2
          rw [visit] at hr
          unfold visitMethod at hr
          split at hr
          · exact leaves_ret hr _ _
          · exact leaves_ret hr _ _
          · rename_i name fn path hn
            have hroot := nameOfAttr_root _ _ _ hn
            simp only [rootName] at hroot
            split at hr
            · exact leaves_ret hr _ _
            · split at hr
              · exact leaves_ret hr _ _
              · exact leaves_ret hr _ _
              · simpa [simpleNames, tableNames, hroot] using addChain_leaves hr
        · have hf1' : ∀ n, f ≠ .name n := fun n h => hf1 ⟨n, h⟩
          have hf2' : ∀ e n, f ≠ .attr e n := fun e n h => hf2 ⟨e, n, h⟩
          rw [visit_call_other env hf1' hf2'] at hr
          have := leaves_step hr (fun sa ra h => visit_leaves env f _ _ _ h) fun a sa sb rb h =>
            leaves_step h (fun sa ra h => visitList_leaves env args _ _ _ h) fun a sa sb rb h =>
              leaves_last h (fun sa ra h => visitList_leaves env kws _ _ _ h) fun a sa sb rb h => by cases h; rfl
          cases f with
          | name n => exact absurd rfl (hf1' n)
          | attr e n => exact absurd rfl (hf2' e n)
          | _ => simpa only [simpleNames, tableNames, List.append_assoc] using this
  | .dict items, s, s1, r, hr => by
      rw [visit] at hr
      unfold visitDict at hr
      split at hr
      · exact leaves_ret hr _ _
      · split at hr
        · exact leaves_ret hr _ _
        · simp only [Prod.mk.injEq] at hr
          obtain ⟨rfl, _⟩ := hr
          exact ⟨fun _ h => .inl h, fun _ h => .inl h⟩
  | .banned _, s, s1, r, hr => by rw [visit] at hr; exact leaves_ret hr _ _
  | .display es, s, s1, r, hr => by
      rw [visit] at hr
      simpa only [simpleNames, tableNames] using
        leaves_last hr (fun sa ra h => visitList_leaves env es _ _ _ h) fun a sa sb rb h => by cases h; rfl
  | .other es, s, s1, r, hr => by
      rw [visit] at hr
      simpa only [simpleNames, tableNames] using
        leaves_last hr (fun sa ra h => visitList_leaves env es _ _ _ h) fun a sa sb rb h => by cases h; rfl
theorem visitList_leaves (env : PyEnv) : ∀ (es : PList) (s s1 : PSt) (r : Except Err (List PExpr)), visitList env es s = (s1, r) →
    LeavesOnly s s1 (simpleNamesL es) (tableNamesL es)
  | .nil, s, s1, r, hr => by rw [visitList] at hr; exact leaves_ret hr _ _
  | .cons e es, s, s1, r, hr => by
      rw [visitList] at hr
      simpa only [simpleNamesL, tableNamesL] using
        leaves_step hr (fun sa ra h => visit_leaves env e _ _ _ h) fun a sa sb rb h =>
          leaves_last h (fun sa ra h => visitList_leaves env es _ _ _ h) fun a sa sb rb h => by cases h; rfl
theorem visitCmps_leaves (env : PyEnv) : ∀ (es : PCmps) (s s1 : PSt) (r : Except Err (List (COp × PExpr))),
    visitCmps env es s = (s1, r) → LeavesOnly s s1 (simpleNamesC es) (tableNamesC es)
  | .nil, s, s1, r, hr => by rw [visitCmps] at hr; exact leaves_ret hr _ _
  | .cons op e es, s, s1, r, hr => by
      rw [visitCmps] at hr
      simpa only [simpleNamesC, tableNamesC] using
        leaves_step hr (fun sa ra h => visit_leaves env e _ _ _ h) fun a sa sb rb h =>
          leaves_last h (fun sa ra h => visitCmps_leaves env es _ _ _ h) fun a sa sb rb h => by cases h; rfl
end

/-- **C24 (what stays behind)** A rejected expression leaves behind at most its own variables: every simple name required
afterwards was required before or stands by itself in the rejected expression, every table name required afterwards was
required before or is followed by a dot in it. -/
theorem C24_leftovers (env : PyEnv) (py : PyParser) (g : ExprGroup) (e text : Str) (filt : Option Str) (tree : PExpr)
    (k : Option Nat) (er : Err) (hs : splitFilter e = .ok (text, filt)) (hp : py text = .ok tree)
    (h : (g.append env py e k).2 = .error er) :
    (∀ x ∈ (g.append env py e k).1.itersimple, x ∈ g.itersimple ∨ x ∈ simpleNames tree) ∧
    (∀ x ∈ (g.append env py e k).1.iterchained, x ∈ g.iterchained ∨ x ∈ tableNames tree) := by
  unfold ExprGroup.append at *
  unfold parse at *
  simp only [hs, hp] at *
  rcases hv : visit env tree ⟨g.simple, g.chained, [], [], []⟩ with ⟨s, r⟩
  have hl := visit_leaves env tree _ _ _ hv
  rw [hv] at h
  cases r with
  | error er =>
    refine ⟨fun x hx => ?_, fun x hx => ?_⟩
    · rcases List.mem_append.mp hx with hx | hx
      · rcases hl.simple x hx with hx | hx
        · exact .inl (List.mem_append_left _ hx)
        · exact .inr hx
      · exact .inl (List.mem_append_right _ hx)
    · rcases List.mem_append.mp hx with hx | hx
      · rcases hl.chained x hx with hx | hx
        · exact .inl (List.mem_append_left _ hx)
        · exact .inr hx
      · exact .inl (List.mem_append_right _ hx)
  | ok x => cases k <;> cases h

/-- **C24 (harmless rejections)** If the variables of the rejected expression are all required already, in the same roles,
the required names are unchanged. -/
theorem C24_unchanged (env : PyEnv) (py : PyParser) (g : ExprGroup) (e text : Str) (filt : Option Str) (tree : PExpr)
    (k : Option Nat) (er : Err) (hs : splitFilter e = .ok (text, filt)) (hp : py text = .ok tree)
    (h : (g.append env py e k).2 = .error er)
    (h1 : ∀ x ∈ simpleNames tree, x ∈ g.itersimple) (h2 : ∀ x ∈ tableNames tree, x ∈ g.iterchained) :
    (∀ x, x ∈ (g.append env py e k).1.itersimple ↔ x ∈ g.itersimple) ∧
    (∀ x, x ∈ (g.append env py e k).1.iterchained ↔ x ∈ g.iterchained) := by
  obtain ⟨a, b⟩ := C24_leftovers env py g e text filt tree k er hs hp h
  obtain ⟨_, _, _, c, d⟩ := C24_rejected_partial env py g e k er h
  exact ⟨fun x => ⟨fun hx => (a x hx).elim id (h1 x), c x⟩, fun x => ⟨fun hx => (b x hx).elim id (h2 x), d x⟩⟩

/-- `x + b(a)` with an unknown function `b`, appended to a group that already requires `x` and `a`: rejected, and
nothing is left behind -/
example (env : PyEnv) (hb : env.isFunction exB = false) :
    ∃ er, ((⟨[], [exX, exA], [], []⟩ : ExprGroup).append env exPy exB none).2 = .error er ∧
      ∀ x, x ∈ ((⟨[], [exX, exA], [], []⟩ : ExprGroup).append env exPy exB none).1.itersimple ↔ x ∈ [exX, exA] := by
  have h1 : isNanName exX = false := by decide
  have h2 : splitFilter exB = .ok (exB, none) := ex_split 'b' (by decide)
  have h3 : exPy exB = .ok (.bin .add (.name exX) (.call (.name exB) (.cons (.name exA) .nil) .nil)) := rfl
  have hr : ((⟨[], [exX, exA], [], []⟩ : ExprGroup).append env exPy exB none).2 = .error .unsupportedSyntax := by
    simp [ExprGroup.append, parse, h2, h3, visit, visitName, h1, hb, setAdd, andThen]
  refine ⟨_, hr, fun x => ?_⟩
  have := (C24_unchanged env exPy ⟨[], [exX, exA], [], []⟩ exB exB none _ none _ h2 h3 hr
    (by intro x hx; simp [simpleNames, simpleNamesL, h1] at hx; rcases hx with rfl | ⟨_, rfl⟩ <;> simp [ExprGroup.itersimple])
    (by intro x hx; simp [tableNames, tableNamesL] at hx)).1 x
  simpa [ExprGroup.itersimple] using this

end Cheval
