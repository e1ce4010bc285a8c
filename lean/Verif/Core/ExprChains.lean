import Verif.Core.ExprNames
import Verif.Core.DictLemmas
import Verif.Core.ExprSound

/-! # The dotted lookups of an expression -/
namespace Cheval
open Spec

/-- the lookup a dotted name stands for -/
def attrChain (e : PExpr) : List (Str × Chain) := match nameOfAttr e with
  | .ok (root, path) => [(root, ⟨path, none⟩)]
  | .error _ => []

/-- the lookup the call of a dotted name stands for -/
def methodChain (f : PExpr) : PList → List (Str × Chain)
  | .nil => []
  | .cons a _ => match nameOfAttr f with
    | .ok (root, fn :: path) => [(root, ⟨path, some (fn, a)⟩)]
    | _ => []

mutual
def chainsOf : PExpr → List (Str × Chain)
  | .attr e f => attrChain (.attr e f)
  | .unary .not e => chainsOf e
  | .bin _ l r => chainsOf l ++ chainsOf r
  | .boolop _ v vs => chainsOf v ++ chainsOfL vs
  | .compare l _ r rest => chainsOf l ++ chainsOf r ++ chainsOfC rest
  | .call (.name _) args _ => chainsOfL args
  | .call (.attr e f) args _ => methodChain (.attr e f) args
  | .call f args kws => chainsOf f ++ chainsOfL args ++ chainsOfL kws
  | .other es => chainsOfL es
  | _ => []
def chainsOfL : PList → List (Str × Chain)
  | .nil => []
  | .cons e es => chainsOf e ++ chainsOfL es
def chainsOfC : PCmps → List (Str × Chain)
  | .nil => []
  | .cons _ e es => chainsOf e ++ chainsOfC es
end

/-- the recorded lookups of `s'` are among those of `s` and the given ones -/
def AddsChains (s s' : PSt) (cs : List (Str × Chain)) : Prop := ∀ x ∈ subs s', x ∈ subs s ∨ x.2 ∈ cs

theorem AddsChains.refl (s : PSt) (cs : List (Str × Chain)) : AddsChains s s cs := fun _ h => .inl h

theorem AddsChains.trans {a b c : PSt} {s1 s2 : List (Str × Chain)} (h : AddsChains a b s1) (h' : AddsChains b c s2) :
    AddsChains a c (s1 ++ s2) := fun x hx => by
  rcases h' x hx with h1 | h1
  · rcases h x h1 with h2 | h2
    · exact .inl h2
    · exact .inr (List.mem_append.mpr (.inl h2))
  · exact .inr (List.mem_append.mpr (.inr h1))

theorem addChain_chains {s s' : PSt} {name : Str} {c : Chain} {e' : PExpr} (h : addChain s name c = (s', .ok e')) :
    AddsChains s s' [(name, c)] := by
  unfold addChain at h
  split at h
  · cases h
  · simp only [Prod.mk.injEq] at h
    obtain ⟨rfl, -⟩ := h
    intro x hx
    obtain ⟨ls, h1, h2⟩ := mem_subs.mp hx
    simp only at h1
    rcases mem_dictSet.mp h1 with h3 | ⟨h3, -⟩
    · simp only [Prod.mk.injEq] at h3
      obtain ⟨h3, rfl⟩ := h3
      rcases mem_dictSet.mp h2 with h4 | ⟨h4, -⟩
      · right
        simp only [Prod.mk.injEq] at h4
        obtain ⟨x1, x2, x3⟩ := x
        simp only at h3 h4
        simp [h3, h4.2]
      · left
        cases hg : dictGet s.chains name with
        | none => rw [hg] at h4; simp at h4
        | some ls => rw [hg] at h4; exact mem_subs.mpr ⟨ls, h3 ▸ dictGet_mem hg, h4⟩
    · exact .inl (mem_subs.mpr ⟨ls, h3, h2⟩)

mutual
theorem visit_chains (env : PyEnv) : ∀ (e : PExpr) (s s1 : PSt) (e' : PExpr), visit env e s = (s1, .ok e') → AddsChains s s1 (chainsOf e)
  | .num x, s, s1, e', hr => by
      rw [visit] at hr; cases hr; exact AddsChains.refl _ _
  | .bytes x, s, s1, e', hr => by
      rw [visit] at hr; cases hr; exact AddsChains.refl _ _
  | .const x, s, s1, e', hr => by
      rw [visit] at hr; cases hr; exact AddsChains.refl _ _
  | .str x, s, s1, e', hr => by
      rw [visit] at hr; cases hr; exact AddsChains.refl _ _
  | .name n, s, s1, e', hr => by
      rw [visit] at hr
      unfold visitName at hr
      split at hr
      · cases hr; exact AddsChains.refl _ _
      · split at hr
        · cases hr
        · cases hr; exact AddsChains.refl _ _
  | .attr e f, s, s1, e', hr => by
      rw [visit] at hr
      unfold visitAttr at hr
      simp only [chainsOf, attrChain]
      split at hr
      · cases hr
      · rename_i name path hn
        rw [hn]
        exact addChain_chains hr
  | .unary .not e, s, s1, e', hr => by
      rw [visit] at hr
      obtain ⟨a, sa, h1, h2⟩ := andThen_ok hr
      cases h2
      simpa only [chainsOf] using visit_chains env e _ _ _ h1
  | .unary .neg e, s, s1, e', hr => by
      rw [visit] at hr; cases hr; exact AddsChains.refl _ _
  | .unary .pos e, s, s1, e', hr => by simp [visit] at hr
  | .unary .invert e, s, s1, e', hr => by simp [visit] at hr
  | .bin op l r, s, s1, e', hr => by
      rw [visit] at hr
      obtain ⟨a, sa, h1, h2⟩ := andThen_ok hr
      obtain ⟨b, sb, h3, h4⟩ := andThen_ok h2
      cases h4
      simpa only [chainsOf] using (visit_chains env l _ _ _ h1).trans (visit_chains env r _ _ _ h3)
  | .boolop isAnd w ws, s, s1, e', hr => by
      rw [visit] at hr
      obtain ⟨a, sa, h1, h2⟩ := andThen_ok hr
      obtain ⟨b, sb, h3, h4⟩ := andThen_ok h2
      cases h4
      simpa only [chainsOf] using (visit_chains env w _ _ _ h1).trans (visitList_chains env ws _ _ _ h3)
  | .compare l op r rest, s, s1, e', hr => by
      rw [visit] at hr
      obtain ⟨a, sa, h1, h2⟩ := andThen_ok hr
      obtain ⟨b, sb, h3, h4⟩ := andThen_ok h2
      obtain ⟨ds, sd, h5, h6⟩ := andThen_ok h4
      cases h6
      simpa only [chainsOf] using
        ((visit_chains env l _ _ _ h1).trans (visit_chains env r _ _ _ h3)).trans (visitCmps_chains env rest _ _ _ h5)
  | .call f args kws, s, s1, e', hr => by
      by_cases hf1 : ∃ n, f = .name n
      · obtain ⟨n, rfl⟩ := hf1
        rw [visit] at hr
        split at hr
        · obtain ⟨a, sa, h1, h2⟩ := andThen_ok hr
          cases h2
          simpa only [chainsOf] using visitList_chains env args _ _ _ h1
        · cases hr
      · by_cases hf2 : ∃ e n, f = .attr e n
        · obtain ⟨e, n, rfl⟩ := hf2
          rw [visit] at hr
          unfold visitMethod at hr
          split at hr
          · cases hr
          · cases hr
          · rename_i name fn path hn
            split at hr
            · cases hr
            · split at hr
              · cases hr
              · cases hr
              · have := addChain_chains hr
                simpa [chainsOf, methodChain, hn] using this
        · have hf1' : ∀ n, f ≠ .name n := fun n h => hf1 ⟨n, h⟩
          have hf2' : ∀ e n, f ≠ .attr e n := fun e n h => hf2 ⟨e, n, h⟩
          rw [visit_call_other env hf1' hf2'] at hr
          obtain ⟨f', sa, h1, h2⟩ := andThen_ok hr
          obtain ⟨as, sb, h3, h4⟩ := andThen_ok h2
          obtain ⟨ks, sd, h5, h6⟩ := andThen_ok h4
          cases h6
          have := ((visit_chains env f _ _ _ h1).trans (visitList_chains env args _ _ _ h3)).trans
            (visitList_chains env kws _ _ _ h5)
          cases f with
          | name n => exact absurd rfl (hf1' n)
          | attr e n => exact absurd rfl (hf2' e n)
          | _ => simpa only [chainsOf] using this
  | .dict items, s, s1, e', hr => by
      rw [visit] at hr
      unfold visitDict at hr
      split at hr
      · cases hr
      · split at hr
        · cases hr
        · cases hr; exact AddsChains.refl _ _
  | .banned _, s, s1, e', hr => by simp [visit] at hr
  | .display es, s, s1, e', hr => by
      rw [visit] at hr
      obtain ⟨a, sa, h1, h2⟩ := andThen_ok hr
      cases h2
  | .other es, s, s1, e', hr => by
      rw [visit] at hr
      obtain ⟨a, sa, h1, h2⟩ := andThen_ok hr
      cases h2
      simpa only [chainsOf] using visitList_chains env es _ _ _ h1
theorem visitList_chains (env : PyEnv) : ∀ (es : PList) (s s1 : PSt) (es' : List PExpr), visitList env es s = (s1, .ok es') →
    AddsChains s s1 (chainsOfL es)
  | .nil, s, s1, es', hr => by rw [visitList] at hr; cases hr; exact AddsChains.refl _ _
  | .cons e es, s, s1, es', hr => by
      rw [visitList] at hr
      obtain ⟨a, sa, h1, h2⟩ := andThen_ok hr
      obtain ⟨b, sb, h3, h4⟩ := andThen_ok h2
      cases h4
      simpa only [chainsOfL] using (visit_chains env e _ _ _ h1).trans (visitList_chains env es _ _ _ h3)
theorem visitCmps_chains (env : PyEnv) : ∀ (es : PCmps) (s s1 : PSt) (es' : List (COp × PExpr)), visitCmps env es s = (s1, .ok es') →
    AddsChains s s1 (chainsOfC es)
  | .nil, s, s1, es', hr => by rw [visitCmps] at hr; cases hr; exact AddsChains.refl _ _
  | .cons op e es, s, s1, es', hr => by
      rw [visitCmps] at hr
      obtain ⟨a, sa, h1, h2⟩ := andThen_ok hr
      obtain ⟨b, sb, h3, h4⟩ := andThen_ok h2
      cases h4
      simpa only [chainsOfC] using (visit_chains env e _ _ _ h1).trans (visitCmps_chains env es _ _ _ h3)
end

/-! ## arguments of aggregations are smaller -/

theorem methodChain_size {f : PExpr} {args : PList} {root : Str} {path : List Str} {fn : Str} {a : PExpr}
    (h : (root, (⟨path, some (fn, a)⟩ : Chain)) ∈ methodChain f args) : sizeOf a < sizeOf args := by
  cases args with
  | nil => simp [methodChain] at h
  | cons a0 as =>
    simp only [methodChain] at h
    split at h
    · simp only [List.mem_singleton, Prod.mk.injEq, Chain.mk.injEq, Option.some.injEq] at h
      obtain ⟨-, -, -, rfl⟩ := h
      simp only [PList.cons.sizeOf_spec]; omega
    · simp at h

theorem attrChain_func {e : PExpr} {root : Str} {ch : Chain} (h : (root, ch) ∈ attrChain e) : ch.func = none := by
  unfold attrChain at h
  split at h
  · simp only [List.mem_singleton, Prod.mk.injEq] at h
    rw [h.2]
  · simp at h

mutual
theorem chainsOf_size : ∀ (e : PExpr) {root : Str} {path : List Str} {fn : Str} {a : PExpr},
    (root, (⟨path, some (fn, a)⟩ : Chain)) ∈ chainsOf e → sizeOf a < sizeOf e
  | .num x, root, path, fn, a, h => by simp [chainsOf] at h
  | .bytes x, root, path, fn, a, h => by simp [chainsOf] at h
  | .const x, root, path, fn, a, h => by simp [chainsOf] at h
  | .str x, root, path, fn, a, h => by simp [chainsOf] at h
  | .name x, root, path, fn, a, h => by simp [chainsOf] at h
  | .dict x, root, path, fn, a, h => by simp [chainsOf] at h
  | .banned x, root, path, fn, a, h => by simp [chainsOf] at h
  | .display x, root, path, fn, a, h => by simp [chainsOf] at h
  | .attr e f, root, path, fn, a, h => by
      simp only [chainsOf] at h
      have := attrChain_func h
      simp at this
  | .unary op e, root, path, fn, a, h => by
      cases op with
      | not =>
        simp only [chainsOf] at h
        have := chainsOf_size e h
        simp only [PExpr.unary.sizeOf_spec]; omega
      | _ => simp [chainsOf] at h
  | .bin op l r, root, path, fn, a, h => by
      simp only [chainsOf, List.mem_append] at h
      simp only [PExpr.bin.sizeOf_spec]
      rcases h with h | h
      · have := chainsOf_size l h; omega
      · have := chainsOf_size r h; omega
  | .boolop isAnd v vs, root, path, fn, a, h => by
      simp only [chainsOf, List.mem_append] at h
      simp only [PExpr.boolop.sizeOf_spec]
      rcases h with h | h
      · have := chainsOf_size v h; omega
      · have := chainsOfL_size vs h; omega
  | .compare l op r rest, root, path, fn, a, h => by
      simp only [chainsOf, List.mem_append] at h
      simp only [PExpr.compare.sizeOf_spec]
      rcases h with (h | h) | h
      · have := chainsOf_size l h; omega
      · have := chainsOf_size r h; omega
      · have := chainsOfC_size rest h; omega
  | .call f args kws, root, path, fn, a, h => by
      have hf := chainsOf_size f (root := root) (path := path) (fn := fn) (a := a)
      have ha := chainsOfL_size args (root := root) (path := path) (fn := fn) (a := a)
      have hk := chainsOfL_size kws (root := root) (path := path) (fn := fn) (a := a)
      simp only [PExpr.call.sizeOf_spec]
      cases f with
      | name n => simp only [chainsOf] at h; have := ha h; omega
      | attr e n => simp only [chainsOf] at h; have := methodChain_size h; omega
      | _ =>
        simp only [chainsOf, List.mem_append] at h
        rcases h with (h | h) | h
        · have := hf (by simpa only [chainsOf, List.mem_append] using h); omega
        · have := ha h; omega
        · have := hk h; omega
  | .other es, root, path, fn, a, h => by
      simp only [chainsOf] at h
      have := chainsOfL_size es h
      simp only [PExpr.other.sizeOf_spec]; omega
theorem chainsOfL_size : ∀ (es : PList) {root : Str} {path : List Str} {fn : Str} {a : PExpr},
    (root, (⟨path, some (fn, a)⟩ : Chain)) ∈ chainsOfL es → sizeOf a < sizeOf es
  | .nil, root, path, fn, a, h => by simp [chainsOfL] at h
  | .cons e es, root, path, fn, a, h => by
      simp only [chainsOfL, List.mem_append] at h
      simp only [PList.cons.sizeOf_spec]
      rcases h with h | h
      · have := chainsOf_size e h; omega
      · have := chainsOfL_size es h; omega
theorem chainsOfC_size : ∀ (es : PCmps) {root : Str} {path : List Str} {fn : Str} {a : PExpr},
    (root, (⟨path, some (fn, a)⟩ : Chain)) ∈ chainsOfC es → sizeOf a < sizeOf es
  | .nil, root, path, fn, a, h => by simp [chainsOfC] at h
  | .cons op e es, root, path, fn, a, h => by
      simp only [chainsOfC, List.mem_append] at h
      simp only [PCmps.cons.sizeOf_spec]
      rcases h with h | h
      · have := chainsOf_size e h; omega
      · have := chainsOfC_size es h; omega
end

/-! ## an expression with a value needs the values of its names -/

section needs
variable {F : Type} (M : Arith F) (c : CellEnv F)

/-- every symbol and every lookup has a value -/
def Served (si : List Str) (cs : List (Str × Chain)) : Prop :=
  (∀ id ∈ si, (c.sym id).isSome = true) ∧ ∀ x ∈ cs, (c.lookup x.1 x.2.path.reverse x.2.func).isSome = true

variable {c}
theorem Served.append {s1 s2 : List Str} {c1 c2 : List (Str × Chain)} (h : Served c s1 c1) (h' : Served c s2 c2) :
    Served c (s1 ++ s2) (c1 ++ c2) :=
  ⟨fun id hid => (List.mem_append.mp hid).elim (h.1 id) (h'.1 id), fun x hx => (List.mem_append.mp hx).elim (h.2 x) (h'.2 x)⟩

theorem Served.nil : Served c [] [] := ⟨by simp, by simp⟩
variable (c)

mutual
theorem den_served : ∀ (e : PExpr) (v : Val F), den M c e = some v → Served c (simpleNames e) (chainsOf e)
  | .num x, v, h => Served.nil
  | .bytes x, v, h => Served.nil
  | .const x, v, h => Served.nil
  | .str x, v, h => Served.nil
  | .name n, v, h => by
      simp only [den] at h
      simp only [simpleNames, chainsOf]
      split at h
      · rename_i hn; rw [if_pos hn]; exact Served.nil
      · rename_i hn; rw [if_neg hn]; exact ⟨fun id hid => by simp only [List.mem_singleton] at hid; subst hid; rw [h]; rfl, by simp⟩
  | .attr e f, v, h => by
      simp only [den] at h
      simp only [simpleNames, chainsOf, attrChain]
      cases hdt : dotted (.attr e f) with
      | none => rw [hdt] at h; simp at h
      | some rp =>
        obtain ⟨r, p⟩ := rp
        rw [hdt] at h
        rw [nameOfAttr_dotted _ _ _ hdt]
        refine ⟨by simp, fun x hx => ?_⟩
        simp only [List.mem_singleton] at hx
        subst hx
        simp only [Option.bind_some] at h
        simp [h]
  | .unary op e, v, h => by
      cases op with
      | not =>
        simp only [den] at h
        simp only [simpleNames, chainsOf]
        split at h
        · rename_i b hb; exact den_served e _ hb
        · cases h
      | neg => exact Served.nil
      | pos => exact Served.nil
      | invert => exact Served.nil
  | .bin op l r, v, h => by
      simp only [den] at h
      simp only [simpleNames, chainsOf]
      split at h
      · rename_i a b ha hb; exact (den_served l _ ha).append (den_served r _ hb)
      · cases h
  | .boolop isAnd w ws, v, h => by
      simp only [den] at h
      simp only [simpleNames, chainsOf]
      split at h
      · rename_i a b ha hb; exact (den_served w _ ha).append (denBools_served isAnd ws _ hb)
      · cases h
  | .compare l op r rest, v, h => by
      simp only [den] at h
      simp only [simpleNames, chainsOf]
      split at h
      · rename_i a b ha hb
        split at h
        · rename_i t ts _ ht; exact ((den_served l _ ha).append (den_served r _ hb)).append (denCmps_served rest _ _ ht)
        · cases h
      · cases h
  | .call f args kws, v, h => by
      cases f with
      | name n =>
        cases kws with
        | cons k ks => simp [den] at h
        | nil =>
          simp only [den] at h
          simp only [simpleNames, chainsOf]
          cases hl : denList M c args with
          | none => rw [hl] at h; simp at h
          | some vs => exact denList_served args _ hl
      | attr e fld =>
        cases kws with
        | cons k ks => simp [den] at h
        | nil =>
          cases args with
          | nil => simp [den] at h
          | cons a as =>
            cases as with
            | cons a2 as => simp [den] at h
            | nil =>
              simp only [den] at h
              simp only [simpleNames, chainsOf, methodChain]
              cases hdt : dotted e with
              | none => rw [hdt] at h; simp at h
              | some rp =>
                obtain ⟨r, p⟩ := rp
                rw [hdt] at h
                simp only [Option.bind_some] at h
                have hda : dotted (.attr e fld) = some (r, p ++ [fld]) := by simp [dotted, hdt]
                rw [nameOfAttr_dotted _ _ _ hda]
                simp only [List.reverse_append, List.reverse_cons, List.reverse_nil, List.nil_append, List.singleton_append]
                refine ⟨by simp, fun x hx => ?_⟩
                simp only [List.mem_singleton] at hx
                subst hx
                simp [h]
      | _ => simp [den] at h
  | .dict items, v, h => Served.nil
  | .banned _, v, h => by simp [den] at h
  | .display es, v, h => by simp [den] at h
  | .other es, v, h => by simp [den] at h
theorem denList_served : ∀ (es : PList) (vs : List (Val F)), denList M c es = some vs → Served c (simpleNamesL es) (chainsOfL es)
  | .nil, vs, h => Served.nil
  | .cons e es, vs, h => by
      simp only [denList] at h
      simp only [simpleNamesL, chainsOfL]
      split at h
      · rename_i a b ha hb; exact (den_served e _ ha).append (denList_served es _ hb)
      · cases h
theorem denBools_served (isAnd : Bool) : ∀ (es : PList) (t : Bool), denBools M c isAnd es = some t → Served c (simpleNamesL es) (chainsOfL es)
  | .nil, vs, h => Served.nil
  | .cons e es, vs, h => by
      simp only [denBools] at h
      simp only [simpleNamesL, chainsOfL]
      split at h
      · rename_i a b ha hb; exact (den_served e _ ha).append (denBools_served isAnd es _ hb)
      · cases h
theorem denCmps_served : ∀ (es : PCmps) (a : Val F) (t : Bool), denCmps M c a es = some t → Served c (simpleNamesC es) (chainsOfC es)
  | .nil, a, t, h => Served.nil
  | .cons op e es, a, t, h => by
      simp only [denCmps] at h
      simp only [simpleNamesC, chainsOfC]
      split at h
      · rename_i b hb
        split at h
        · rename_i t0 ts _ ht; exact (den_served e _ hb).append (denCmps_served es _ _ ht)
        · cases h
      · cases h
end
end needs

end Cheval
