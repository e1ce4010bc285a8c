import Verif.Core.ExprSound
import Verif.Spec.ExprNames

/-!
# An expression that NumExpr evaluates needs the values of its names

If the rewritten expression has a value, every symbol visited in the original one has a value among the local names.
-/
namespace Cheval
open Spec
section needs
variable {F : Type} (M : Arith F) (env : PyEnv) (loc : Str → Option (Val F))

omit M env loc in
mutual
theorem operandNames_sub : ∀ (e : PExpr), ∀ id ∈ operandNames e, id ∈ simpleNames e
  | .name x, id, h => by simpa [operandNames, simpleNames] using h
  | .unary .not e, id, h => by
      rw [operandNames] at h; rw [simpleNames]; exact operandNames_sub e id h
  | .bin _ l r, id, h => by
      rw [operandNames] at h; rw [simpleNames]
      exact List.mem_append.mpr ((List.mem_append.mp h).imp (operandNames_sub l id) (operandNames_sub r id))
  | .boolop _ v vs, id, h => by
      rw [operandNames] at h; rw [simpleNames]
      exact List.mem_append.mpr ((List.mem_append.mp h).imp (operandNames_sub v id) (operandNamesL_sub vs id))
  | .compare l _ r rest, id, h => by
      rw [operandNames] at h; rw [simpleNames]
      exact List.mem_append.mpr ((List.mem_append.mp h).imp
        (fun h => List.mem_append.mpr ((List.mem_append.mp h).imp (operandNames_sub l id) (operandNames_sub r id))) (operandNamesC_sub rest id))
  | .call f args kws, id, h => by
      cases f with
      | name f => rw [operandNames] at h; rw [simpleNames]; exact operandNamesL_sub args id h
      | _ => simp [operandNames] at h
  | .num _, _, h | .bytes _, _, h | .const _, _, h | .str _, _, h | .attr _ _, _, h | .dict _, _, h | .banned _, _, h | .display _, _, h
  | .other _, _, h | .unary .neg _, _, h | .unary .pos _, _, h | .unary .invert _, _, h => by simp [operandNames] at h
theorem operandNamesL_sub : ∀ (es : PList), ∀ id ∈ operandNamesL es, id ∈ simpleNamesL es
  | .nil, _, h => by simp [operandNamesL] at h
  | .cons e es, id, h => by
      rw [operandNamesL] at h; rw [simpleNamesL]
      exact List.mem_append.mpr ((List.mem_append.mp h).imp (operandNames_sub e id) (operandNamesL_sub es id))
theorem operandNamesC_sub : ∀ (es : PCmps), ∀ id ∈ operandNamesC es, id ∈ simpleNamesC es
  | .nil, _, h => by simp [operandNamesC] at h
  | .cons _ e es, id, h => by
      rw [operandNamesC] at h; rw [simpleNamesC]
      exact List.mem_append.mpr ((List.mem_append.mp h).imp (operandNames_sub e id) (operandNamesC_sub es id))
end

theorem ne_bin {op : BOp} {l r : PExpr} {v : Val F} (h : ne M loc (.bin op l r) = some v) : (∃ a, ne M loc l = some a) ∧ ∃ b, ne M loc r = some b := by
  rw [ne] at h
  split at h
  · rename_i a b ha hb; exact ⟨⟨a, ha⟩, b, hb⟩
  · cases h

theorem joinBool_needs (op : BOp) : ∀ (es : List PExpr) (l : PExpr) (v : Val F), ne M loc (joinBool op l es) = some v →
    (∃ a, ne M loc l = some a) ∧ ∀ e ∈ es, ∃ a, ne M loc e = some a
  | [], l, v, h => ⟨⟨v, h⟩, by simp⟩
  | e :: es, l, v, h => by
    rw [joinBool] at h
    obtain ⟨⟨a, ha⟩, h2⟩ := joinBool_needs op es _ _ h
    obtain ⟨h3, h4⟩ := ne_bin M loc ha
    refine ⟨h3, fun x hx => ?_⟩
    rcases List.mem_cons.mp hx with rfl | hx
    · exact h4
    · exact h2 x hx

theorem ne_cmp {l r : PExpr} {op : COp} {v : Val F} (h : ne M loc (.compare l op r .nil) = some v) :
    (∃ a, ne M loc l = some a) ∧ ∃ b, ne M loc r = some b := by
  rw [ne] at h
  split at h
  · rename_i a b ha hb; exact ⟨⟨a, ha⟩, b, hb⟩
  · cases h

theorem pairwise_needs : ∀ (rest : List (COp × PExpr)) (l : PExpr), (∀ e ∈ pairwise l rest, ∃ a, ne M loc e = some a) →
    ∀ p ∈ rest, ∃ a, ne M loc p.2 = some a
  | [], _, _ => by simp
  | (op, r) :: rest, l, h => by
    rw [pairwise] at h
    intro p hp
    rcases List.mem_cons.mp hp with rfl | hp
    · obtain ⟨a, ha⟩ := h _ List.mem_cons_self
      exact (ne_cmp M loc ha).2
    · exact pairwise_needs rest r (fun e he => h e (List.mem_cons_of_mem _ he)) p hp

theorem rebuild_needs (l r : PExpr) (op : COp) (rest : List (COp × PExpr)) (v : Val F) (h : ne M loc (rebuildCompare l op r rest) = some v) :
    (∃ a, ne M loc l = some a) ∧ (∃ a, ne M loc r = some a) ∧ ∀ p ∈ rest, ∃ a, ne M loc p.2 = some a := by
  cases rest with
  | nil =>
    obtain ⟨h1, h2⟩ := ne_cmp M loc h
    exact ⟨h1, h2, by simp⟩
  | cons x rest =>
    obtain ⟨op2, r2⟩ := x
    unfold rebuildCompare at h
    simp only [pairwise] at h
    obtain ⟨⟨a, ha⟩, h2⟩ := joinBool_needs M loc _ _ _ _ h
    obtain ⟨⟨b, hb⟩, ⟨c, hc⟩⟩ := ne_bin M loc ha
    obtain ⟨h3, h4⟩ := ne_cmp M loc hb
    refine ⟨h3, h4, fun p hp => ?_⟩
    rcases List.mem_cons.mp hp with rfl | hp
    · exact (ne_cmp M loc hc).2
    · exact pairwise_needs M loc rest r2 h2 p hp

theorem neList_parts : ∀ (es : List PExpr) (vs : List (Val F)), neList M loc (.ofList es) = some vs → ∀ e ∈ es, ∃ a, ne M loc e = some a
  | [], _, _ => by simp
  | e :: es, vs, h => by
    rw [PList.ofList, neList] at h
    split at h
    · rename_i v vs' h1 h2
      intro x hx
      rcases List.mem_cons.mp hx with rfl | hx
      · exact ⟨v, h1⟩
      · exact neList_parts es vs' h2 x hx
    · cases h

mutual
theorem visit_needs : ∀ (e : PExpr) (s s1 : PSt) (e' : PExpr) (v : Val F), visit env e s = (s1, .ok e') → ne M loc e' = some v →
    ∀ id ∈ operandNames e, (loc id).isSome = true
  | .num _, s, s1, e', v, hr, hd, id, hid => by simp [operandNames] at hid
  | .bytes _, s, s1, e', v, hr, hd, id, hid => by simp [operandNames] at hid
  | .const _, s, s1, e', v, hr, hd, id, hid => by simp [operandNames] at hid
  | .str _, s, s1, e', v, hr, hd, id, hid => by simp [operandNames] at hid
  | .name x, s, s1, e', v, hr, hd, id, hid => by
      rw [operandNames] at hid
      split at hid
      · cases hid
      · rename_i hn
        simp only [List.mem_singleton] at hid
        subst hid
        rw [visit, visitName, if_neg hn] at hr
        split at hr
        · simp at hr
        · simp only [Prod.mk.injEq, Except.ok.injEq] at hr
          obtain ⟨-, rfl⟩ := hr
          rw [ne] at hd
          simp [hd]
  | .attr _ _, s, s1, e', v, hr, hd, id, hid => by simp [operandNames] at hid
  | .unary .not e, s, s1, e', v, hr, hd, id, hid => by
      rw [visit] at hr
      obtain ⟨a, sa, h1, h2⟩ := andThen_ok hr
      simp only [Prod.mk.injEq, Except.ok.injEq] at h2
      obtain ⟨rfl, rfl⟩ := h2
      rw [operandNames] at hid
      rw [ne] at hd
      cases ha : ne M loc a with
      | none => rw [ha] at hd; simp at hd
      | some u => exact visit_needs e _ _ _ u h1 ha id hid
  | .unary .neg _, s, s1, e', v, hr, hd, id, hid => by simp [operandNames] at hid
  | .unary .pos _, s, s1, e', v, hr, hd, id, hid => by simp [operandNames] at hid
  | .unary .invert _, s, s1, e', v, hr, hd, id, hid => by simp [operandNames] at hid
  | .bin op l r, s, s1, e', v, hr, hd, id, hid => by
      rw [visit] at hr
      obtain ⟨a, sa, h1, h2⟩ := andThen_ok hr
      obtain ⟨b, sb, h3, h4⟩ := andThen_ok h2
      simp only [Prod.mk.injEq, Except.ok.injEq] at h4
      obtain ⟨rfl, rfl⟩ := h4
      obtain ⟨⟨x, hx⟩, ⟨y, hy⟩⟩ := ne_bin M loc hd
      rw [operandNames] at hid
      rcases List.mem_append.mp hid with h | h
      · exact visit_needs l _ _ _ x h1 hx id h
      · exact visit_needs r _ _ _ y h3 hy id h
  | .boolop isAnd w ws, s, s1, e', v, hr, hd, id, hid => by
      rw [visit] at hr
      obtain ⟨a, sa, h1, h2⟩ := andThen_ok hr
      obtain ⟨bs, sb, h3, h4⟩ := andThen_ok h2
      simp only [Prod.mk.injEq, Except.ok.injEq] at h4
      obtain ⟨rfl, rfl⟩ := h4
      obtain ⟨⟨x, hx⟩, h5⟩ := joinBool_needs M loc _ _ _ _ hd
      rw [operandNames] at hid
      rcases List.mem_append.mp hid with h | h
      · exact visit_needs w _ _ _ x h1 hx id h
      · exact visitList_needs ws _ _ _ h3 h5 id h
  | .compare l op r rest, s, s1, e', v, hr, hd, id, hid => by
      rw [visit] at hr
      obtain ⟨a, sa, h1, h2⟩ := andThen_ok hr
      obtain ⟨b, sb, h3, h4⟩ := andThen_ok h2
      obtain ⟨ds, sd, h5, h6⟩ := andThen_ok h4
      simp only [Prod.mk.injEq, Except.ok.injEq] at h6
      obtain ⟨rfl, rfl⟩ := h6
      obtain ⟨⟨x, hx⟩, ⟨y, hy⟩, h7⟩ := rebuild_needs M loc _ _ _ _ _ hd
      rw [operandNames] at hid
      rcases List.mem_append.mp hid with h | h
      · rcases List.mem_append.mp h with h | h
        · exact visit_needs l _ _ _ x h1 hx id h
        · exact visit_needs r _ _ _ y h3 hy id h
      · exact visitCmps_needs rest _ _ _ h5 h7 id h
  | .call f args kws, s, s1, e', v, hr, hd, id, hid => by
      cases f with
      | name f =>
        rw [visit] at hr
        split at hr
        · obtain ⟨es, sa, h1, h2⟩ := andThen_ok hr
          simp only [Prod.mk.injEq, Except.ok.injEq] at h2
          obtain ⟨rfl, rfl⟩ := h2
          rw [operandNames] at hid
          cases kws with
          | cons k ks => simp [ne] at hd
          | nil =>
            rw [ne] at hd
            cases hl : neList M loc (.ofList es) with
            | none => rw [hl] at hd; simp at hd
            | some vs => exact visitList_needs args _ _ _ h1 (neList_parts M loc es vs hl) id hid
        · simp at hr
      | _ => simp [operandNames] at hid
  | .dict _, s, s1, e', v, hr, hd, id, hid => by simp [operandNames] at hid
  | .banned _, s, s1, e', v, hr, hd, id, hid => by simp [operandNames] at hid
  | .display _, s, s1, e', v, hr, hd, id, hid => by simp [operandNames] at hid
  | .other _, s, s1, e', v, hr, hd, id, hid => by simp [operandNames] at hid
theorem visitList_needs : ∀ (es : PList) (s s1 : PSt) (es' : List PExpr), visitList env es s = (s1, .ok es') →
    (∀ e ∈ es', ∃ a, ne M loc e = some a) → ∀ id ∈ operandNamesL es, (loc id).isSome = true
  | .nil, s, s1, es', hr, hd, id, hid => by simp [operandNamesL] at hid
  | .cons e es, s, s1, es', hr, hd, id, hid => by
      rw [visitList] at hr
      obtain ⟨a, sa, h1, h2⟩ := andThen_ok hr
      obtain ⟨b, sb, h3, h4⟩ := andThen_ok h2
      simp only [Prod.mk.injEq, Except.ok.injEq] at h4
      obtain ⟨rfl, rfl⟩ := h4
      rw [operandNamesL] at hid
      rcases List.mem_append.mp hid with h | h
      · obtain ⟨x, hx⟩ := hd a List.mem_cons_self
        exact visit_needs e _ _ _ x h1 hx id h
      · exact visitList_needs es _ _ _ h3 (fun y hy => hd y (List.mem_cons_of_mem _ hy)) id h
theorem visitCmps_needs : ∀ (es : PCmps) (s s1 : PSt) (es' : List (COp × PExpr)), visitCmps env es s = (s1, .ok es') →
    (∀ p ∈ es', ∃ a, ne M loc p.2 = some a) → ∀ id ∈ operandNamesC es, (loc id).isSome = true
  | .nil, s, s1, es', hr, hd, id, hid => by simp [operandNamesC] at hid
  | .cons op e es, s, s1, es', hr, hd, id, hid => by
      rw [visitCmps] at hr
      obtain ⟨a, sa, h1, h2⟩ := andThen_ok hr
      obtain ⟨b, sb, h3, h4⟩ := andThen_ok h2
      simp only [Prod.mk.injEq, Except.ok.injEq] at h4
      obtain ⟨rfl, rfl⟩ := h4
      rw [operandNamesC] at hid
      rcases List.mem_append.mp hid with h | h
      · obtain ⟨x, hx⟩ := hd (op, a) List.mem_cons_self
        exact visit_needs e _ _ _ x h1 hx id h
      · exact visitCmps_needs es _ _ _ h3 (fun y hy => hd y (List.mem_cons_of_mem _ hy)) id h
end

end needs
end Cheval
