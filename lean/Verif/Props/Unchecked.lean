import Verif.Props.Reachable

/-!
# Which symbols of an expression are not checked (C22)
-/
namespace Cheval
open Spec

mutual
/-- the names below a unary minus and in the keyword arguments of functions -/
def uncheckedNames : PExpr → List Str
  | .unary .neg e => freeNames e
  | .unary _ e => uncheckedNames e
  | .bin _ l r => uncheckedNames l ++ uncheckedNames r
  | .boolop _ v vs => uncheckedNames v ++ uncheckedNamesL vs
  | .compare l _ r rest => uncheckedNames l ++ uncheckedNames r ++ uncheckedNamesC rest
  | .call (.name _) args kws => uncheckedNamesL args ++ freeNamesL kws
  | .call (.attr _ _) _ _ => []
  | .call f args kws => uncheckedNames f ++ uncheckedNamesL args ++ uncheckedNamesL kws
  | .display es => uncheckedNamesL es
  | .other es => uncheckedNamesL es
  | _ => []
def uncheckedNamesL : PList → List Str
  | .nil => []
  | .cons e es => uncheckedNames e ++ uncheckedNamesL es
def uncheckedNamesC : PCmps → List Str
  | .nil => []
  | .cons _ e es => uncheckedNames e ++ uncheckedNamesC es
end

theorem mem_joinBool (op : BOp) : ∀ (rs : List PExpr) (l : PExpr) (id : Str),
    id ∈ freeNames (joinBool op l rs) ↔ id ∈ freeNames l ∨ ∃ r ∈ rs, id ∈ freeNames r
  | [], l, id => by simp [joinBool]
  | r :: rs, l, id => by
      rw [joinBool, mem_joinBool op rs]
      simp only [freeNames, List.mem_append, List.mem_cons, exists_eq_or_imp]
      tauto

theorem mem_pairwise : ∀ (rs : List (COp × PExpr)) (l : PExpr) (id : Str), rs ≠ [] →
    ((∃ p ∈ pairwise l rs, id ∈ freeNames p) ↔ id ∈ freeNames l ∨ ∃ r ∈ rs, id ∈ freeNames r.2)
  | [], l, id, h => absurd rfl h
  | (op, r) :: [], l, id, _ => by simp [pairwise, freeNames, freeNamesC]
  | (op, r) :: x :: rs, l, id, _ => by
      have := mem_pairwise (x :: rs) r id (by simp)
      rw [pairwise]
      simp only [List.mem_cons (a := _) (b := PExpr.compare l op r .nil), exists_eq_or_imp, this, freeNames, freeNamesC, List.append_nil,
        List.mem_append, List.mem_cons (b := (op, r))]
      tauto

theorem mem_rebuild (l r : PExpr) (op : COp) (rest : List (COp × PExpr)) (id : Str) :
    id ∈ freeNames (rebuildCompare l op r rest) ↔ id ∈ freeNames l ∨ id ∈ freeNames r ∨ ∃ x ∈ rest, id ∈ freeNames x.2 := by
  cases rest with
  | nil => simp [rebuildCompare, freeNames, freeNamesC]
  | cons x rest =>
    have hp := mem_pairwise ((op, r) :: x :: rest) l id (by simp)
    have h2 : rebuildCompare l op r (x :: rest) = match pairwise l ((op, r) :: x :: rest) with
      | a :: b :: more => joinBool .bitAnd (.bin .bitAnd a b) more
      | _ => .compare l op r .nil := rfl
    rw [h2]
    obtain ⟨c, q⟩ := x
    simp only [pairwise] at hp ⊢
    rw [mem_joinBool]
    simp only [List.mem_cons, exists_eq_or_imp] at hp ⊢
    rw [freeNames, List.mem_append]
    constructor
    · intro h
      have := hp.mp (by tauto)
      tauto
    · intro h
      have := hp.mpr (by tauto)
      tauto

theorem mem_ofList : ∀ (es : List PExpr) (id : Str), id ∈ freeNamesL (.ofList es) ↔ ∃ e ∈ es, id ∈ freeNames e
  | [], id => by simp [PList.ofList, freeNamesL]
  | e :: es, id => by simp [PList.ofList, freeNamesL, mem_ofList es id]

theorem unchecked_call_other {f : PExpr} (h1 : ∀ n, f ≠ .name n) (h2 : ∀ e n, f ≠ .attr e n) (args kws : PList) :
    uncheckedNames (.call f args kws) = uncheckedNames f ++ uncheckedNamesL args ++ uncheckedNamesL kws := by
  cases f with
  | name n => exact absurd rfl (h1 n)
  | attr e n => exact absurd rfl (h2 e n)
  | _ => simp only [uncheckedNames]

section
variable (env : PyEnv)

mutual
theorem visit_sources : ∀ (e : PExpr) (s s1 : PSt) (e' : PExpr), PInv s → visit env e s = (s1, .ok e') →
    ∀ id ∈ freeNames e', Recorded s1 id ∨ id ∈ uncheckedNames e
  | .num x, s, s1, e', hi, hr, id, hid => by
      simp only [visit, Prod.mk.injEq, Except.ok.injEq] at hr; obtain ⟨rfl, rfl⟩ := hr; simp [freeNames] at hid
  | .bytes x, s, s1, e', hi, hr, id, hid => by
      simp only [visit, Prod.mk.injEq, Except.ok.injEq] at hr; obtain ⟨rfl, rfl⟩ := hr; simp [freeNames] at hid
  | .const x, s, s1, e', hi, hr, id, hid => by
      simp only [visit, Prod.mk.injEq, Except.ok.injEq] at hr; obtain ⟨rfl, rfl⟩ := hr; simp [freeNames] at hid
  | .str x, s, s1, e', hi, hr, id, hid => by
      simp only [visit, Prod.mk.injEq, Except.ok.injEq] at hr; obtain ⟨rfl, rfl⟩ := hr
      split at hid <;> simp [freeNames] at hid
  | .name n, s, s1, e', hi, hr, id, hid => (visit_recorded env (N := []) (.name n) s s1 e' hi (by simp only [CheckedOver]) hr id hid).elim .inl (by simp)
  | .attr e f, s, s1, e', hi, hr, id, hid => (visit_recorded env (N := []) (.attr e f) s s1 e' hi (by simp only [CheckedOver]) hr id hid).elim .inl (by simp)
  | .unary .not e, s, s1, e', hi, hr, id, hid => by
      rw [visit] at hr
      obtain ⟨a, sa, h1, h2⟩ := andThen_ok hr
      simp only [Prod.mk.injEq, Except.ok.injEq] at h2
      obtain ⟨rfl, rfl⟩ := h2
      simp only [uncheckedNames]
      exact visit_sources e s sa a hi h1 id (by simpa [freeNames] using hid)
  | .unary .neg e, s, s1, e', hi, hr, id, hid => by
      simp only [visit, Prod.mk.injEq, Except.ok.injEq] at hr
      obtain ⟨rfl, rfl⟩ := hr
      simp only [uncheckedNames]
      exact .inr (by simpa [freeNames] using hid)
  | .unary .pos e, s, s1, e', hi, hr, id, hid => by simp [visit] at hr
  | .unary .invert e, s, s1, e', hi, hr, id, hid => by simp [visit] at hr
  | .bin op l r, s, s1, e', hi, hr, id, hid => by
      rw [visit] at hr
      obtain ⟨a, sa, h1, h2⟩ := andThen_ok hr
      obtain ⟨b, sb, h3, h4⟩ := andThen_ok h2
      simp only [Prod.mk.injEq, Except.ok.injEq] at h4
      obtain ⟨rfl, rfl⟩ := h4
      obtain ⟨ia, xa⟩ := visit_inv env l s hi _ _ h1
      obtain ⟨ib, xb⟩ := visit_inv env r sa ia _ _ h3
      simp only [freeNames, uncheckedNames, List.mem_append] at hid ⊢
      rcases hid with hid | hid
      · exact (visit_sources l s sa a hi h1 id hid).imp (·.mono xb) .inl
      · exact (visit_sources r sa sb b ia h3 id hid).imp_right .inr
  | .boolop isAnd w ws, s, s1, e', hi, hr, id, hid => by
      rw [visit] at hr
      obtain ⟨a, sa, h1, h2⟩ := andThen_ok hr
      obtain ⟨bs, sb, h3, h4⟩ := andThen_ok h2
      simp only [Prod.mk.injEq, Except.ok.injEq] at h4
      obtain ⟨rfl, rfl⟩ := h4
      obtain ⟨ia, xa⟩ := visit_inv env w s hi _ _ h1
      obtain ⟨ib, xb⟩ := visitList_inv env ws sa ia _ _ h3
      simp only [uncheckedNames, List.mem_append]
      rcases freeNames_joinBool _ _ _ _ hid with hid | ⟨r, hr1, hr2⟩
      · exact (visit_sources w s sa a hi h1 id hid).imp (·.mono xb) .inl
      · exact (visitList_sources ws sa sb bs ia h3 r hr1 id hr2).imp_right .inr
  | .compare l op r rest, s, s1, e', hi, hr, id, hid => by
      rw [visit] at hr
      obtain ⟨a, sa, h1, h2⟩ := andThen_ok hr
      obtain ⟨b, sb, h3, h4⟩ := andThen_ok h2
      obtain ⟨ds, sd, h5, h6⟩ := andThen_ok h4
      simp only [Prod.mk.injEq, Except.ok.injEq] at h6
      obtain ⟨rfl, rfl⟩ := h6
      obtain ⟨ia, xa⟩ := visit_inv env l s hi _ _ h1
      obtain ⟨ib, xb⟩ := visit_inv env r sa ia _ _ h3
      obtain ⟨id', xd⟩ := visitCmps_inv env rest sb ib _ _ h5
      simp only [uncheckedNames, List.mem_append]
      rcases freeNames_rebuild _ _ _ _ _ hid with hid | hid | ⟨x, hx1, hx2⟩
      · exact (visit_sources l s sa a hi h1 id hid).imp (·.mono (xb.trans xd)) fun h => .inl (.inl h)
      · exact (visit_sources r sa sb b ia h3 id hid).imp (·.mono xd) fun h => .inl (.inr h)
      · exact (visitCmps_sources rest sb sd ds ib h5 x hx1 id hx2).imp_right .inr
  | .call f args kws, s, s1, e', hi, hr, id, hid => by
      by_cases hf1 : ∃ n, f = .name n
      · obtain ⟨n, rfl⟩ := hf1
        rw [visit] at hr
        split at hr
        · obtain ⟨es, sa, h1, h2⟩ := andThen_ok hr
          simp only [Prod.mk.injEq, Except.ok.injEq] at h2
          obtain ⟨rfl, rfl⟩ := h2
          simp only [freeNames, uncheckedNames, List.mem_append] at hid ⊢
          rcases hid with hid | hid
          · obtain ⟨e, he1, he2⟩ := freeNames_ofList _ _ hid
            exact (visitList_sources args s sa es hi h1 e he1 id he2).imp_right .inl
          · exact .inr (.inr hid)
        · cases hr
      · by_cases hf2 : ∃ e n, f = .attr e n
        · obtain ⟨e, n, rfl⟩ := hf2
          exact (visit_recorded env (N := []) (.call (.attr e n) args kws) s s1 e' hi (by simp only [CheckedOver]) hr id hid).elim .inl (by simp)
        · have hf1' : ∀ n, f ≠ .name n := fun n h => hf1 ⟨n, h⟩
          have hf2' : ∀ e n, f ≠ .attr e n := fun e n h => hf2 ⟨e, n, h⟩
          rw [visit_call_other env hf1' hf2'] at hr
          rw [unchecked_call_other hf1' hf2']
          obtain ⟨f', sa, h1, h2⟩ := andThen_ok hr
          obtain ⟨as, sb, h3, h4⟩ := andThen_ok h2
          obtain ⟨ks, sd, h5, h6⟩ := andThen_ok h4
          simp only [Prod.mk.injEq, Except.ok.injEq] at h6
          obtain ⟨rfl, rfl⟩ := h6
          obtain ⟨ia, xa⟩ := visit_inv env f s hi _ _ h1
          obtain ⟨ib, xb⟩ := visitList_inv env args sa ia _ _ h3
          obtain ⟨id', xd⟩ := visitList_inv env kws sb ib _ _ h5
          simp only [List.mem_append]
          rcases freeNames_call _ _ _ _ hid with hid | hid | hid
          · exact (visit_sources f s sa f' hi h1 id hid).imp (·.mono (xb.trans xd)) fun h => .inl (.inl h)
          · obtain ⟨e, he1, he2⟩ := freeNames_ofList _ _ hid
            exact (visitList_sources args sa sb as ia h3 e he1 id he2).imp (·.mono xd) fun h => .inl (.inr h)
          · obtain ⟨e, he1, he2⟩ := freeNames_ofList _ _ hid
            exact (visitList_sources kws sb sd ks ib h5 e he1 id he2).imp_right .inr
  | .dict items, s, s1, e', hi, hr, id, hid => (visit_recorded env (N := []) (.dict items) s s1 e' hi (by simp only [CheckedOver]) hr id hid).elim .inl (by simp)
  | .banned _, s, s1, e', hi, hr, id, hid => by simp [visit] at hr
  | .display es, s, s1, e', hi, hr, id, hid => by
      rw [visit] at hr
      obtain ⟨a, sa, h1, h2⟩ := andThen_ok hr
      cases h2
  | .other es, s, s1, e', hi, hr, id, hid => by
      rw [visit] at hr
      obtain ⟨a, sa, h1, h2⟩ := andThen_ok hr
      simp only [Prod.mk.injEq, Except.ok.injEq] at h2
      obtain ⟨rfl, rfl⟩ := h2
      simp only [freeNames, uncheckedNames] at hid ⊢
      obtain ⟨e, he1, he2⟩ := freeNames_ofList _ _ hid
      exact visitList_sources es s sa a hi h1 e he1 id he2
theorem visitList_sources : ∀ (es : PList) (s s1 : PSt) (es' : List PExpr), PInv s →
    visitList env es s = (s1, .ok es') → ∀ e' ∈ es', ∀ id ∈ freeNames e', Recorded s1 id ∨ id ∈ uncheckedNamesL es
  | .nil, s, s1, es', hi, hr, e', he', id, hid => by
      simp only [visitList, Prod.mk.injEq, Except.ok.injEq] at hr
      obtain ⟨rfl, rfl⟩ := hr
      simp at he'
  | .cons e es, s, s1, es', hi, hr, e', he', id, hid => by
      rw [visitList] at hr
      obtain ⟨a, sa, h1, h2⟩ := andThen_ok hr
      obtain ⟨b, sb, h3, h4⟩ := andThen_ok h2
      simp only [Prod.mk.injEq, Except.ok.injEq] at h4
      obtain ⟨rfl, rfl⟩ := h4
      obtain ⟨ia, xa⟩ := visit_inv env e s hi _ _ h1
      obtain ⟨ib, xb⟩ := visitList_inv env es sa ia _ _ h3
      simp only [uncheckedNamesL, List.mem_append]
      rcases List.mem_cons.mp he' with rfl | he'
      · exact (visit_sources e s sa _ hi h1 id hid).imp (·.mono xb) .inl
      · exact (visitList_sources es sa sb b ia h3 e' he' id hid).imp_right .inr
theorem visitCmps_sources : ∀ (es : PCmps) (s s1 : PSt) (es' : List (COp × PExpr)), PInv s →
    visitCmps env es s = (s1, .ok es') → ∀ e' ∈ es', ∀ id ∈ freeNames e'.2, Recorded s1 id ∨ id ∈ uncheckedNamesC es
  | .nil, s, s1, es', hi, hr, e', he', id, hid => by
      simp only [visitCmps, Prod.mk.injEq, Except.ok.injEq] at hr
      obtain ⟨rfl, rfl⟩ := hr
      simp at he'
  | .cons op e es, s, s1, es', hi, hr, e', he', id, hid => by
      rw [visitCmps] at hr
      obtain ⟨a, sa, h1, h2⟩ := andThen_ok hr
      obtain ⟨b, sb, h3, h4⟩ := andThen_ok h2
      simp only [Prod.mk.injEq, Except.ok.injEq] at h4
      obtain ⟨rfl, rfl⟩ := h4
      obtain ⟨ia, xa⟩ := visit_inv env e s hi _ _ h1
      obtain ⟨ib, xb⟩ := visitCmps_inv env es sa ia _ _ h3
      simp only [uncheckedNamesC, List.mem_append]
      rcases List.mem_cons.mp he' with rfl | he'
      · exact (visit_sources e s sa _ hi h1 id hid).imp (·.mono xb) .inl
      · exact (visitCmps_sources es sa sb b ia h3 e' he' id hid).imp_right .inr
end

theorem joinBool_bin (op : BOp) : ∀ (rs : List PExpr) (l r n), joinBool op (.bin op l r) rs ≠ .name n
  | [], l, r, n => by simp [joinBool]
  | x :: rs, l, r, n => by rw [joinBool]; exact joinBool_bin op rs _ _ _

theorem rebuild_ne_name (l r : PExpr) (op : COp) (rest : List (COp × PExpr)) (n : Str) : rebuildCompare l op r rest ≠ .name n := by
  cases rest with
  | nil => simp [rebuildCompare]
  | cons x rest =>
    have h2 : rebuildCompare l op r (x :: rest) = match pairwise l ((op, r) :: x :: rest) with
      | a :: b :: more => joinBool .bitAnd (.bin .bitAnd a b) more
      | _ => .compare l op r .nil := rfl
    rw [h2]
    obtain ⟨c, q⟩ := x
    simp only [pairwise]
    exact joinBool_bin _ _ _ _ _

/-- only a name, an attribute access, a method call or a dict literal is rewritten to a name -/
theorem unchecked_of_name : ∀ (f : PExpr) (s s1 : PSt) (n : Str), visit env f s = (s1, .ok (.name n)) → uncheckedNames f = []
  | .num x, s, s1, n, hr => by simp [uncheckedNames]
  | .bytes x, s, s1, n, hr => by simp [uncheckedNames]
  | .const x, s, s1, n, hr => by simp [uncheckedNames]
  | .str x, s, s1, n, hr => by simp [uncheckedNames]
  | .name _, s, s1, n, hr => by simp [uncheckedNames]
  | .attr e f, s, s1, n, hr => by simp [uncheckedNames]
  | .dict _, s, s1, n, hr => by simp [uncheckedNames]
  | .banned _, s, s1, n, hr => by simp [uncheckedNames]
  | .unary .not e, s, s1, n, hr => by
      rw [visit] at hr
      obtain ⟨a, sa, h1, h2⟩ := andThen_ok hr
      simp at h2
  | .unary .neg e, s, s1, n, hr => by simp [visit] at hr
  | .unary .pos e, s, s1, n, hr => by simp [visit] at hr
  | .unary .invert e, s, s1, n, hr => by simp [visit] at hr
  | .bin op l r, s, s1, n, hr => by
      rw [visit] at hr
      obtain ⟨a, sa, h1, h2⟩ := andThen_ok hr
      obtain ⟨b, sb, h3, h4⟩ := andThen_ok h2
      simp at h4
  | .boolop isAnd w ws, s, s1, n, hr => by
      rw [visit] at hr
      obtain ⟨a, sa, h1, h2⟩ := andThen_ok hr
      obtain ⟨bs, sb, h3, h4⟩ := andThen_ok h2
      simp only [Prod.mk.injEq, Except.ok.injEq] at h4
      obtain ⟨rfl, h4⟩ := h4
      cases bs with
      | cons b bs => rw [joinBool] at h4; exact absurd h4 (joinBool_bin _ _ _ _ _)
      | nil =>
        simp only [joinBool] at h4
        subst h4
        cases ws with
        | nil => simp only [uncheckedNames, uncheckedNamesL, List.append_nil]; exact unchecked_of_name w s sa n h1
        | cons v vs =>
          rw [visitList] at h3
          obtain ⟨a, sa, h1, h2⟩ := andThen_ok h3
          obtain ⟨b, sb, h3, h4⟩ := andThen_ok h2
          simp at h4
  | .compare l op r rest, s, s1, n, hr => by
      rw [visit] at hr
      obtain ⟨a, sa, h1, h2⟩ := andThen_ok hr
      obtain ⟨b, sb, h3, h4⟩ := andThen_ok h2
      obtain ⟨ds, sd, h5, h6⟩ := andThen_ok h4
      simp only [Prod.mk.injEq, Except.ok.injEq] at h6
      exact absurd h6.2 (rebuild_ne_name _ _ _ _ _)
  | .call f args kws, s, s1, n, hr => by
      by_cases hf1 : ∃ n, f = .name n
      · obtain ⟨m, rfl⟩ := hf1
        rw [visit] at hr
        split at hr
        · obtain ⟨es, sa, h1, h2⟩ := andThen_ok hr
          simp at h2
        · cases hr
      · by_cases hf2 : ∃ e n, f = .attr e n
        · obtain ⟨e, m, rfl⟩ := hf2
          simp [uncheckedNames]
        · have hf1' : ∀ n, f ≠ .name n := fun n h => hf1 ⟨n, h⟩
          have hf2' : ∀ e n, f ≠ .attr e n := fun e n h => hf2 ⟨e, n, h⟩
          rw [visit_call_other env hf1' hf2'] at hr
          obtain ⟨f', sa, h1, h2⟩ := andThen_ok hr
          obtain ⟨as, sb, h3, h4⟩ := andThen_ok h2
          obtain ⟨ks, sd, h5, h6⟩ := andThen_ok h4
          simp at h6
  | .display es, s, s1, n, hr => by
      rw [visit] at hr
      obtain ⟨a, sa, h1, h2⟩ := andThen_ok hr
      cases h2
  | .other es, s, s1, n, hr => by
      rw [visit] at hr
      obtain ⟨a, sa, h1, h2⟩ := andThen_ok hr
      simp at h2

mutual
theorem unchecked_needed : ∀ (e : PExpr) (s s1 : PSt) (e' : PExpr), visit env e s = (s1, .ok e') →
    ∀ id ∈ uncheckedNames e, id ∈ freeNames e'
  | .num x, s, s1, e', hr, id, hid => by simp [uncheckedNames] at hid
  | .bytes x, s, s1, e', hr, id, hid => by simp [uncheckedNames] at hid
  | .const x, s, s1, e', hr, id, hid => by simp [uncheckedNames] at hid
  | .str x, s, s1, e', hr, id, hid => by simp [uncheckedNames] at hid
  | .name n, s, s1, e', hr, id, hid => by simp [uncheckedNames] at hid
  | .attr e f, s, s1, e', hr, id, hid => by simp [uncheckedNames] at hid
  | .unary .not e, s, s1, e', hr, id, hid => by
      rw [visit] at hr
      obtain ⟨a, sa, h1, h2⟩ := andThen_ok hr
      simp only [Prod.mk.injEq, Except.ok.injEq] at h2
      obtain ⟨rfl, rfl⟩ := h2
      simp only [uncheckedNames] at hid
      simpa [freeNames] using unchecked_needed e s sa a h1 id hid
  | .unary .neg e, s, s1, e', hr, id, hid => by
      simp only [visit, Prod.mk.injEq, Except.ok.injEq] at hr
      obtain ⟨rfl, rfl⟩ := hr
      simpa [freeNames, uncheckedNames] using hid
  | .unary .pos e, s, s1, e', hr, id, hid => by simp [visit] at hr
  | .unary .invert e, s, s1, e', hr, id, hid => by simp [visit] at hr
  | .bin op l r, s, s1, e', hr, id, hid => by
      rw [visit] at hr
      obtain ⟨a, sa, h1, h2⟩ := andThen_ok hr
      obtain ⟨b, sb, h3, h4⟩ := andThen_ok h2
      simp only [Prod.mk.injEq, Except.ok.injEq] at h4
      obtain ⟨rfl, rfl⟩ := h4
      simp only [freeNames, uncheckedNames, List.mem_append] at hid ⊢
      exact hid.imp (unchecked_needed l s sa a h1 id) (unchecked_needed r sa sb b h3 id)
  | .boolop isAnd w ws, s, s1, e', hr, id, hid => by
      rw [visit] at hr
      obtain ⟨a, sa, h1, h2⟩ := andThen_ok hr
      obtain ⟨bs, sb, h3, h4⟩ := andThen_ok h2
      simp only [Prod.mk.injEq, Except.ok.injEq] at h4
      obtain ⟨rfl, rfl⟩ := h4
      simp only [uncheckedNames, List.mem_append] at hid
      rw [mem_joinBool]
      exact hid.imp (unchecked_needed w s sa a h1 id) (uncheckedL_needed ws sa sb bs h3 id)
  | .compare l op r rest, s, s1, e', hr, id, hid => by
      rw [visit] at hr
      obtain ⟨a, sa, h1, h2⟩ := andThen_ok hr
      obtain ⟨b, sb, h3, h4⟩ := andThen_ok h2
      obtain ⟨ds, sd, h5, h6⟩ := andThen_ok h4
      simp only [Prod.mk.injEq, Except.ok.injEq] at h6
      obtain ⟨rfl, rfl⟩ := h6
      simp only [uncheckedNames, List.mem_append] at hid
      rw [mem_rebuild]
      rcases hid with (hid | hid) | hid
      · exact .inl (unchecked_needed l s sa a h1 id hid)
      · exact .inr (.inl (unchecked_needed r sa sb b h3 id hid))
      · exact .inr (.inr (uncheckedC_needed rest sb sd ds h5 id hid))
  | .call f args kws, s, s1, e', hr, id, hid => by
      by_cases hf1 : ∃ n, f = .name n
      · obtain ⟨n, rfl⟩ := hf1
        rw [visit] at hr
        split at hr
        · obtain ⟨es, sa, h1, h2⟩ := andThen_ok hr
          simp only [Prod.mk.injEq, Except.ok.injEq] at h2
          obtain ⟨rfl, rfl⟩ := h2
          simp only [freeNames, uncheckedNames, List.mem_append, mem_ofList] at hid ⊢
          exact hid.imp_left (uncheckedL_needed args s sa es h1 id)
        · cases hr
      · by_cases hf2 : ∃ e n, f = .attr e n
        · obtain ⟨e, n, rfl⟩ := hf2
          simp [uncheckedNames] at hid
        · have hf1' : ∀ n, f ≠ .name n := fun n h => hf1 ⟨n, h⟩
          have hf2' : ∀ e n, f ≠ .attr e n := fun e n h => hf2 ⟨e, n, h⟩
          rw [visit_call_other env hf1' hf2'] at hr
          rw [unchecked_call_other hf1' hf2'] at hid
          obtain ⟨f', sa, h1, h2⟩ := andThen_ok hr
          obtain ⟨as, sb, h3, h4⟩ := andThen_ok h2
          obtain ⟨ks, sd, h5, h6⟩ := andThen_ok h4
          simp only [Prod.mk.injEq, Except.ok.injEq] at h6
          obtain ⟨rfl, rfl⟩ := h6
          simp only [List.mem_append] at hid
          have hk : id ∈ freeNames f' ∨ id ∈ freeNamesL (.ofList as) ∨ id ∈ freeNamesL (.ofList ks) := by
            rcases hid with (hid | hid) | hid
            · exact .inl (unchecked_needed f s sa f' h1 id hid)
            · exact .inr (.inl ((mem_ofList _ _).mpr (uncheckedL_needed args sa sb as h3 id hid)))
            · exact .inr (.inr ((mem_ofList _ _).mpr (uncheckedL_needed kws sb sd ks h5 id hid)))
          by_cases hn : ∃ n, f' = .name n
          · obtain ⟨n, rfl⟩ := hn
            rw [unchecked_of_name env f s sa n h1] at hid
            simp only [freeNames, List.mem_append]
            rcases hid with (hid | hid) | hid
            · cases hid
            · exact .inl ((mem_ofList _ _).mpr (uncheckedL_needed args sa sb as h3 id hid))
            · exact .inr ((mem_ofList _ _).mpr (uncheckedL_needed kws sb sd ks h5 id hid))
          · have e1 : freeNames (.call f' (.ofList as) (.ofList ks)) = freeNames f' ++ freeNamesL (.ofList as) ++ freeNamesL (.ofList ks) := by
              cases f' with
              | name n => exact absurd ⟨n, rfl⟩ hn
              | _ => simp only [freeNames]
            rw [e1]
            simp only [List.mem_append]
            tauto
  | .dict items, s, s1, e', hr, id, hid => by simp [uncheckedNames] at hid
  | .banned _, s, s1, e', hr, id, hid => by simp [uncheckedNames] at hid
  | .display es, s, s1, e', hr, id, hid => by
      rw [visit] at hr
      obtain ⟨a, sa, h1, h2⟩ := andThen_ok hr
      cases h2
  | .other es, s, s1, e', hr, id, hid => by
      rw [visit] at hr
      obtain ⟨a, sa, h1, h2⟩ := andThen_ok hr
      simp only [Prod.mk.injEq, Except.ok.injEq] at h2
      obtain ⟨rfl, rfl⟩ := h2
      simp only [freeNames, uncheckedNames, mem_ofList] at hid ⊢
      exact uncheckedL_needed es s sa a h1 id hid
theorem uncheckedL_needed : ∀ (es : PList) (s s1 : PSt) (es' : List PExpr),
    visitList env es s = (s1, .ok es') → ∀ id ∈ uncheckedNamesL es, ∃ e' ∈ es', id ∈ freeNames e'
  | .nil, s, s1, es', hr, id, hid => by simp [uncheckedNamesL] at hid
  | .cons e es, s, s1, es', hr, id, hid => by
      rw [visitList] at hr
      obtain ⟨a, sa, h1, h2⟩ := andThen_ok hr
      obtain ⟨b, sb, h3, h4⟩ := andThen_ok h2
      simp only [Prod.mk.injEq, Except.ok.injEq] at h4
      obtain ⟨rfl, rfl⟩ := h4
      simp only [uncheckedNamesL, List.mem_append] at hid
      rcases hid with hid | hid
      · exact ⟨a, List.mem_cons_self .., unchecked_needed e s sa _ h1 id hid⟩
      · obtain ⟨e', he, h⟩ := uncheckedL_needed es sa sb b h3 id hid
        exact ⟨e', List.mem_cons_of_mem _ he, h⟩
theorem uncheckedC_needed : ∀ (es : PCmps) (s s1 : PSt) (es' : List (COp × PExpr)),
    visitCmps env es s = (s1, .ok es') → ∀ id ∈ uncheckedNamesC es, ∃ e' ∈ es', id ∈ freeNames e'.2
  | .nil, s, s1, es', hr, id, hid => by simp [uncheckedNamesC] at hid
  | .cons op e es, s, s1, es', hr, id, hid => by
      rw [visitCmps] at hr
      obtain ⟨a, sa, h1, h2⟩ := andThen_ok hr
      obtain ⟨b, sb, h3, h4⟩ := andThen_ok h2
      simp only [Prod.mk.injEq, Except.ok.injEq] at h4
      obtain ⟨rfl, rfl⟩ := h4
      simp only [uncheckedNamesC, List.mem_append] at hid
      rcases hid with hid | hid
      · exact ⟨_, List.mem_cons_self .., unchecked_needed e s sa _ h1 id hid⟩
      · obtain ⟨e', he, h⟩ := uncheckedC_needed es sa sb b h3 id hid
        exact ⟨e', List.mem_cons_of_mem _ he, h⟩
end
end

/-- **C22 (exactly)** For every accepted expression: each name occurring in what NumExpr is given is NAN, a recorded simple symbol, a recorded lookup,
a recorded dict literal, or is written below a unary minus or in a keyword argument of a function; and all names written at these two places
occur in what NumExpr is given. -/
theorem C22_exact (env : PyEnv) (simple chained : List Str) (e e' : PExpr) (s : PSt)
    (hv : visit env e (freshParser simple chained) = (s, .ok e')) :
    (∀ id ∈ freeNames e', id = nanStr ∨ id ∈ s.visited ∨ id ∈ (subs s).map (·.1) ∨ id ∈ s.dicts.map (·.1) ∨ id ∈ uncheckedNames e) ∧
    (∀ id ∈ uncheckedNames e, id ∈ freeNames e') := by
  refine ⟨fun id hid => ?_, unchecked_needed env e _ s e' hv⟩
  have := visit_sources env e _ s e' (PInv.fresh _ _) hv id hid
  unfold Recorded at this
  tauto

/-- **C22 (exactly, every history)** Whatever was done to a model, for each of its expressions to be evaluated: the variables of the rewritten expression
that `validate` does not check are written below a unary minus or in a keyword argument of a function, and all names written there are variables
of the rewritten expression. -/
theorem C22_exact_reachable {U F : Type} [FOps F] [DecidableEq U] (K : Kernel F) (env : PyEnv) (py : PyParser) (p : Nat) (ops : List (ModelOp U F))
    (g : Option Nat) (c : Container) (hc : (modelRun K env py (newModel U F p) ops).container g = .ok c) (x : Expression) (hx : x ∈ c.exprs) :
    ∃ text filt tree, splitFilter x.raw = .ok (text, filt) ∧ py text = .ok tree ∧
      (∀ id ∈ freeNames x.transformed, id = nanStr ∨ id ∈ c.simple ∨ (∃ e ∈ x.chains, id ∈ e.2.map (·.1) ∧ e.1 ∈ c.chained) ∨
        id ∈ x.dicts.map (·.1) ∨ id ∈ uncheckedNames tree) ∧
      (∀ id ∈ uncheckedNames tree, id ∈ freeNames x.transformed) := by
  have hh := held_modelRun K (m := newModel U F p) (Held.empty env py) ops
  obtain ⟨h1, h2, h3⟩ := container_recorded hh hc
  obtain ⟨src, text, hs, hpy, hf, simple, chained, s, hv, e1, e2, e3⟩ := h3 x hx
  obtain ⟨hr, hn⟩ := C22_exact env simple chained src.1 x.transformed s hv
  refine ⟨_, _, _, hs, hpy, fun id hid => ?_, hn⟩
  rcases hr id hid with h | h | h | h | h
  · exact .inl h
  · exact .inr (.inl (h1 x hx id (by rw [e3]; exact h)))
  · obtain ⟨y, hy, rfl⟩ := List.mem_map.mp h
    obtain ⟨ls, h4, h5⟩ := mem_subs.mp hy
    refine .inr (.inr (.inl ⟨(y.2.1, ls), by rw [e1]; exact h4, ?_, ?_⟩))
    · exact List.mem_map.mpr ⟨_, h5, rfl⟩
    · exact h2 x hx _ (by rw [e1]; exact List.mem_map_of_mem h4)
  · exact .inr (.inr (.inr (.inl (by rw [e2]; exact h))))
  · exact .inr (.inr (.inr (.inr h)))

/-- `x + -y`: the unchecked name is `y` -/
example (env : PyEnv) : ∃ e' s, visit env (.bin .add (.name exX) (.unary .neg (.name exA))) (freshParser [] []) = (s, .ok e') ∧
    uncheckedNames (.bin .add (.name exX) (.unary .neg (.name exA))) = [exA] ∧ freeNames e' = [exX, exA] ∧ s.visited = [exX] := by
  refine ⟨_, _, by simp [visit, andThen, freshParser, exX, nanStr, setAdd, reserved]; rfl, ?_, ?_, ?_⟩ <;> simp [uncheckedNames, freeNames] <;> rfl

end Cheval
