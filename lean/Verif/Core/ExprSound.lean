import Verif.Core.ExprNames
import Verif.Spec.ExprPlain

/-! # The rewritten expression has the meaning of the written one -/
namespace Cheval
open Spec
variable {F : Type} (M : Arith F) (c : CellEnv F)

/-! ## names -/

structure Good (names : List Str) (s : PSt) : Prop where
  inv : PInv s
  clash : NoDigitClash (s.chains.map (·.1))
  internal : NoInternalNames s.visited
  names : ∀ x ∈ s.visited, x ∈ names

theorem sub_shape {s : PSt} (h : PInv s) {x : Str × Str × Chain} (hx : x ∈ subs s) :
    ∃ k, x.1 = subName x.2.1 k ∧ x.2.1 ∈ s.chains.map (·.1) := by
  obtain ⟨ls, h1, h2⟩ := mem_subs.mp hx
  have : x.1 ∈ ls.map (·.1) := List.mem_map.mpr ⟨_, h2, rfl⟩
  rw [h.names _ h1] at this
  obtain ⟨k, _, e⟩ := List.mem_map.mp this
  exact ⟨k, e.symm, List.mem_map.mpr ⟨_, h1, rfl⟩⟩

theorem lookups_nodup {s : PSt} (h : PInv s) {e : Str × List (Str × Chain)} (he : e ∈ s.chains) : (e.2.map (·.1)).Nodup := by
  rw [h.names e he]
  exact List.Nodup.map (fun _ _ e => subName_inj' e) List.nodup_range

theorem subs_unique {s : PSt} (h : PInv s) (hc : NoDigitClash (s.chains.map (·.1))) {x y : Str × Str × Chain}
    (hx : x ∈ subs s) (hy : y ∈ subs s) (e : x.1 = y.1) : x = y := by
  obtain ⟨k, h1, h2⟩ := sub_shape h hx
  obtain ⟨k', h1', h2'⟩ := sub_shape h hy
  obtain ⟨hr, hk⟩ := subName_inj hc h2 h2' (by rw [← h1, ← h1', e])
  obtain ⟨ls, h3, h4⟩ := mem_subs.mp hx
  obtain ⟨ls', h3', h4'⟩ := mem_subs.mp hy
  have hls : ls = ls' := by
    have a := (dictGet_eq_some h.keys).mpr h3
    rw [hr, (dictGet_eq_some h.keys).mpr h3'] at a
    exact (Option.some.inj a).symm
  subst hls
  have nd := lookups_nodup h h3
  have a := (dictGet_eq_some nd).mpr h4
  rw [e, (dictGet_eq_some nd).mpr h4'] at a
  have a := Option.some.inj a
  obtain ⟨x1, x2, x3⟩ := x
  obtain ⟨y1, y2, y3⟩ := y
  simp only at e hr a
  rw [e, hr, a]

theorem loc_sub {names : List Str} {s : PSt} (h : Good names s) {sub r : Str} {ch : Chain} (hm : (sub, r, ch) ∈ subs s) :
    localNames M c names s sub = c.lookup r ch.path.reverse ch.func := by
  unfold localNames
  have hf : (subs s).reverse.find? (fun x => decide (x.1 = sub)) = some (sub, r, ch) := by
    cases hfi : (subs s).reverse.find? (fun x => decide (x.1 = sub)) with
    | none =>
      rw [List.find?_eq_none] at hfi
      exact absurd (decide_eq_true rfl) (hfi _ (List.mem_reverse.mpr hm))
    | some y =>
      have h1 := List.find?_some hfi
      have h2 := List.mem_reverse.mp (List.mem_of_find?_eq_some hfi)
      rw [subs_unique h.inv h.clash h2 hm (by simpa using h1)]
  rw [hf]

theorem find_none {s : PSt} (h : PInv s) {id : Str} (hid : ¬ subPrefix <+: id) :
    (subs s).reverse.find? (fun x => decide (x.1 = id)) = none := by
  rw [List.find?_eq_none]
  intro x hx
  obtain ⟨k, h1, _⟩ := sub_shape h (List.mem_reverse.mp hx)
  simp only [decide_eq_true_eq]
  rintro rfl
  rw [h1] at hid
  exact hid (sub_prefix _ _)

theorem dictName_not_sub (k : Nat) : ¬ subPrefix <+: dictName k := by
  rintro ⟨t, ht⟩
  simp [dictName, subPrefix, dictPrefix] at ht

theorem dicts_nodup {s : PSt} (h : PInv s) : (s.dicts.map (·.1)).Nodup := by
  rw [h.dicts]
  exact List.Nodup.map (fun _ _ e => dictName_inj e) List.nodup_range

theorem loc_dict {names : List Str} {s : PSt} (h : Good names s) {k : Nat} {lit : Literal} (hm : (dictName k, lit) ∈ s.dicts) :
    localNames M c names s (dictName k) = c.dict lit := by
  unfold localNames
  rw [find_none h.inv (dictName_not_sub k)]
  simp only
  rw [(dictGet_eq_some (dicts_nodup h.inv)).mpr hm]

theorem dictGet_none_of {s : PSt} (h : PInv s) {id : Str} (hid : ¬ dictPrefix <+: id) : dictGet s.dicts id = none := by
  rw [dictGet_eq_none, h.dicts]
  intro hm
  obtain ⟨k, _, rfl⟩ := List.mem_map.mp hm
  exact hid (dict_prefix k)

theorem loc_nan {names : List Str} {s : PSt} (h : Good names s) : localNames M c names s nanStr = some (.num M.nan) := by
  unfold localNames
  rw [find_none h.inv (by rintro ⟨t, ht⟩; simp [subPrefix, nanStr] at ht)]
  simp only
  rw [dictGet_none_of h.inv (by rintro ⟨t, ht⟩; simp [dictPrefix, nanStr] at ht)]
  simp

theorem loc_name {names : List Str} {s : PSt} (h : PInv s) {id : Str} (hid : id ∈ names)
    (hint : ¬ subPrefix <+: id ∧ ¬ dictPrefix <+: id) (hn : isNanName id = false) : localNames M c names s id = c.sym id := by
  unfold localNames
  rw [find_none h hint.1]
  simp only
  rw [dictGet_none_of h hint.2]
  simp only
  rw [if_neg (by rintro rfl; revert hn; decide), if_pos (.inr hid)]

theorem loc_sym {names : List Str} {s : PSt} (h : Good names s) {id : Str} (hid : id ∈ s.visited) (hn : isNanName id = false) :
    localNames M c names s id = c.sym id := loc_name M c h.inv (h.names id hid) (h.internal id hid) hn

/-! ## helpers of the transformer against the specification -/

theorem nameOfAttr_dotted : ∀ (e : PExpr) (r : Str) (p : List Str), dotted e = some (r, p) → nameOfAttr e = .ok (r, p.reverse)
  | .name id, r, p, h => by simp only [dotted, Option.some.injEq, Prod.mk.injEq] at h; obtain ⟨rfl, rfl⟩ := h; rfl
  | .attr e f, r, p, h => by
      simp only [dotted, Option.map_eq_some_iff, Prod.mk.injEq, Prod.exists] at h
      obtain ⟨r', p', h1, rfl, rfl⟩ := h
      simp only [nameOfAttr, nameOfAttr_dotted e r' p' h1, List.reverse_append, List.reverse_cons, List.reverse_nil,
        List.nil_append, List.singleton_append]
  | .num _, _, _, h => by simp [dotted] at h
  | .str _, _, _, h => by simp [dotted] at h
  | .bytes _, _, _, h => by simp [dotted] at h
  | .const _, _, _, h => by simp [dotted] at h
  | .unary _ _, _, _, h => by simp [dotted] at h
  | .bin _ _ _, _, _, h => by simp [dotted] at h
  | .boolop _ _ _, _, _, h => by simp [dotted] at h
  | .compare _ _ _ _, _, _, h => by simp [dotted] at h
  | .call _ _ _, _, _, h => by simp [dotted] at h
  | .dict _, _, _, h => by simp [dotted] at h
  | .banned _, _, _, h => by simp [dotted] at h
  | .display _, _, _, h => by simp [dotted] at h
  | .other _, _, _, h => by simp [dotted] at h

theorem attrKey_dotted : ∀ (e : PExpr) (r : Str) (p acc : List Str), dotted e = some (r, p) →
    dictKey.attrKey e acc = .ok (r :: (p ++ acc))
  | .name id, r, p, acc, h => by simp only [dotted, Option.some.injEq, Prod.mk.injEq] at h; obtain ⟨rfl, rfl⟩ := h; rfl
  | .attr e f, r, p, acc, h => by
      simp only [dotted, Option.map_eq_some_iff, Prod.mk.injEq, Prod.exists] at h
      obtain ⟨r', p', h1, rfl, rfl⟩ := h
      simp only [dictKey.attrKey, attrKey_dotted e r' p' _ h1, List.append_assoc, List.singleton_append]
  | .num _, _, _, _, h => by simp [dotted] at h
  | .str _, _, _, _, h => by simp [dotted] at h
  | .bytes _, _, _, _, h => by simp [dotted] at h
  | .const _, _, _, _, h => by simp [dotted] at h
  | .unary _ _, _, _, _, h => by simp [dotted] at h
  | .bin _ _ _, _, _, _, h => by simp [dotted] at h
  | .boolop _ _ _, _, _, _, h => by simp [dotted] at h
  | .compare _ _ _ _, _, _, _, h => by simp [dotted] at h
  | .call _ _ _, _, _, _, h => by simp [dotted] at h
  | .dict _, _, _, _, h => by simp [dotted] at h
  | .banned _, _, _, _, h => by simp [dotted] at h
  | .display _, _, _, _, h => by simp [dotted] at h
  | .other _, _, _, _, h => by simp [dotted] at h

theorem dictKey_readKey (k : PExpr) (key : List Str) (h : readKey k = some key) : dictKey k = .ok key := by
  cases k with
  | name id => simp only [readKey, Option.some.injEq] at h; subst h; rfl
  | str id => simp only [readKey, Option.some.injEq] at h; subst h; rfl
  | attr e f =>
    simp only [readKey, Option.map_eq_some_iff, Prod.exists] at h
    obtain ⟨r, p, h1, rfl⟩ := h
    simp only [dictKey, attrKey_dotted e r p _ h1]
  | _ => simp [readKey] at h

theorem dictItems_readItems (env : PyEnv) : ∀ (items : PItems) (l acc : Literal), readItems items = some l →
    ((acc ++ l).map (·.1)).Nodup → (∀ e ∈ l, env.f32 e.2 = e.2) → dictItems env items acc = .ok (acc ++ l)
  | .nil, l, acc, h, _, _ => by simp only [readItems, Option.some.injEq] at h; subst h; simp [dictItems]
  | .star _ _, l, acc, h, _, _ => by simp [readItems] at h
  | .cons k v rest, l, acc, h, hn, hf => by
      have key : ∀ ky x l', readKey k = some ky → readItems rest = some l' → l = (ky, x) :: l' →
          dictItems env rest (dictSet acc ky (env.f32 x)) = .ok (acc ++ l) := by
        intro ky x l' h1 h2 h3
        subst h3
        rw [hf (ky, x) (List.mem_cons_self ..)]
        have hnot : ky ∉ acc.map (·.1) := by
          intro hm
          rw [List.map_append, List.nodup_append] at hn
          exact hn.2.2 ky hm ky (by simp) rfl
        rw [dictSet_of_not_mem hnot]
        have := dictItems_readItems env rest l' (acc ++ [(ky, x)]) h2 (by simpa using hn)
          (fun e he => hf e (List.mem_cons_of_mem _ he))
        rw [this]; simp
      simp only [readItems] at h
      split at h
      · rename_i h1 h2
        simp only [Option.some.injEq] at h
        rw [dictItems, dictKey_readKey k _ h1]
        exact key _ _ _ h1 h2 h.symm
      · rename_i h1 h2
        simp only [Option.some.injEq] at h
        rw [dictItems, dictKey_readKey k _ h1]
        exact key _ _ _ h1 h2 h.symm
      · cases h

theorem joinBool_ne (loc : Str → Option (Val F)) (isAnd : Bool) : ∀ (rs : List PExpr) (left : PExpr) (b : Bool) (bs : List Bool),
    ne M loc left = some (.bool b) → rs.map (ne M loc) = bs.map (fun b => some (.bool b)) →
    ne M loc (joinBool (if isAnd then .bitAnd else .bitOr) left rs) =
      some (.bool (if isAnd then bs.foldl (· && ·) b else bs.foldl (· || ·) b))
  | [], left, b, bs, h, hs => by
      have : bs = [] := by simpa using hs.symm
      subst this
      cases isAnd <;> simpa [joinBool] using h
  | r :: rs, left, b, bs, h, hs => by
      cases bs with
      | nil => simp at hs
      | cons b' bs =>
        simp only [List.map_cons, List.cons.injEq] at hs
        rw [joinBool]
        have h1 : ne M loc (.bin (if isAnd then .bitAnd else .bitOr) left r) =
            some (.bool (if isAnd then b && b' else b || b')) := by
          rw [ne, h, hs.1]
          cases isAnd <;> rfl
        rw [joinBool_ne loc isAnd rs _ _ bs h1 hs.2]
        cases isAnd <;> rfl

theorem foldl_and (b : Bool) : ∀ bs : List Bool, bs.foldl (· && ·) b = (b && bs.all id)
  | [] => by simp
  | x :: bs => by simp [foldl_and (b && x) bs, Bool.and_assoc]

theorem foldl_or (b : Bool) : ∀ bs : List Bool, bs.foldl (· || ·) b = (b || bs.any id)
  | [] => by simp
  | x :: bs => by simp [foldl_or (b || x) bs, Bool.or_assoc]

/-- evaluated comparison chain -/
def cmpAll (a : Val F) : List (COp × Val F) → Option (List Bool)
  | [] => some []
  | (op, b) :: rest => match M.cmp op a b, cmpAll b rest with
    | some t, some ts => some (t :: ts)
    | _, _ => none

theorem pairwise_ne (loc : Str → Option (Val F)) : ∀ (rest : List (COp × PExpr)) (left : PExpr) (a : Val F) (vs : List (COp × Val F))
    (ts : List Bool), ne M loc left = some a →
    rest.map (fun x => (x.1, ne M loc x.2)) = vs.map (fun x => (x.1, some x.2)) → cmpAll M a vs = some ts →
    (pairwise left rest).map (ne M loc) = ts.map (fun b => some (.bool b))
  | [], left, a, vs, ts, h, hv, ht => by
      have : vs = [] := by simpa using hv.symm
      subst this
      simp only [cmpAll, Option.some.injEq] at ht
      subst ht; rfl
  | (op, r) :: rest, left, a, vs, ts, h, hv, ht => by
      cases vs with
      | nil => simp at hv
      | cons v vs =>
        obtain ⟨op', b⟩ := v
        simp only [List.map_cons, List.cons.injEq, Prod.mk.injEq] at hv
        obtain ⟨⟨rfl, hr⟩, hv⟩ := hv
        simp only [cmpAll] at ht
        split at ht
        · rename_i t ts' h1 h2
          simp only [Option.some.injEq] at ht
          subst ht
          simp only [pairwise, List.map_cons, pairwise_ne loc rest r b vs ts' hr hv h2, List.cons.injEq, and_true]
          rw [ne, h, hr]
          simp [h1]
        · cases ht

theorem rebuild_ne (loc : Str → Option (Val F)) (l r : PExpr) (op : COp) (rest : List (COp × PExpr)) (a b : Val F)
    (vs : List (COp × Val F)) (ts : List Bool) (hl : ne M loc l = some a) (hr : ne M loc r = some b)
    (hv : rest.map (fun x => (x.1, ne M loc x.2)) = vs.map (fun x => (x.1, some x.2)))
    (ht : cmpAll M a ((op, b) :: vs) = some ts) :
    ne M loc (rebuildCompare l op r rest) = some (.bool (ts.all id)) := by
  cases rest with
  | nil =>
    have : vs = [] := by simpa using hv.symm
    subst this
    simp only [cmpAll] at ht
    split at ht
    · rename_i t ts' h1 h2
      simp only [Option.some.injEq] at ht h2
      subst ht; subst h2
      rw [rebuildCompare, ne, hl, hr]
      simp [h1]
    · cases ht
  | cons x rest =>
    have hp := pairwise_ne M loc ((op, r) :: x :: rest) l a ((op, b) :: vs) ts hl (by simp [hr, ← hv]) ht
    unfold rebuildCompare
    obtain ⟨op2, r2⟩ := x
    simp only [pairwise] at hp ⊢
    cases ts with
    | nil => simp at hp
    | cons t ts =>
      cases ts with
      | nil => simp at hp
      | cons t2 ts =>
        simp only [List.map_cons, List.cons.injEq] at hp
        have h1 : ne M loc (.bin .bitAnd (.compare l op r .nil) (.compare r op2 r2 .nil)) = some (.bool (t && t2)) := by
          rw [ne, hp.1, hp.2.1]; rfl
        have := joinBool_ne M loc true _ _ _ ts h1 hp.2.2
        simp only [if_true] at this
        rw [this, foldl_and]
        simp [Bool.and_assoc]

theorem neList_ofList (loc : Str → Option (Val F)) : ∀ (es : List PExpr) (vs : List (Val F)),
    es.map (ne M loc) = vs.map some → neList M loc (.ofList es) = some vs
  | [], vs, h => by
      have : vs = [] := by simpa using h.symm
      subst this; rfl
  | e :: es, vs, h => by
      cases vs with
      | nil => simp at h
      | cons v vs =>
        simp only [List.map_cons, List.cons.injEq] at h
        rw [PList.ofList, neList, h.1, neList_ofList loc es vs h.2]

/-! ## the main induction -/

/-- the local names `loc` give every name the rewritten expression uses its value: NaN, the symbols, the substituted lookups and dict literals -/
structure Serves (s : PSt) (loc : Str → Option (Val F)) : Prop where
  nan : loc nanStr = some (.num M.nan)
  sym : ∀ (id : Str) (v : Val F), id ∈ s.visited → isNanName id = false → c.sym id = some v → loc id = some v
  sub : ∀ (sub r : Str) (ch : Chain) (v : Val F), (sub, r, ch) ∈ subs s → c.lookup r ch.path.reverse ch.func = some v → loc sub = some v
  dict : ∀ (k : Nat) (lit : Literal) (v : Val F), (dictName k, lit) ∈ s.dicts → c.dict lit = some v → loc (dictName k) = some v
section main
variable (env : PyEnv) (loc : Str → Option (Val F))

mutual
/-- what NumExpr makes of an operand read as written -/
theorem raw_ne {M : Arith F} {c : CellEnv F} {loc : Str → Option (Val F)} {N : List Str}
    (hN : ∀ id ∈ N, isNanName id = false → ∀ v, c.sym id = some v → loc id = some v) :
    ∀ (e : PExpr) (v : Val F), Raw N e → den M c e = some v → ne M loc e = some v
  | .num x, v, _, hd => by simpa [den, ne] using hd
  | .name id, v, hp, hd => by
      simp only [Raw] at hp
      simp only [den, hp.2] at hd
      rw [ne]
      exact hN _ hp.1 hp.2 _ (by simpa using hd)
  | .bin op l r, v, hp, hd => by
      simp only [Raw] at hp
      simp only [den] at hd
      split at hd
      · rename_i va vb ha hb
        rw [ne, raw_ne hN l _ hp.1 ha, raw_ne hN r _ hp.2 hb]
        exact hd
      · cases hd
  | .unary .neg e, v, hp, hd => by
      simp only [Raw] at hp
      simp only [den] at hd
      obtain ⟨w, hw, h⟩ := Option.bind_eq_some_iff.mp hd
      rw [ne, raw_ne hN e w hp hw]
      exact h
  | .call (.name f) args .nil, v, hp, hd => by
      simp only [Raw] at hp
      simp only [den] at hd
      obtain ⟨w, hw, h⟩ := Option.bind_eq_some_iff.mp hd
      rw [ne, rawList_ne hN args w hp hw]
      exact h
  | .str _, _, hp, _ => by simp [Raw] at hp
  | .bytes _, _, hp, _ => by simp [Raw] at hp
  | .const _, _, hp, _ => by simp [Raw] at hp
  | .attr _ _, _, hp, _ => by simp [Raw] at hp
  | .unary .not _, _, hp, _ => by simp [Raw] at hp
  | .unary .pos _, _, hp, _ => by simp [Raw] at hp
  | .unary .invert _, _, hp, _ => by simp [Raw] at hp
  | .boolop _ _ _, _, hp, _ => by simp [Raw] at hp
  | .compare _ _ _ _, _, hp, _ => by simp [Raw] at hp
  | .call (.name _) _ (.cons _ _), _, hp, _ => by simp [Raw] at hp
  | .call (.num _) _ _, _, hp, _ => by simp [Raw] at hp
  | .call (.str _) _ _, _, hp, _ => by simp [Raw] at hp
  | .call (.bytes _) _ _, _, hp, _ => by simp [Raw] at hp
  | .call (.const _) _ _, _, hp, _ => by simp [Raw] at hp
  | .call (.attr _ _) _ _, _, hp, _ => by simp [Raw] at hp
  | .call (.unary _ _) _ _, _, hp, _ => by simp [Raw] at hp
  | .call (.bin _ _ _) _ _, _, hp, _ => by simp [Raw] at hp
  | .call (.boolop _ _ _) _ _, _, hp, _ => by simp [Raw] at hp
  | .call (.compare _ _ _ _) _ _, _, hp, _ => by simp [Raw] at hp
  | .call (.call _ _ _) _ _, _, hp, _ => by simp [Raw] at hp
  | .call (.dict _) _ _, _, hp, _ => by simp [Raw] at hp
  | .call (.banned _) _ _, _, hp, _ => by simp [Raw] at hp
  | .call (.display _) _ _, _, hp, _ => by simp [Raw] at hp
  | .call (.other _) _ _, _, hp, _ => by simp [Raw] at hp
  | .dict _, _, hp, _ => by simp [Raw] at hp
  | .banned _, _, hp, _ => by simp [Raw] at hp
  | .display _, _, hp, _ => by simp [Raw] at hp
  | .other _, _, hp, _ => by simp [Raw] at hp
theorem rawList_ne {M : Arith F} {c : CellEnv F} {loc : Str → Option (Val F)} {N : List Str}
    (hN : ∀ id ∈ N, isNanName id = false → ∀ v, c.sym id = some v → loc id = some v) :
    ∀ (es : PList) (vs : List (Val F)), RawList N es → denList M c es = some vs → neList M loc es = some vs
  | .nil, vs, _, hd => by simpa [denList, neList] using hd
  | .cons e es, vs, hp, hd => by
      simp only [RawList] at hp
      simp only [denList] at hd
      split at hd
      · rename_i va vb ha hb
        rw [neList, raw_ne hN e _ hp.1 ha, rawList_ne hN es _ hp.2 hb]
        exact hd
      · cases hd
end

variable {N : List Str}

mutual
theorem visit_serves : ∀ (e : PExpr) (s s1 : PSt) (e' : PExpr) (v : Val F), PInv s → PlainOver N env e → visit env e s = (s1, .ok e') →
    den M c e = some v → ∀ s2, Ext s1 s2 → (∀ id ∈ N, isNanName id = false → ∀ v, c.sym id = some v → loc id = some v) → Serves M c s2 loc → ne M loc e' = some v
  | .num x, s, s1, e', v, hi, hp, hr, hd, s2, hx, hN, hg => by
      simp only [visit, Prod.mk.injEq, Except.ok.injEq] at hr
      obtain ⟨rfl, rfl⟩ := hr
      simpa [den, ne] using hd
  | .bytes x, s, s1, e', v, hi, hp, hr, hd, s2, hx, hN, hg => by
      simp only [visit, Prod.mk.injEq, Except.ok.injEq] at hr
      obtain ⟨rfl, rfl⟩ := hr
      simpa [den, ne] using hd
  | .const x, s, s1, e', v, hi, hp, hr, hd, s2, hx, hN, hg => by
      simp only [visit, Prod.mk.injEq, Except.ok.injEq] at hr
      obtain ⟨rfl, rfl⟩ := hr
      cases x with
      | none => simp [PlainOver] at hp
      | true => simpa [den, ne] using hd
      | false => simpa [den, ne] using hd
  | .str x, s, s1, e', v, hi, hp, hr, hd, s2, hx, hN, hg => by
      simp only [visit, Prod.mk.injEq, Except.ok.injEq] at hr
      obtain ⟨rfl, rfl⟩ := hr
      simp only [PlainOver] at hp
      rw [if_pos hp]
      simpa [den, ne] using hd
  | .name id, s, s1, e', v, hi, hp, hr, hd, s2, hx, hN, hg => by
      rw [visit] at hr
      obtain ⟨_, _, h | ⟨_, _, _, h⟩ | ⟨h1, h2, h3, h4, _⟩⟩ := visitName_spec hi id hr
      · obtain ⟨h1, rfl, h2⟩ := h
        cases h2
        simp only [den, h1, if_true] at hd
        rw [ne, hg.nan, hd]
      · cases h
      · cases h3
        simp only [den, h1] at hd
        rw [ne]
        exact hg.sym _ _ (hx.visited _ h4) h1 (by simpa using hd)
  | .attr e f, s, s1, e', v, hi, hp, hr, hd, s2, hx, hN, hg => by
      rw [visit] at hr
      simp only [den] at hd
      cases hdt : dotted (.attr e f) with
      | none => rw [hdt] at hd; simp at hd
      | some rp =>
        obtain ⟨r, p⟩ := rp
        rw [hdt] at hd
        simp only [Option.bind_some] at hd
        unfold visitAttr at hr
        rw [nameOfAttr_dotted _ _ _ hdt] at hr
        obtain ⟨_, _, ⟨_, _, h⟩ | ⟨_, k, h1, h2, _⟩⟩ := addChain_spec hi _ _ hr
        · cases h
        · cases h1
          rw [ne]; refine hg.sub _ _ _ _ (hx.subs _ h2) ?_
          simpa using hd
  | .unary .not e, s, s1, e', v, hi, hp, hr, hd, s2, hx, hN, hg => by
      rw [visit] at hr
      obtain ⟨a, sa, h1, h2⟩ := andThen_ok hr
      simp only [Prod.mk.injEq, Except.ok.injEq] at h2
      obtain ⟨rfl, rfl⟩ := h2
      simp only [den] at hd
      split at hd
      · rename_i b hb
        simp only [PlainOver] at hp
        rw [ne, visit_serves e s sa a _ hi hp h1 hb s2 hx hN hg]
        exact hd
      · cases hd
  | .unary .neg e, s, s1, e', v, hi, hp, hr, hd, s2, hx, hN, hg => by
      simp only [visit, Prod.mk.injEq, Except.ok.injEq] at hr
      obtain ⟨rfl, rfl⟩ := hr
      simp only [PlainOver] at hp
      exact raw_ne hN (.unary .neg e) v hp hd
  | .unary .pos e, s, s1, e', v, hi, hp, hr, hd, s2, hx, hN, hg => by simp [visit] at hr
  | .unary .invert e, s, s1, e', v, hi, hp, hr, hd, s2, hx, hN, hg => by simp [visit] at hr
  | .bin op l r, s, s1, e', v, hi, hp, hr, hd, s2, hx, hN, hg => by
      rw [visit] at hr
      obtain ⟨a, sa, h1, h2⟩ := andThen_ok hr
      obtain ⟨b, sb, h3, h4⟩ := andThen_ok h2
      simp only [Prod.mk.injEq, Except.ok.injEq] at h4
      obtain ⟨rfl, rfl⟩ := h4
      simp only [den] at hd
      simp only [PlainOver] at hp
      obtain ⟨ia, xa⟩ := visit_inv env l s hi _ _ h1
      obtain ⟨ib, xb⟩ := visit_inv env r sa ia _ _ h3
      split at hd
      · rename_i va vb ha hb
        rw [ne, visit_serves l s sa a _ hi hp.1 h1 ha s2 (xb.trans hx) hN hg, visit_serves r sa sb b _ ia hp.2 h3 hb s2 hx hN hg]
        exact hd
      · cases hd
  | .boolop isAnd w ws, s, s1, e', v, hi, hp, hr, hd, s2, hx, hN, hg => by
      rw [visit] at hr
      obtain ⟨a, sa, h1, h2⟩ := andThen_ok hr
      obtain ⟨bs, sb, h3, h4⟩ := andThen_ok h2
      simp only [Prod.mk.injEq, Except.ok.injEq] at h4
      obtain ⟨rfl, rfl⟩ := h4
      simp only [den] at hd
      simp only [PlainOver] at hp
      obtain ⟨ia, xa⟩ := visit_inv env w s hi _ _ h1
      obtain ⟨ib, xb⟩ := visitList_inv env ws sa ia _ _ h3
      split at hd
      · rename_i b t ha hb
        obtain ⟨tl, htl, hm⟩ := visitBools_serves isAnd ws sa sb bs t ia hp.2 h3 hb s2 hx hN hg
        rw [joinBool_ne M _ isAnd bs a b tl (visit_serves w s sa a _ hi hp.1 h1 ha s2 (xb.trans hx) hN hg) hm, ← hd, htl, foldl_and,
          foldl_or]
        cases isAnd <;> rfl
      · cases hd
  | .compare l op r rest, s, s1, e', v, hi, hp, hr, hd, s2, hx, hN, hg => by
      rw [visit] at hr
      obtain ⟨a, sa, h1, h2⟩ := andThen_ok hr
      obtain ⟨b, sb, h3, h4⟩ := andThen_ok h2
      obtain ⟨ds, sd, h5, h6⟩ := andThen_ok h4
      simp only [Prod.mk.injEq, Except.ok.injEq] at h6
      obtain ⟨rfl, rfl⟩ := h6
      simp only [den] at hd
      simp only [PlainOver] at hp
      obtain ⟨ia, xa⟩ := visit_inv env l s hi _ _ h1
      obtain ⟨ib, xb⟩ := visit_inv env r sa ia _ _ h3
      obtain ⟨id, xd⟩ := visitCmps_inv env rest sb ib _ _ h5
      split at hd
      · rename_i va vb ha hb
        split at hd
        · rename_i t ts h7 h8
          obtain ⟨vs, tl, hvs, hc, htl⟩ := visitCmps_serves rest vb sb sd ds ts ib hp.2.2 h5 h8 s2 hx hN hg
          rw [rebuild_ne M _ a b op ds va vb vs (t :: tl) (visit_serves l s sa a _ hi hp.1 h1 ha s2 ((xb.trans xd).trans hx) hN hg)
            (visit_serves r sa sb b _ ia hp.2.1 h3 hb s2 (xd.trans hx) hN hg) hvs (by simp [cmpAll, h7, hc]), ← hd, htl]
          rfl
        · cases hd
      · cases hd
  | .call f args kws, s, s1, e', v, hi, hp, hr, hd, s2, hx, hN, hg => by
      cases f with
      | name f =>
        cases kws with
        | cons k ks => simp [den] at hd
        | nil =>
          rw [visit] at hr
          split at hr
          · obtain ⟨es, sa, h1, h2⟩ := andThen_ok hr
            simp only [Prod.mk.injEq, Except.ok.injEq] at h2
            obtain ⟨rfl, rfl⟩ := h2
            simp only [den] at hd
            simp only [PlainOver] at hp
            cases hl : denList M c args with
            | none => rw [hl] at hd; simp at hd
            | some vs =>
              rw [hl] at hd
              have := visitList_serves args s sa es vs hi hp h1 hl s2 hx hN hg
              rw [ne, neList_ofList M _ es vs this]
              exact hd
          · simp at hr
      | attr e field =>
        rw [visit] at hr
        cases kws with
        | cons k ks => simp [den] at hd
        | nil =>
          cases args with
          | nil => simp [den] at hd
          | cons a as =>
            cases as with
            | cons a2 as => simp [den] at hd
            | nil =>
              simp only [den] at hd
              cases hdt : dotted e with
              | none => rw [hdt] at hd; simp at hd
              | some rp =>
                obtain ⟨r, p⟩ := rp
                rw [hdt] at hd
                simp only [Option.bind_some] at hd
                have hda : dotted (.attr e field) = some (r, p ++ [field]) := by simp [dotted, hdt]
                unfold visitMethod at hr
                rw [nameOfAttr_dotted _ _ _ hda] at hr
                simp only [List.reverse_append, List.reverse_cons, List.reverse_nil, List.nil_append,
                  List.singleton_append] at hr
                split at hr
                · simp at hr
                · obtain ⟨_, _, ⟨_, _, h⟩ | ⟨_, k, h1, h2, _⟩⟩ := addChain_spec hi _ _ hr
                  · cases h
                  · cases h1
                    rw [ne]; refine hg.sub _ _ _ _ (hx.subs _ h2) ?_
                    simpa using hd
      | _ => simp [den] at hd
  | .dict items, s, s1, e', v, hi, hp, hr, hd, s2, hx, hN, hg => by
      rw [visit] at hr
      simp only [den] at hd
      simp only [PlainOver] at hp
      cases hl : readItems items with
      | none => rw [hl] at hd; simp at hd
      | some l =>
        rw [hl] at hd
        simp only [Option.bind_some] at hd
        obtain ⟨hn, hf⟩ := hp l hl
        have hit := dictItems_readItems env items l [] hl (by simpa using hn) hf
        obtain ⟨_, _, _, _, _, _, ⟨e, _, h⟩ | ⟨_, lit, k, h1, h2, h3⟩⟩ := visitDict_spec hi env items hr
        · cases h
        · cases h2
          rw [hit] at h1
          cases h1
          rw [ne]; refine hg.dict _ _ _ (hx.dicts _ h3) ?_
          simpa using hd
  | .banned _, s, s1, e', v, hi, hp, hr, hd, s2, hx, hN, hg => by simp [den] at hd
  | .display es, s, s1, e', v, hi, hp, hr, hd, s2, hx, hN, hg => by simp [den] at hd
  | .other es, s, s1, e', v, hi, hp, hr, hd, s2, hx, hN, hg => by simp [den] at hd
theorem visitList_serves : ∀ (es : PList) (s s1 : PSt) (es' : List PExpr) (vs : List (Val F)), PInv s → PlainList N env es →
    visitList env es s = (s1, .ok es') → denList M c es = some vs → ∀ s2, Ext s1 s2 → (∀ id ∈ N, isNanName id = false → ∀ v, c.sym id = some v → loc id = some v) → Serves M c s2 loc →
    es'.map (ne M loc) = vs.map some
  | .nil, s, s1, es', vs, hi, hp, hr, hd, s2, hx, hN, hg => by
      simp only [visitList, Prod.mk.injEq, Except.ok.injEq] at hr
      obtain ⟨rfl, rfl⟩ := hr
      simp only [denList, Option.some.injEq] at hd
      subst hd; rfl
  | .cons e es, s, s1, es', vs, hi, hp, hr, hd, s2, hx, hN, hg => by
      rw [visitList] at hr
      obtain ⟨a, sa, h1, h2⟩ := andThen_ok hr
      obtain ⟨b, sb, h3, h4⟩ := andThen_ok h2
      simp only [Prod.mk.injEq, Except.ok.injEq] at h4
      obtain ⟨rfl, rfl⟩ := h4
      simp only [denList] at hd
      simp only [PlainList] at hp
      obtain ⟨ia, xa⟩ := visit_inv env e s hi _ _ h1
      obtain ⟨ib, xb⟩ := visitList_inv env es sa ia _ _ h3
      split at hd
      · rename_i va vb ha hb
        simp only [Option.some.injEq] at hd
        subst hd
        simp only [List.map_cons, visit_serves e s sa a _ hi hp.1 h1 ha s2 (xb.trans hx) hN hg,
          visitList_serves es sa sb b _ ia hp.2 h3 hb s2 hx hN hg]
      · cases hd
theorem visitBools_serves (isAnd : Bool) : ∀ (es : PList) (s s1 : PSt) (es' : List PExpr) (t : Bool), PInv s → PlainList N env es →
    visitList env es s = (s1, .ok es') → denBools M c isAnd es = some t → ∀ s2, Ext s1 s2 → (∀ id ∈ N, isNanName id = false → ∀ v, c.sym id = some v → loc id = some v) → Serves M c s2 loc →
    ∃ ts : List Bool, t = (if isAnd then ts.all id else ts.any id) ∧
      es'.map (ne M loc) = ts.map (fun b => some (.bool b))
  | .nil, s, s1, es', t, hi, hp, hr, hd, s2, hx, hN, hg => by
      simp only [visitList, Prod.mk.injEq, Except.ok.injEq] at hr
      obtain ⟨rfl, rfl⟩ := hr
      simp only [denBools, Option.some.injEq] at hd
      subst hd
      exact ⟨[], by cases isAnd <;> rfl, rfl⟩
  | .cons e es, s, s1, es', t, hi, hp, hr, hd, s2, hx, hN, hg => by
      rw [visitList] at hr
      obtain ⟨a, sa, h1, h2⟩ := andThen_ok hr
      obtain ⟨b, sb, h3, h4⟩ := andThen_ok h2
      simp only [Prod.mk.injEq, Except.ok.injEq] at h4
      obtain ⟨rfl, rfl⟩ := h4
      simp only [denBools] at hd
      simp only [PlainList] at hp
      obtain ⟨ia, xa⟩ := visit_inv env e s hi _ _ h1
      obtain ⟨ib, xb⟩ := visitList_inv env es sa ia _ _ h3
      split at hd
      · rename_i b0 bs ha hb
        simp only [Option.some.injEq] at hd
        obtain ⟨ts, ht, hm⟩ := visitBools_serves isAnd es sa sb b bs ia hp.2 h3 hb s2 hx hN hg
        refine ⟨b0 :: ts, ?_, ?_⟩
        · rw [← hd, ht]; cases isAnd <;> rfl
        · simp only [List.map_cons, visit_serves e s sa a _ hi hp.1 h1 ha s2 (xb.trans hx) hN hg, hm]
      · cases hd
theorem visitCmps_serves : ∀ (es : PCmps) (a : Val F) (s s1 : PSt) (es' : List (COp × PExpr)) (t : Bool), PInv s → PlainCmps N env es →
    visitCmps env es s = (s1, .ok es') → denCmps M c a es = some t → ∀ s2, Ext s1 s2 → (∀ id ∈ N, isNanName id = false → ∀ v, c.sym id = some v → loc id = some v) → Serves M c s2 loc →
    ∃ (vs : List (COp × Val F)) (ts : List Bool),
      es'.map (fun x => (x.1, ne M loc x.2)) = vs.map (fun x => (x.1, some x.2)) ∧
      cmpAll M a vs = some ts ∧ t = ts.all id
  | .nil, a, s, s1, es', t, hi, hp, hr, hd, s2, hx, hN, hg => by
      simp only [visitCmps, Prod.mk.injEq, Except.ok.injEq] at hr
      obtain ⟨rfl, rfl⟩ := hr
      simp only [denCmps, Option.some.injEq] at hd
      subst hd
      exact ⟨[], [], rfl, rfl, rfl⟩
  | .cons op e es, a, s, s1, es', t, hi, hp, hr, hd, s2, hx, hN, hg => by
      rw [visitCmps] at hr
      obtain ⟨a', sa, h1, h2⟩ := andThen_ok hr
      obtain ⟨b, sb, h3, h4⟩ := andThen_ok h2
      simp only [Prod.mk.injEq, Except.ok.injEq] at h4
      obtain ⟨rfl, rfl⟩ := h4
      simp only [denCmps] at hd
      simp only [PlainCmps] at hp
      obtain ⟨ia, xa⟩ := visit_inv env e s hi _ _ h1
      obtain ⟨ib, xb⟩ := visitCmps_inv env es sa ia _ _ h3
      split at hd
      · rename_i v0 ha
        split at hd
        · rename_i t0 ts h7 h8
          simp only [Option.some.injEq] at hd
          obtain ⟨vs, tl, hvs, hc, htl⟩ := visitCmps_serves es v0 sa sb b ts ia hp.2 h3 h8 s2 hx hN hg
          refine ⟨(op, v0) :: vs, t0 :: tl, ?_, by simp [cmpAll, h7, hc], by rw [← hd, htl]; rfl⟩
          simp only [List.map_cons, visit_serves e s sa a' _ hi hp.1 h1 ha s2 (xb.trans hx) hN hg, hvs]
        · cases hd
      · cases hd
end
end main

theorem serves_localNames {names : List Str} {s : PSt} (h : Good names s) : Serves M c s (localNames M c names s) where
  nan := loc_nan M c h
  sym := fun id v hid hn hv => by rw [loc_sym M c h hid hn, hv]
  sub := fun sub r ch v hm hv => by rw [loc_sub M c h hm, hv]
  dict := fun k lit v hm hv => by rw [loc_dict M c h hm, hv]

theorem visit_sound (env : PyEnv) (names : List Str) (e : PExpr) (s s1 : PSt) (e' : PExpr) (v : Val F) (hi : PInv s)
    (hp : Plain env e) (hr : visit env e s = (s1, .ok e')) (hd : den M c e = some v) (s2 : PSt) (hx : Ext s1 s2)
    (hg : Good names s2) : ne M (localNames M c names s2) e' = some v :=
  visit_serves M c env _ e s s1 e' v hi hp hr hd s2 hx
    (fun id hid hn w hw => (serves_localNames M c hg).sym id w
      (hx.visited id (((visit_adds env e s s1 e' hi hr).visited id).mpr (.inr hid))) hn hw) (serves_localNames M c hg)

/-- the same for a fresh parser and any local names that serve it -/
theorem visit_serves_fresh (env : PyEnv) (loc : Str → Option (Val F)) {e e' : PExpr} {s s1 : PSt} {v : Val F} (hi : PInv s)
    (hp : Plain env e) (hr : visit env e s = (s1, .ok e')) (hd : den M c e = some v) (hg : Serves M c s1 loc) :
    ne M loc e' = some v :=
  visit_serves M c env loc e s s1 e' v hi hp hr hd s1 (Ext.refl _)
    (fun id hid hn w hw => hg.sym id w (((visit_adds env e s s1 e' hi hr).visited id).mpr (.inr hid)) hn hw) hg

end Cheval
