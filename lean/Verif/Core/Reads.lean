import Verif.Core.OutFree
import Verif.Core.ExprNames
import Verif.Core.ExprSound

/-! # An expression reads only the symbols it records -/
namespace Cheval
open Spec FOps
variable {F : Type}

theorem dotted_root : ∀ (e : PExpr) (r : Str) (p : List Str), dotted e = some (r, p) → rootName e = some r
  | .name _, r, p, h => by
      simp only [dotted, Option.some.injEq, Prod.mk.injEq] at h
      simp [rootName, h.1]
  | .attr e f, r, p, h => by
      simp only [dotted, Option.map_eq_some_iff] at h
      obtain ⟨⟨r', p'⟩, h1, h2⟩ := h
      simp only [Prod.mk.injEq] at h2
      rw [rootName, ← h2.1]
      exact dotted_root e _ _ h1
  | .num _, _, _, h => by simp [dotted] at h
  | .str _, _, _, h => by simp [dotted] at h
  | .bytes _, _, _, h => by simp [dotted] at h
  | .const _, _, _, h => by simp [dotted] at h
  | .unary _ _, _, _, h => by simp [dotted] at h
  | .bin _ _ _, _, _, h => by simp [dotted] at h
  | .boolop _ _ _, _, _, h => by simp [dotted] at h
  | .compare _ _ _ _, _, _, h => by simp [dotted] at h
  | .call _ _ _, _, _, h => by simp [dotted] at h
  | .dict _, _, _, h => by simp [dotted] at h
  | .banned _, _, _, h => by simp [dotted] at h
  | .display _, _, _, h => by simp [dotted] at h
  | .other _, _, _, h => by simp [dotted] at h

section
variable (M : Arith F) (env : PyEnv) {c c' : CellEnv F}

mutual
theorem raw_reads {N : List Str} (hN : ∀ n ∈ N, c.sym n = c'.sym n) : ∀ e : PExpr, Raw N e → den M c e = den M c' e
  | .num x, _ => by simp only [den]
  | .name id, hp => by
    simp only [Raw] at hp
    simp only [den, hN id hp.1]
  | .bin op l r, hp => by
    simp only [Raw] at hp
    simp only [den, raw_reads hN l hp.1, raw_reads hN r hp.2]
  | .unary .neg e, hp => by
    simp only [Raw] at hp
    simp only [den, raw_reads hN e hp]
  | .call (.name f) args .nil, hp => by
    simp only [Raw] at hp
    simp only [den, rawList_reads hN args hp]
  | .str _, hp => by simp [Raw] at hp
  | .bytes _, hp => by simp [Raw] at hp
  | .const _, hp => by simp [Raw] at hp
  | .attr _ _, hp => by simp [Raw] at hp
  | .unary .not _, hp => by simp [Raw] at hp
  | .unary .pos _, hp => by simp [Raw] at hp
  | .unary .invert _, hp => by simp [Raw] at hp
  | .boolop _ _ _, hp => by simp [Raw] at hp
  | .compare _ _ _ _, hp => by simp [Raw] at hp
  | .call (.name _) _ (.cons _ _), hp => by simp [Raw] at hp
  | .call (.num _) _ _, hp => by simp [Raw] at hp
  | .call (.str _) _ _, hp => by simp [Raw] at hp
  | .call (.bytes _) _ _, hp => by simp [Raw] at hp
  | .call (.const _) _ _, hp => by simp [Raw] at hp
  | .call (.attr _ _) _ _, hp => by simp [Raw] at hp
  | .call (.unary _ _) _ _, hp => by simp [Raw] at hp
  | .call (.bin _ _ _) _ _, hp => by simp [Raw] at hp
  | .call (.boolop _ _ _) _ _, hp => by simp [Raw] at hp
  | .call (.compare _ _ _ _) _ _, hp => by simp [Raw] at hp
  | .call (.call _ _ _) _ _, hp => by simp [Raw] at hp
  | .call (.dict _) _ _, hp => by simp [Raw] at hp
  | .call (.banned _) _ _, hp => by simp [Raw] at hp
  | .call (.display _) _ _, hp => by simp [Raw] at hp
  | .call (.other _) _ _, hp => by simp [Raw] at hp
  | .dict _, hp => by simp [Raw] at hp
  | .banned _, hp => by simp [Raw] at hp
  | .display _, hp => by simp [Raw] at hp
  | .other _, hp => by simp [Raw] at hp
theorem rawList_reads {N : List Str} (hN : ∀ n ∈ N, c.sym n = c'.sym n) : ∀ es : PList, RawList N es → denList M c es = denList M c' es
  | .nil, _ => by simp only [denList]
  | .cons e es, hp => by
    simp only [RawList] at hp
    simp only [denList, raw_reads hN e hp.1, rawList_reads hN es hp.2]
end

variable {N : List Str} (hN : ∀ n ∈ N, c.sym n = c'.sym n) (hd : c.dict = c'.dict)
include hN hd

mutual
theorem den_reads : ∀ e : PExpr, PlainOver N env e → (∀ n ∈ simpleNames e, c.sym n = c'.sym n) →
    (∀ n ∈ tableNames e, c.lookup n = c'.lookup n) → den M c e = den M c' e
  | .num _, _, _, _ => by simp only [den]
  | .str _, _, _, _ => by simp only [den]
  | .bytes _, _, _, _ => by simp only [den]
  | .const .true, _, _, _ => by simp only [den]
  | .const .false, _, _, _ => by simp only [den]
  | .const .none, _, _, _ => by simp only [den]
  | .name n, _, hs, _ => by
    simp only [den]
    by_cases hn : isNanName n = true
    · simp [hn]
    · have hn : isNanName n = false := by simpa using hn
      simp only [hn, Bool.false_eq_true, if_false]
      exact hs n (by simp [simpleNames, hn])
  | .attr e f, _, _, ht => by
    simp only [den]
    cases hx : dotted (.attr e f) with
    | none => rfl
    | some rp =>
      obtain ⟨r, p⟩ := rp
      have := dotted_root _ _ _ hx
      simp only [rootName] at this
      simp only [Option.bind_some, ht r (by simp [tableNames, this])]
  | .unary .not e, hp, hs, ht => by
    simp only [PlainOver] at hp
    simp only [simpleNames, tableNames] at hs ht
    simp only [den, den_reads e hp hs ht]
  | .unary .neg e, hp, hs, ht => by
    simp only [PlainOver] at hp
    simp only [den, raw_reads M hN e hp]
  | .unary .pos _, _, _, _ => by simp only [den]
  | .unary .invert _, _, _, _ => by simp only [den]
  | .bin _ l r, hp, hs, ht => by
    simp only [PlainOver] at hp
    simp only [simpleNames, tableNames, List.mem_append] at hs ht
    simp only [den, den_reads l hp.1 (fun n hn => hs n (.inl hn)) (fun n hn => ht n (.inl hn)),
      den_reads r hp.2 (fun n hn => hs n (.inr hn)) (fun n hn => ht n (.inr hn))]
  | .boolop isAnd v vs, hp, hs, ht => by
    simp only [PlainOver] at hp
    simp only [simpleNames, tableNames, List.mem_append] at hs ht
    simp only [den, den_reads v hp.1 (fun n hn => hs n (.inl hn)) (fun n hn => ht n (.inl hn)),
      denBools_reads isAnd vs hp.2 (fun n hn => hs n (.inr hn)) (fun n hn => ht n (.inr hn))]
  | .compare l _ r rest, hp, hs, ht => by
    simp only [PlainOver] at hp
    simp only [simpleNames, tableNames, List.mem_append] at hs ht
    simp only [den, den_reads l hp.1 (fun n hn => hs n (.inl (.inl hn))) (fun n hn => ht n (.inl (.inl hn))),
      den_reads r hp.2.1 (fun n hn => hs n (.inl (.inr hn))) (fun n hn => ht n (.inl (.inr hn))),
      fun a => denCmps_reads a rest hp.2.2 (fun n hn => hs n (.inr hn)) (fun n hn => ht n (.inr hn))]
  | .call (.name f) args kws, hp, hs, ht => by
    simp only [PlainOver] at hp
    simp only [simpleNames, tableNames] at hs ht
    have ha := denList_reads args hp hs ht
    cases kws <;> simp only [den, ha]
  | .call (.attr e f) args kws, _, _, ht => by
    simp only [tableNames] at ht
    have key : ∀ agg, ((dotted e).bind fun (r, p) => c.lookup r p agg) = (dotted e).bind fun (r, p) => c'.lookup r p agg := by
      intro agg
      cases hx : dotted e with
      | none => rfl
      | some rp =>
        obtain ⟨r, p⟩ := rp
        have := dotted_root _ _ _ hx
        simp only [Option.bind_some, ht r (by simp [this])]
    match args, kws with
    | .nil, _ => simp only [den]
    | .cons _ (.cons _ _), _ => simp only [den]
    | .cons _ .nil, .cons _ _ => simp only [den]
    | .cons a .nil, .nil => simp only [den]; exact key _
  | .call (.num _) _ _, _, _, _ => by simp only [den]
  | .call (.str _) _ _, _, _, _ => by simp only [den]
  | .call (.bytes _) _ _, _, _, _ => by simp only [den]
  | .call (.const _) _ _, _, _, _ => by simp only [den]
  | .call (.unary _ _) _ _, _, _, _ => by simp only [den]
  | .call (.bin _ _ _) _ _, _, _, _ => by simp only [den]
  | .call (.boolop _ _ _) _ _, _, _, _ => by simp only [den]
  | .call (.compare _ _ _ _) _ _, _, _, _ => by simp only [den]
  | .call (.call _ _ _) _ _, _, _, _ => by simp only [den]
  | .call (.dict _) _ _, _, _, _ => by simp only [den]
  | .call (.banned _) _ _, _, _, _ => by simp only [den]
  | .call (.display _) _ _, _, _, _ => by simp only [den]
  | .call (.other _) _ _, _, _, _ => by simp only [den]
  | .dict _, _, _, _ => by simp only [den, hd]
  | .banned _, _, _, _ => by simp only [den]
  | .display _, _, _, _ => by simp only [den]
  | .other _, _, _, _ => by simp only [den]
theorem denList_reads : ∀ es : PList, PlainList N env es → (∀ n ∈ simpleNamesL es, c.sym n = c'.sym n) →
    (∀ n ∈ tableNamesL es, c.lookup n = c'.lookup n) → denList M c es = denList M c' es
  | .nil, _, _, _ => by simp only [denList]
  | .cons e es, hp, hs, ht => by
    simp only [PlainList] at hp
    simp only [simpleNamesL, tableNamesL, List.mem_append] at hs ht
    simp only [denList, den_reads e hp.1 (fun n hn => hs n (.inl hn)) (fun n hn => ht n (.inl hn)),
      denList_reads es hp.2 (fun n hn => hs n (.inr hn)) (fun n hn => ht n (.inr hn))]
theorem denBools_reads (isAnd : Bool) : ∀ es : PList, PlainList N env es → (∀ n ∈ simpleNamesL es, c.sym n = c'.sym n) →
    (∀ n ∈ tableNamesL es, c.lookup n = c'.lookup n) → denBools M c isAnd es = denBools M c' isAnd es
  | .nil, _, _, _ => by simp only [denBools]
  | .cons e es, hp, hs, ht => by
    simp only [PlainList] at hp
    simp only [simpleNamesL, tableNamesL, List.mem_append] at hs ht
    simp only [denBools, den_reads e hp.1 (fun n hn => hs n (.inl hn)) (fun n hn => ht n (.inl hn)),
      denBools_reads isAnd es hp.2 (fun n hn => hs n (.inr hn)) (fun n hn => ht n (.inr hn))]
theorem denCmps_reads (a : Val F) : ∀ es : PCmps, PlainCmps N env es → (∀ n ∈ simpleNamesC es, c.sym n = c'.sym n) →
    (∀ n ∈ tableNamesC es, c.lookup n = c'.lookup n) → denCmps M c a es = denCmps M c' a es
  | .nil, _, _, _ => by simp only [denCmps]
  | .cons _ e es, hp, hs, ht => by
    simp only [PlainCmps] at hp
    simp only [simpleNamesC, tableNamesC, List.mem_append] at hs ht
    simp only [denCmps, den_reads e hp.1 (fun n hn => hs n (.inl hn)) (fun n hn => ht n (.inl hn)),
      fun a => denCmps_reads a es hp.2 (fun n hn => hs n (.inr hn)) (fun n hn => ht n (.inr hn))]
end
end

variable [FOps F]

/-- two scopes that agree on the recorded symbols give an expression the same value -/
theorem cellStep_reads (K : Kernel F) {env : PyEnv} {src : Source} {x : Expression} (hp : Parsed env src x) (hpl : Plain env src.1)
    {scope scope' : List (Str × Sym F)} (hs : ∀ n ∈ x.symbols, n ∉ reserved → dictGet scope n = dictGet scope' n)
    (ht : ∀ n ∈ x.chains.map (·.1), dictGet scope n = dictGet scope' n) (path : List Name) (i j : Nat) (cur : F) :
    cellStep K scope path i j cur src = cellStep K scope' path i j cur src := by
  obtain ⟨_, si, ch, s, hv, hch, _, hsy⟩ := hp
  have ha := visit_adds env _ _ _ _ (PInv.fresh si ch) hv
  unfold cellStep
  have : den K.toArith (cellEnv K scope path cur i j) src.1 = den K.toArith (cellEnv K scope' path cur i j) src.1 := by
    have hsym : ∀ n ∈ simpleNames src.1, (cellEnv K scope path cur i j).sym n = (cellEnv K scope' path cur i j).sym n := by
      intro n hn
      have hn' : n ∈ x.symbols := by rw [hsy]; exact (ha.visited n).mpr (.inr hn)
      simp only [cellEnv]
      by_cases h1 : n = nanStr
      · simp [h1]
      · by_cases h2 : n = outStr
        · simp [h2]
        · by_cases h3 : n = negInfStr
          · simp [h3]
          · rw [if_neg h1, if_neg h2, if_neg h3, if_neg h1, if_neg h2, if_neg h3, hs n hn' (by simp [reserved, h1, h2, h3])]
    refine den_reads K.toArith env (c := cellEnv K scope path cur i j) (c' := cellEnv K scope' path cur i j) hsym rfl src.1 hpl hsym ?_
    · intro n hn
      have hn' : n ∈ x.chains.map (·.1) := by rw [hch]; exact (ha.keys n).mpr (.inr hn)
      funext p agg
      simp only [cellEnv, lookupCol, ht n hn']
  rw [this]

theorem cellTotal_reads (K : Kernel F) {env : PyEnv} {scope scope' : List (Str × Sym F)} {srcs : List Source} {xs : List Expression}
    (h : List.Forall₂ (fun src x => Parsed env src x ∧ Plain env src.1) srcs xs)
    (hs : ∀ x ∈ xs, ∀ n ∈ x.symbols, n ∉ reserved → dictGet scope n = dictGet scope' n)
    (ht : ∀ x ∈ xs, ∀ n ∈ x.chains.map (·.1), dictGet scope n = dictGet scope' n) (path : List Name) (i j : Nat) (cur : F) :
    cellTotal K scope path i j srcs cur = cellTotal K scope' path i j srcs cur := by
  induction h generalizing cur with
  | nil => rfl
  | @cons src x srcs xs hx _ ih =>
    simp only [cellTotal, List.foldlM_cons, bind]
    rw [cellStep_reads K hx.1 hx.2 (hs x (by simp)) (ht x (by simp)) path i j cur]
    congr 1
    funext b
    exact ih (fun y hy => hs y (by simp [hy])) (fun y hy => ht y (by simp [hy])) b

end Cheval
