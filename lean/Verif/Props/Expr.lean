import Verif.Core.ExprSound
import Verif.Core.ExprNames
import Verif.Core.ExprGroup

/-!
# C21, C22, C25, C26: one expression
-/
set_option linter.unusedSimpArgs false
namespace Cheval
open Spec

/-! ## C21 -/

/-- **C21** If the transformer accepts an expression whose unary minuses apply to numbers, then at every cell where the
written expression has a value, the rewritten expression, evaluated by NumExpr with the local names the model supplies, has
the same value. For every arithmetic, every binding of the symbols and tables, every prior set of symbols. -/
theorem C21_rewriting {F : Type} (M : Arith F) (c : CellEnv F) (env : PyEnv) (simple chained : List Str) (e e' : PExpr) (s : PSt)
    (names : List Str) (hp : Plain env e) (hv : visit env e (freshParser simple chained) = (s, .ok e'))
    (hnames : ∀ x ∈ s.visited, x ∈ names) (hint : NoInternalNames s.visited) (hclash : NoDigitClash (s.chains.map (·.1)))
    (v : Val F) (hd : den M c e = some v) : ne M (localNames M c names s) e' = some v :=
  visit_sound M c env names e _ s e' v (PInv.fresh _ _) hp hv hd s (Ext.refl s)
    ⟨(visit_inv env e _ (PInv.fresh _ _) _ _ hv).1, hclash, hint, hnames⟩

/-- the names of the example below -/
def exX : Str := ['x']
def exT : Str := ['t']
def exA : Str := ['a']
def exB : Str := ['b']

/-- a non-trivial expression meeting the hypotheses: `not (0 < x < t.a and x == nan)` -/
example (env : PyEnv) : ∃ (e e' : PExpr) (s : PSt), Plain env e ∧ visit env e (freshParser [] []) = (s, .ok e') ∧
    (∀ x ∈ s.visited, x ∈ [exX]) ∧ NoInternalNames s.visited ∧ NoDigitClash (s.chains.map (·.1)) ∧
    e = .unary .not (.boolop true (.compare (.num 0) .lt (.name exX) (.cons .lt (.attr (.name exT) exA) .nil))
      (.cons (.compare (.name exX) .eq (.name ['n', 'a', 'n']) .nil) .nil)) := by
  have h1 : isNanName exX = false := by decide
  have exX_ne : exX ≠ exT := by decide
  have exT_ne : exT ≠ exX := by decide
  have h2 : isNanName ['n', 'a', 'n'] = true := by decide
  refine ⟨_, .unary .invert (.bin .bitAnd (.bin .bitAnd (.compare (.num 0) .lt (.name exX) .nil)
      (.compare (.name exX) .lt (.name (subName exT 0)) .nil)) (.compare (.name exX) .eq (.name nanStr) .nil)),
    ⟨[exX], [exT], [(exT, [(subName exT 0, ⟨[exA], none⟩)])], [], [exX]⟩, ?_, ?_, ?_, ?_, ?_, rfl⟩
  · simp [Plain, PlainOver, PlainList, PlainCmps]
  · simp [visit, visitList, visitCmps, visitName, visitAttr, nameOfAttr, addChain, andThen, freshParser, setAdd, h1, h2, dictGet,
      dictSet, rebuildCompare, pairwise, joinBool, subName, exX_ne, exT_ne]
  · simp
  · intro x hx
    simp at hx
    subst hx
    refine ⟨?_, ?_⟩ <;> rintro ⟨t, ht⟩ <;> simp [subPrefix, dictPrefix, exX] at ht
  · intro a ha d hd _ hc
    simp at ha hc
    subst ha
    simp [hd] at hc

/-- **C21 (unary minus)** Below a unary minus numbers, variables that are also used by any other expression of the model
(`others`, part of the symbols `names` NumExpr is given) and operations and function calls on them keep their meaning. -/
theorem C21_minus {F : Type} (M : Arith F) (c : CellEnv F) (env : PyEnv) (simple chained : List Str) (e e' : PExpr) (s : PSt)
    (names others : List Str) (hp : PlainOver others env e) (hv : visit env e (freshParser simple chained) = (s, .ok e'))
    (hnames : ∀ x ∈ s.visited ++ others, x ∈ names) (hint : NoInternalNames (s.visited ++ others))
    (hclash : NoDigitClash (s.chains.map (·.1))) (v : Val F) (hd : den M c e = some v) :
    ne M (localNames M c names s) e' = some v := by
  have hi := (visit_inv env e _ (PInv.fresh _ _) _ _ hv).1
  refine visit_serves M c env _ e _ s e' v (PInv.fresh _ _) hp hv hd s (Ext.refl s) ?_
    (serves_localNames M c ⟨hi, hclash, fun x hx => hint x (List.mem_append_left _ hx), fun x hx => hnames x (List.mem_append_left _ hx)⟩)
  intro id hid hn w hw
  rw [loc_name M c hi (hnames id (List.mem_append_right _ hid)) (hint id (List.mem_append_right _ hid)) hn, hw]

/-- `-(2 * x) + x` is plain; `-(2 * x)` is plain over the `x` of another expression -/
example (env : PyEnv) : Plain env (.bin .add (.unary .neg (.bin .mul (.num 2) (.name exX))) (.name exX)) ∧
    PlainOver [exX] env (.unary .neg (.bin .mul (.num 2) (.name exX))) ∧
    (∃ s, visit env (.unary .neg (.bin .mul (.num 2) (.name exX))) (freshParser [] []) =
      (s, .ok (.unary .neg (.bin .mul (.num 2) (.name exX)))) ∧ NoInternalNames (s.visited ++ [exX]) ∧
      NoDigitClash (s.chains.map (·.1))) := by
  have h1 : isNanName exX = false := by decide
  refine ⟨by simp [Plain, PlainOver, Raw, simpleNames, h1], by simp [PlainOver, Raw, h1], _, rfl, ?_, ?_⟩
  · intro x hx
    simp [freshParser] at hx
    subst hx
    refine ⟨?_, ?_⟩ <;> rintro ⟨t, ht⟩ <;> simp [subPrefix, dictPrefix, exX] at ht
  · intro a ha
    simp [freshParser] at ha

/-- **C21 (violated for `None`)** `None` is documented to mean NaN, but it is not a name in Python 3: the constant stays in the
expression, which NumExpr rejects. -/
theorem C21_none_refuted {F : Type} (M : Arith F) (c : CellEnv F) (env : PyEnv) :
    ∃ (e e' : PExpr) (s : PSt), visit env e (freshParser [] []) = (s, .ok e') ∧ den M c e = some (.num M.nan) ∧
      ∀ names, ne M (localNames M c names s) e' = none :=
  ⟨.const .none, .const .none, _, rfl, rfl, fun _ => rfl⟩

/-- **C21 (violated under unary minus)** `-x` is left as it is, so `x` is not among the recorded symbols: NumExpr does not
find it, unless another expression uses it. Likewise `-t.a` keeps the attribute, which NumExpr rejects in any case. -/
theorem C21_minus_refuted {F : Type} (M : Arith F) (c : CellEnv F) (env : PyEnv) (a : F) (b : Val F)
    (hneg : M.neg (.num a) = some b) (hx : c.sym exX = some (.num a)) (hl : c.lookup exT [exA] none = some (.num a)) :
    (∃ e' s, visit env (.unary .neg (.name exX)) (freshParser [] []) = (s, .ok e') ∧
      den M c (.unary .neg (.name exX)) = some b ∧ ne M (localNames M c s.visited s) e' = none) ∧
    (∃ e' s, visit env (.unary .neg (.attr (.name exT) exA)) (freshParser [] []) = (s, .ok e') ∧
      den M c (.unary .neg (.attr (.name exT) exA)) = some b ∧ ∀ names, ne M (localNames M c names s) e' = none) := by
  have h1 : isNanName exX = false := by decide
  refine ⟨⟨_, _, rfl, ?_, ?_⟩, ⟨_, _, rfl, ?_, fun _ => ?_⟩⟩
  · simp [den, h1, hx, hneg]
  · simp [ne, localNames, subs, freshParser, dictGet, exX, nanStr, reserved, outStr, negInfStr]
  · simp [den, dotted, hl, hneg]
  · simp [ne]

/-- **C21 (violated for strings from Python 3.8 on)** A text literal stays text, which NumExpr rejects. -/
theorem C21_string_refuted {F : Type} (M : Arith F) (c : CellEnv F) (env : PyEnv) (h : env.strNodes = false) (t : Str) :
    ∃ (e' : PExpr) (s : PSt), visit env (.str t) (freshParser [] []) = (s, .ok e') ∧ den M c (.str t) = some (.text t) ∧
      ∀ names, ne M (localNames M c names s) e' = none :=
  ⟨.str t, _, by simp only [visit, h]; rfl, rfl, fun _ => rfl⟩

/-! ## C26 -/

/-- **C26 (partial)** If no table name is another one followed by digits, the lookups of an accepted or rejected expression
have pairwise distinct substitution names. -/
theorem C26_distinct_partial (env : PyEnv) (simple chained : List Str) (e : PExpr) (s : PSt) (r : Except Err PExpr)
    (hv : visit env e (freshParser simple chained) = (s, r)) (hclash : NoDigitClash (s.chains.map (·.1))) :
    ∀ x ∈ subs s, ∀ y ∈ subs s, x.1 = y.1 → x = y := by
  intro x hx y hy e'
  exact subs_unique (visit_inv env e _ (PInv.fresh _ _) _ _ hv).1 hclash hx hy e'

/-- **C26 (tables)** Without any hypothesis: two lookups on the same table never share a substitution name, and dict literals
never share one with each other or with a lookup. -/
theorem C26_same_table (env : PyEnv) (simple chained : List Str) (e : PExpr) (s : PSt) (r : Except Err PExpr)
    (hv : visit env e (freshParser simple chained) = (s, r)) :
    (∀ t ls, (t, ls) ∈ s.chains → (ls.map (·.1)).Nodup) ∧ (s.dicts.map (·.1)).Nodup ∧
    (∀ x ∈ subs s, x.1 ∉ s.dicts.map (·.1)) := by
  have h := (visit_inv env e _ (PInv.fresh _ _) _ _ hv).1
  refine ⟨fun t ls hm => lookups_nodup h hm, dicts_nodup h, ?_⟩
  intro x hx hm
  rw [h.dicts] at hm
  obtain ⟨k, _, e⟩ := List.mem_map.mp hm
  obtain ⟨k', h1, _⟩ := sub_shape h hx
  exact sub_ne_dict _ _ _ (h1.symm.trans e.symm)

/-- table `a1` -/
def exA1 : Str := ['a', '1']
/-- `a.x + a.x + ...`, `n + 1` times -/
def manyLookups : Nat → PExpr
  | 0 => .attr (.name exA) exX
  | n + 1 => .bin .add (manyLookups n) (.attr (.name exA) exX)

theorem manyLookups_visit (env : PyEnv) (n : Nat) : ∃ (e' : PExpr) (s : PSt) (ls : List (Str × Chain)),
    visit env (manyLookups n) (freshParser [] []) = (s, .ok e') ∧ s.chains = [(exA, ls)] ∧ ls.length = n + 1 ∧
      s.simple = [] ∧ s.dicts = [] ∧ ∃ ch, (subName exA n, ch) ∈ ls ∧ ch = ⟨[exX], none⟩ := by
  induction n with
  | zero =>
    refine ⟨.name (subName exA 0), ⟨[], [exA], [(exA, [(subName exA 0, ⟨[exX], none⟩)])], [], []⟩, [(subName exA 0, ⟨[exX], none⟩)],
      ?_, rfl, rfl, rfl, rfl, ⟨_, List.mem_singleton.mpr rfl, rfl⟩⟩
    simp [manyLookups, visit, visitAttr, nameOfAttr, addChain, freshParser, dictGet, dictSet, setAdd, subName]
  | succ n ih =>
    obtain ⟨e', s, ls, hv, hc, hl, hs, hd, _⟩ := ih
    have hi := (visit_inv env _ _ (PInv.fresh _ _) _ _ hv).1
    have hg : dictGet s.chains exA = some ls := by rw [hc]; simp [dictGet]
    have hset : dictSet ls (subPrefix ++ exA ++ decimal ls.length) ⟨[exX], none⟩ =
        ls ++ [(subName exA (n + 1), ⟨[exX], none⟩)] := by
      have hf := lookups_fresh (hi.names (exA, ls) (by rw [hc]; simp))
      rw [show subPrefix ++ exA ++ decimal ls.length = subName exA ls.length from rfl, dictSet_of_not_mem hf, hl]
    refine ⟨.bin .add e' (.name (subName exA (n + 1))), ⟨s.simple, setAdd s.chainedAll exA,
      [(exA, ls ++ [(subName exA (n + 1), ⟨[exX], none⟩)])], s.dicts, s.visited⟩, _, ?_, rfl, by simp [hl], hs, hd,
      ⟨_, List.mem_append_right _ (List.mem_singleton.mpr rfl), rfl⟩⟩
    rw [manyLookups, visit, hv]
    simp only [andThen, visit, visitAttr, nameOfAttr, addChain, hs, hg, Option.getD_some, hset, List.not_mem_nil, if_false]
    rw [hc, show subPrefix ++ exA ++ decimal ls.length = subName exA (n + 1) by rw [hl]; rfl]
    simp [dictSet]

theorem sub_collision : subName exA1 0 = subName exA 10 := by
  have h0 : decimal 0 = ['0'] := by unfold decimal; rfl
  have h1 : decimal 1 = ['1'] := by unfold decimal; rfl
  have h10 : decimal 10 = ['1', '0'] := by unfold decimal; simp only [Nat.reduceLT, if_false, Nat.reduceDiv, h1]; rfl
  unfold subName; rw [h0, h10]; rfl

/-- **C26 (violated)** In `a.x + ... + a.x + a1.y` with eleven lookups on `a`, the last lookup on `a` and the lookup on `a1`
get the same substitution name, and NumExpr is given the data of `a1` for both. -/
theorem C26_collision_refuted (env : PyEnv) : ∃ (e' : PExpr) (s : PSt) (sub : Str),
    visit env (.bin .add (manyLookups 10) (.attr (.name exA1) exB)) (freshParser [] []) = (s, .ok e') ∧
      (sub, exA, ⟨[exX], none⟩) ∈ subs s ∧ (sub, exA1, ⟨[exB], none⟩) ∈ subs s ∧
      ∀ {F : Type} (M : Arith F) (c : CellEnv F) (names : List Str), localNames M c names s sub = c.lookup exA1 [exB] none := by
  obtain ⟨e', s, ls, hv, hc, hl, hs, hd, ch, hm, rfl⟩ := manyLookups_visit env 10
  have hv2 : visit env (.bin .add (manyLookups 10) (.attr (.name exA1) exB)) (freshParser [] []) =
      (⟨s.simple, setAdd s.chainedAll exA1, [(exA, ls), (exA1, [(subName exA1 0, ⟨[exB], none⟩)])], s.dicts, s.visited⟩,
       .ok (.bin .add e' (.name (subName exA1 0)))) := by
    rw [visit, hv]
    have hg : dictGet s.chains exA1 = none := by rw [hc]; simp [dictGet, exA, exA1]
    simp only [andThen, visit, visitAttr, nameOfAttr, addChain, hs, hg, Option.getD_none, List.not_mem_nil, if_false]
    rw [hc]
    simp [dictSet, exA, exA1, subName]
  refine ⟨_, _, subName exA1 0, hv2, ?_, ?_, ?_⟩
  · rw [mem_subs]
    exact ⟨ls, by simp, by rw [sub_collision]; exact hm⟩
  · rw [mem_subs]
    exact ⟨[(subName exA1 0, ⟨[exB], none⟩)], by simp, by simp⟩
  · intro F M c names
    simp [localNames, subs]

/-! ## C22 -/

mutual
/-- the names NumExpr looks up in an expression (functions are looked up elsewhere; below attributes it fails anyway) -/
def freeNames : PExpr → List Str
  | .name id => [id]
  | .attr e _ => freeNames e
  | .unary _ e => freeNames e
  | .bin _ l r => freeNames l ++ freeNames r
  | .boolop _ v vs => freeNames v ++ freeNamesL vs
  | .compare l _ r rest => freeNames l ++ freeNames r ++ freeNamesC rest
  | .call (.name _) args kws => freeNamesL args ++ freeNamesL kws
  | .call f args kws => freeNames f ++ freeNamesL args ++ freeNamesL kws
  | .dict items => freeNamesI items
  | .display es => freeNamesL es
  | .other es => freeNamesL es
  | _ => []
def freeNamesL : PList → List Str
  | .nil => []
  | .cons e es => freeNames e ++ freeNamesL es
def freeNamesC : PCmps → List Str
  | .nil => []
  | .cons _ e es => freeNames e ++ freeNamesC es
def freeNamesI : PItems → List Str
  | .nil => []
  | .cons k v es => freeNames k ++ freeNames v ++ freeNamesI es
  | .star v es => freeNames v ++ freeNamesI es
end

mutual
/-- below unary minus and in keyword arguments of top-level functions only the variables `names` stand -/
def CheckedOver (names : List Str) : PExpr → Prop
  | .unary .neg e => ∀ id ∈ freeNames e, id ∈ names
  | .unary _ e => CheckedOver names e
  | .bin _ l r => CheckedOver names l ∧ CheckedOver names r
  | .boolop _ v vs => CheckedOver names v ∧ CheckedL names vs
  | .compare l _ r rest => CheckedOver names l ∧ CheckedOver names r ∧ CheckedC names rest
  | .call (.name _) args kws => CheckedL names args ∧ ∀ id ∈ freeNamesL kws, id ∈ names
  | .call (.attr _ _) _ _ => True
  | .call f args kws => CheckedOver names f ∧ CheckedL names args ∧ CheckedL names kws
  | .display es => CheckedL names es
  | .other es => CheckedL names es
  | _ => True
def CheckedL (names : List Str) : PList → Prop
  | .nil => True
  | .cons e es => CheckedOver names e ∧ CheckedL names es
def CheckedC (names : List Str) : PCmps → Prop
  | .nil => True
  | .cons _ e es => CheckedOver names e ∧ CheckedC names es
end

/-- every variable below a unary minus or in a keyword argument also stands elsewhere in the expression -/
def Checked (e : PExpr) : Prop := CheckedOver (simpleNames e) e

/-- a name NumExpr will find: reserved, recorded symbol, recorded lookup or recorded dict literal -/
def Recorded (s : PSt) (id : Str) : Prop :=
  id = nanStr ∨ id ∈ s.visited ∨ id ∈ (subs s).map (·.1) ∨ id ∈ s.dicts.map (·.1)

theorem Recorded.mono {s s' : PSt} (h : Ext s s') {id : Str} (hr : Recorded s id) : Recorded s' id := by
  rcases hr with hr | hr | hr | hr
  · exact .inl hr
  · exact .inr (.inl (h.visited _ hr))
  · obtain ⟨x, hx, rfl⟩ := List.mem_map.mp hr
    exact .inr (.inr (.inl (List.mem_map_of_mem (h.subs _ hx))))
  · obtain ⟨x, hx, rfl⟩ := List.mem_map.mp hr
    exact .inr (.inr (.inr (List.mem_map_of_mem (h.dicts _ hx))))

theorem freeNames_joinBool (op : BOp) : ∀ (rs : List PExpr) (l : PExpr) (id : Str),
    id ∈ freeNames (joinBool op l rs) → id ∈ freeNames l ∨ ∃ r ∈ rs, id ∈ freeNames r
  | [], l, id, h => .inl h
  | r :: rs, l, id, h => by
      rcases freeNames_joinBool op rs _ id h with h | ⟨r', h1, h2⟩
      · simp only [freeNames, List.mem_append] at h
        rcases h with h | h
        · exact .inl h
        · exact .inr ⟨r, List.mem_cons_self .., h⟩
      · exact .inr ⟨r', List.mem_cons_of_mem _ h1, h2⟩

theorem freeNames_pairwise : ∀ (rs : List (COp × PExpr)) (l : PExpr) (id : Str),
    (∃ p ∈ pairwise l rs, id ∈ freeNames p) → id ∈ freeNames l ∨ ∃ r ∈ rs, id ∈ freeNames r.2
  | [], l, id, h => by simp [pairwise] at h
  | (op, r) :: rs, l, id, h => by
      obtain ⟨p, hp, hid⟩ := h
      simp only [pairwise, List.mem_cons] at hp
      rcases hp with rfl | hp
      · simp only [freeNames, freeNamesC, List.append_nil, List.mem_append] at hid
        rcases hid with h | h
        · exact .inl h
        · exact .inr ⟨_, List.mem_cons_self .., h⟩
      · rcases freeNames_pairwise rs r id ⟨p, hp, hid⟩ with h | ⟨r', h1, h2⟩
        · exact .inr ⟨_, List.mem_cons_self .., h⟩
        · exact .inr ⟨r', List.mem_cons_of_mem _ h1, h2⟩

theorem freeNames_rebuild (l r : PExpr) (op : COp) (rest : List (COp × PExpr)) (id : Str)
    (h : id ∈ freeNames (rebuildCompare l op r rest)) : id ∈ freeNames l ∨ id ∈ freeNames r ∨ ∃ x ∈ rest, id ∈ freeNames x.2 := by
  unfold rebuildCompare at h
  split at h
  · simp only [freeNames, freeNamesC, List.append_nil, List.mem_append] at h
    rcases h with h | h
    · exact .inl h
    · exact .inr (.inl h)
  · split at h
    · rename_i hpw
      have key : ∃ p ∈ pairwise l ((op, r) :: rest), id ∈ freeNames p := by
        rw [hpw]
        rcases freeNames_joinBool _ _ _ _ h with h | ⟨r', h1, h2⟩
        · simp only [freeNames, List.mem_append] at h
          rcases h with h | h
          · exact ⟨_, by simp, h⟩
          · exact ⟨_, by simp, h⟩
        · exact ⟨r', by simp [h1], h2⟩
      rcases freeNames_pairwise _ _ _ key with h | ⟨x, h1, h2⟩
      · exact .inl h
      · rcases List.mem_cons.mp h1 with rfl | h1
        · exact .inr (.inl h2)
        · exact .inr (.inr ⟨x, h1, h2⟩)
    · simp only [freeNames, freeNamesC, List.append_nil, List.mem_append] at h
      rcases h with h | h
      · exact .inl h
      · exact .inr (.inl h)

theorem freeNames_ofList : ∀ (es : List PExpr) (id : Str), id ∈ freeNamesL (.ofList es) → ∃ e ∈ es, id ∈ freeNames e
  | [], id, h => by simp [PList.ofList, freeNamesL] at h
  | e :: es, id, h => by
      simp only [PList.ofList, freeNamesL, List.mem_append] at h
      rcases h with h | h
      · exact ⟨e, List.mem_cons_self .., h⟩
      · obtain ⟨e', h1, h2⟩ := freeNames_ofList es id h
        exact ⟨e', List.mem_cons_of_mem _ h1, h2⟩

theorem addChain_recorded {s : PSt} (h : PInv s) {name : Str} {c : Chain} {s' : PSt} {e' : PExpr}
    (hr : addChain s name c = (s', .ok e')) : ∀ id ∈ freeNames e', Recorded s' id := by
  obtain ⟨_, _, ⟨_, _, h⟩ | ⟨_, k, h1, h2, _⟩⟩ := addChain_spec h _ _ hr
  · cases h
  · cases h1
    intro id hid
    simp only [freeNames, List.mem_singleton] at hid
    subst hid
    exact .inr (.inr (.inl (List.mem_map.mpr ⟨_, h2, rfl⟩)))

section
variable (env : PyEnv)

theorem freeNames_call (f : PExpr) (args kws : PList) (id : Str) (h : id ∈ freeNames (.call f args kws)) :
    id ∈ freeNames f ∨ id ∈ freeNamesL args ∨ id ∈ freeNamesL kws := by
  cases f <;> simp only [freeNames, List.mem_append, List.not_mem_nil, false_or] at h ⊢ <;> tauto

variable {N : List Str}

theorem checked_call_other {f : PExpr} (h1 : ∀ n, f ≠ .name n) (h2 : ∀ e n, f ≠ .attr e n) (args kws : PList)
    (h : CheckedOver N (.call f args kws)) : CheckedOver N f ∧ CheckedL N args ∧ CheckedL N kws := by
  cases f with
  | name n => exact absurd rfl (h1 n)
  | attr e n => exact absurd rfl (h2 e n)
  | _ => simpa only [CheckedOver] using h

mutual
theorem visit_recorded : ∀ (e : PExpr) (s s1 : PSt) (e' : PExpr), PInv s → CheckedOver N e → visit env e s = (s1, .ok e') →
    ∀ id ∈ freeNames e', Recorded s1 id ∨ id ∈ N
  | .num x, s, s1, e', hi, hp, hr, id, hid => by
      simp only [visit, Prod.mk.injEq, Except.ok.injEq] at hr; obtain ⟨rfl, rfl⟩ := hr; simp [freeNames] at hid
  | .bytes x, s, s1, e', hi, hp, hr, id, hid => by
      simp only [visit, Prod.mk.injEq, Except.ok.injEq] at hr; obtain ⟨rfl, rfl⟩ := hr; simp [freeNames] at hid
  | .const x, s, s1, e', hi, hp, hr, id, hid => by
      simp only [visit, Prod.mk.injEq, Except.ok.injEq] at hr; obtain ⟨rfl, rfl⟩ := hr; simp [freeNames] at hid
  | .str x, s, s1, e', hi, hp, hr, id, hid => by
      simp only [visit, Prod.mk.injEq, Except.ok.injEq] at hr; obtain ⟨rfl, rfl⟩ := hr
      split at hid <;> simp [freeNames] at hid
  | .name n, s, s1, e', hi, hp, hr, id, hid => by
      rw [visit] at hr
      obtain ⟨_, _, h | ⟨_, _, _, h⟩ | ⟨h1, h2, h3, h4, _⟩⟩ := visitName_spec hi n hr
      · obtain ⟨h1, rfl, h2⟩ := h
        cases h2
        simp only [freeNames, List.mem_singleton] at hid
        exact .inl (.inl hid)
      · cases h
      · cases h3
        simp only [freeNames, List.mem_singleton] at hid
        subst hid
        exact .inl (.inr (.inl h4))
  | .attr e f, s, s1, e', hi, hp, hr, id, hid => by
      rw [visit] at hr
      unfold visitAttr at hr
      split at hr
      · cases hr
      · exact .inl (addChain_recorded hi hr id hid)
  | .unary .not e, s, s1, e', hi, hp, hr, id, hid => by
      rw [visit] at hr
      obtain ⟨a, sa, h1, h2⟩ := andThen_ok hr
      simp only [Prod.mk.injEq, Except.ok.injEq] at h2
      obtain ⟨rfl, rfl⟩ := h2
      simp only [CheckedOver] at hp
      exact visit_recorded e s sa a hi hp h1 id (by simpa [freeNames] using hid)
  | .unary .neg e, s, s1, e', hi, hp, hr, id, hid => by
      simp only [visit, Prod.mk.injEq, Except.ok.injEq] at hr
      obtain ⟨rfl, rfl⟩ := hr
      simp only [CheckedOver] at hp
      exact .inr (hp id (by simpa [freeNames] using hid))
  | .unary .pos e, s, s1, e', hi, hp, hr, id, hid => by simp [visit] at hr
  | .unary .invert e, s, s1, e', hi, hp, hr, id, hid => by simp [visit] at hr
  | .bin op l r, s, s1, e', hi, hp, hr, id, hid => by
      rw [visit] at hr
      obtain ⟨a, sa, h1, h2⟩ := andThen_ok hr
      obtain ⟨b, sb, h3, h4⟩ := andThen_ok h2
      simp only [Prod.mk.injEq, Except.ok.injEq] at h4
      obtain ⟨rfl, rfl⟩ := h4
      simp only [CheckedOver] at hp
      obtain ⟨ia, xa⟩ := visit_inv env l s hi _ _ h1
      obtain ⟨ib, xb⟩ := visit_inv env r sa ia _ _ h3
      simp only [freeNames, List.mem_append] at hid
      rcases hid with hid | hid
      · exact (visit_recorded l s sa a hi hp.1 h1 id hid).imp_left (·.mono xb)
      · exact visit_recorded r sa sb b ia hp.2 h3 id hid
  | .boolop isAnd w ws, s, s1, e', hi, hp, hr, id, hid => by
      rw [visit] at hr
      obtain ⟨a, sa, h1, h2⟩ := andThen_ok hr
      obtain ⟨bs, sb, h3, h4⟩ := andThen_ok h2
      simp only [Prod.mk.injEq, Except.ok.injEq] at h4
      obtain ⟨rfl, rfl⟩ := h4
      simp only [CheckedOver] at hp
      obtain ⟨ia, xa⟩ := visit_inv env w s hi _ _ h1
      obtain ⟨ib, xb⟩ := visitList_inv env ws sa ia _ _ h3
      rcases freeNames_joinBool _ _ _ _ hid with hid | ⟨r, hr1, hr2⟩
      · exact (visit_recorded w s sa a hi hp.1 h1 id hid).imp_left (·.mono xb)
      · exact visitList_recorded ws sa sb bs ia hp.2 h3 r hr1 id hr2
  | .compare l op r rest, s, s1, e', hi, hp, hr, id, hid => by
      rw [visit] at hr
      obtain ⟨a, sa, h1, h2⟩ := andThen_ok hr
      obtain ⟨b, sb, h3, h4⟩ := andThen_ok h2
      obtain ⟨ds, sd, h5, h6⟩ := andThen_ok h4
      simp only [Prod.mk.injEq, Except.ok.injEq] at h6
      obtain ⟨rfl, rfl⟩ := h6
      simp only [CheckedOver] at hp
      obtain ⟨ia, xa⟩ := visit_inv env l s hi _ _ h1
      obtain ⟨ib, xb⟩ := visit_inv env r sa ia _ _ h3
      obtain ⟨id', xd⟩ := visitCmps_inv env rest sb ib _ _ h5
      rcases freeNames_rebuild _ _ _ _ _ hid with hid | hid | ⟨x, hx1, hx2⟩
      · exact (visit_recorded l s sa a hi hp.1 h1 id hid).imp_left (·.mono (xb.trans xd))
      · exact (visit_recorded r sa sb b ia hp.2.1 h3 id hid).imp_left (·.mono xd)
      · exact visitCmps_recorded rest sb sd ds ib hp.2.2 h5 x hx1 id hx2
  | .call f args kws, s, s1, e', hi, hp, hr, id, hid => by
      by_cases hf1 : ∃ n, f = .name n
      · obtain ⟨n, rfl⟩ := hf1
        rw [visit] at hr
        split at hr
        · obtain ⟨es, sa, h1, h2⟩ := andThen_ok hr
          simp only [Prod.mk.injEq, Except.ok.injEq] at h2
          obtain ⟨rfl, rfl⟩ := h2
          simp only [CheckedOver] at hp
          simp only [freeNames, List.mem_append] at hid
          rcases hid with hid | hid
          · obtain ⟨e, he1, he2⟩ := freeNames_ofList _ _ hid
            exact visitList_recorded args s sa es hi hp.1 h1 e he1 id he2
          · exact .inr (hp.2 id hid)
        · cases hr
      · by_cases hf2 : ∃ e n, f = .attr e n
        · obtain ⟨e, n, rfl⟩ := hf2
          rw [visit] at hr
          unfold visitMethod at hr
          split at hr
          · cases hr
          · cases hr
          · split at hr
            · cases hr
            · split at hr
              · cases hr
              · cases hr
              · exact .inl (addChain_recorded hi hr id hid)
        · have hf1' : ∀ n, f ≠ .name n := fun n h => hf1 ⟨n, h⟩
          have hf2' : ∀ e n, f ≠ .attr e n := fun e n h => hf2 ⟨e, n, h⟩
          rw [visit_call_other env hf1' hf2'] at hr
          obtain ⟨hp1, hp2, hp3⟩ := checked_call_other hf1' hf2' _ _ hp
          obtain ⟨f', sa, h1, h2⟩ := andThen_ok hr
          obtain ⟨as, sb, h3, h4⟩ := andThen_ok h2
          obtain ⟨ks, sd, h5, h6⟩ := andThen_ok h4
          simp only [Prod.mk.injEq, Except.ok.injEq] at h6
          obtain ⟨rfl, rfl⟩ := h6
          obtain ⟨ia, xa⟩ := visit_inv env f s hi _ _ h1
          obtain ⟨ib, xb⟩ := visitList_inv env args sa ia _ _ h3
          obtain ⟨id', xd⟩ := visitList_inv env kws sb ib _ _ h5
          rcases freeNames_call _ _ _ _ hid with hid | hid | hid
          · exact (visit_recorded f s sa f' hi hp1 h1 id hid).imp_left (·.mono (xb.trans xd))
          · obtain ⟨e, he1, he2⟩ := freeNames_ofList _ _ hid
            exact (visitList_recorded args sa sb as ia hp2 h3 e he1 id he2).imp_left (·.mono xd)
          · obtain ⟨e, he1, he2⟩ := freeNames_ofList _ _ hid
            exact visitList_recorded kws sb sd ks ib hp3 h5 e he1 id he2
  | .dict items, s, s1, e', hi, hp, hr, id, hid => by
      rw [visit] at hr
      obtain ⟨_, _, _, _, _, _, ⟨e, _, h⟩ | ⟨_, lit, k, h1, h2, h3⟩⟩ := visitDict_spec hi env items hr
      · cases h
      · cases h2
        simp only [freeNames, List.mem_singleton] at hid
        subst hid
        exact .inl (.inr (.inr (.inr (List.mem_map.mpr ⟨_, h3, rfl⟩))))
  | .banned _, s, s1, e', hi, hp, hr, id, hid => by simp [visit] at hr
  | .display es, s, s1, e', hi, hp, hr, id, hid => by
      rw [visit] at hr
      obtain ⟨a, sa, h1, h2⟩ := andThen_ok hr
      cases h2
  | .other es, s, s1, e', hi, hp, hr, id, hid => by
      rw [visit] at hr
      obtain ⟨a, sa, h1, h2⟩ := andThen_ok hr
      simp only [Prod.mk.injEq, Except.ok.injEq] at h2
      obtain ⟨rfl, rfl⟩ := h2
      simp only [CheckedOver] at hp
      simp only [freeNames] at hid
      obtain ⟨e, he1, he2⟩ := freeNames_ofList _ _ hid
      exact visitList_recorded es s sa a hi hp h1 e he1 id he2
theorem visitList_recorded : ∀ (es : PList) (s s1 : PSt) (es' : List PExpr), PInv s → CheckedL N es →
    visitList env es s = (s1, .ok es') → ∀ e' ∈ es', ∀ id ∈ freeNames e', Recorded s1 id ∨ id ∈ N
  | .nil, s, s1, es', hi, hp, hr, e', he', id, hid => by
      simp only [visitList, Prod.mk.injEq, Except.ok.injEq] at hr
      obtain ⟨rfl, rfl⟩ := hr
      simp at he'
  | .cons e es, s, s1, es', hi, hp, hr, e', he', id, hid => by
      rw [visitList] at hr
      obtain ⟨a, sa, h1, h2⟩ := andThen_ok hr
      obtain ⟨b, sb, h3, h4⟩ := andThen_ok h2
      simp only [Prod.mk.injEq, Except.ok.injEq] at h4
      obtain ⟨rfl, rfl⟩ := h4
      simp only [CheckedL] at hp
      obtain ⟨ia, xa⟩ := visit_inv env e s hi _ _ h1
      obtain ⟨ib, xb⟩ := visitList_inv env es sa ia _ _ h3
      rcases List.mem_cons.mp he' with rfl | he'
      · exact (visit_recorded e s sa _ hi hp.1 h1 id hid).imp_left (·.mono xb)
      · exact visitList_recorded es sa sb b ia hp.2 h3 e' he' id hid
theorem visitCmps_recorded : ∀ (es : PCmps) (s s1 : PSt) (es' : List (COp × PExpr)), PInv s → CheckedC N es →
    visitCmps env es s = (s1, .ok es') → ∀ e' ∈ es', ∀ id ∈ freeNames e'.2, Recorded s1 id ∨ id ∈ N
  | .nil, s, s1, es', hi, hp, hr, e', he', id, hid => by
      simp only [visitCmps, Prod.mk.injEq, Except.ok.injEq] at hr
      obtain ⟨rfl, rfl⟩ := hr
      simp at he'
  | .cons op e es, s, s1, es', hi, hp, hr, e', he', id, hid => by
      rw [visitCmps] at hr
      obtain ⟨a, sa, h1, h2⟩ := andThen_ok hr
      obtain ⟨b, sb, h3, h4⟩ := andThen_ok h2
      simp only [Prod.mk.injEq, Except.ok.injEq] at h4
      obtain ⟨rfl, rfl⟩ := h4
      simp only [CheckedC] at hp
      obtain ⟨ia, xa⟩ := visit_inv env e s hi _ _ h1
      obtain ⟨ib, xb⟩ := visitCmps_inv env es sa ia _ _ h3
      rcases List.mem_cons.mp he' with rfl | he'
      · exact (visit_recorded e s sa _ hi hp.1 h1 id hid).imp_left (·.mono xb)
      · exact visitCmps_recorded es sa sb b ia hp.2 h3 e' he' id hid
end
end

/-- **C22 (partial)** Every name occurring in the expression given to NumExpr is NAN, a recorded simple symbol, a recorded
lookup or a recorded dict literal; the recorded simple symbols are added to the caller's set of symbols, the tables of the
recorded lookups to the caller's set of tables, which are the sets `validate` checks. Missing: symbols that
stand only below a unary minus or in keyword arguments (`Checked`). -/
theorem C22_recorded_partial (env : PyEnv) (simple chained : List Str) (e e' : PExpr) (s : PSt) (hp : Checked e)
    (hv : visit env e (freshParser simple chained) = (s, .ok e')) :
    (∀ id ∈ freeNames e', id = nanStr ∨ id ∈ s.visited ∨ id ∈ (subs s).map (·.1) ∨ id ∈ s.dicts.map (·.1)) ∧
    (∀ id ∈ s.visited, id ∈ s.simple) ∧ (∀ x ∈ subs s, x.2.1 ∈ s.chainedAll) := by
  have hi := (visit_inv env e _ (PInv.fresh simple chained) _ _ hv).1
  refine ⟨fun id hid => (visit_recorded env e _ s e' (PInv.fresh _ _) hp hv id hid).elim (·)
    (fun h => .inr (.inl (((visit_adds env e _ s e' (PInv.fresh _ _) hv).visited id).mpr (.inr h)))), hi.visited, ?_⟩
  intro x hx
  obtain ⟨ls, h1, _⟩ := mem_subs.mp hx
  exact hi.tables _ h1

/-- `-x + x` meets the hypothesis of the theorem above, `-x` does not -/
example (env : PyEnv) : Checked (.bin .add (.unary .neg (.name exX)) (.name exX)) ∧ ¬ Checked (.unary .neg (.name exX)) ∧
    ∃ e' s, visit env (.bin .add (.unary .neg (.name exX)) (.name exX)) (freshParser [] []) = (s, .ok e') ∧ exX ∈ freeNames e' := by
  have h1 : isNanName exX = false := by decide
  refine ⟨by simp [Checked, CheckedOver, freeNames, simpleNames, h1], by simp [Checked, CheckedOver, freeNames, simpleNames],
    .bin .add (.unary .neg (.name exX)) (.name exX), ⟨[exX], [], [], [], [exX]⟩, ?_, by simp [freeNames]⟩
  simp [visit, andThen, visitName, freshParser, h1, setAdd]

/-- **C22 (violated)** In `-x` the symbol `x` is needed and not recorded, so nothing checks it. -/
theorem C22_minus_refuted (env : PyEnv) : ∃ e' s, visit env (.unary .neg (.name exX)) (freshParser [] []) = (s, .ok e') ∧
    exX ∈ freeNames e' ∧ s.simple = [] ∧ s.chainedAll = [] ∧ ¬ Recorded s exX := by
  refine ⟨_, _, rfl, by simp [freeNames], rfl, rfl, ?_⟩
  simp [Recorded, freshParser, subs, exX, nanStr]

/-! ## C25 -/

mutual
/-- unsupported syntax at a position the transformer looks at: not below a unary minus, in the arguments of an aggregation or
in the keyword arguments of a function -/
def HasUnsupported (env : PyEnv) : PExpr → Prop
  | .banned _ => True
  | .display _ => True
  | .unary .neg _ => False
  | .unary .not e => HasUnsupported env e
  | .unary _ _ => True
  | .bin _ l r => HasUnsupported env l ∨ HasUnsupported env r
  | .boolop _ v vs => HasUnsupported env v ∨ HasUnsupportedL env vs
  | .compare l _ r rest => HasUnsupported env l ∨ HasUnsupported env r ∨ HasUnsupportedC env rest
  | .call (.name f) args _ => env.isFunction f = false ∨ HasUnsupportedL env args
  | .call (.attr _ fn) args kws => fn ∉ aggregationNames ∨ kws ≠ .nil ∨ args = .nil
  | .call f args kws => HasUnsupported env f ∨ HasUnsupportedL env args ∨ HasUnsupportedL env kws
  | .other es => HasUnsupportedL env es
  | _ => False
def HasUnsupportedL (env : PyEnv) : PList → Prop
  | .nil => False
  | .cons e es => HasUnsupported env e ∨ HasUnsupportedL env es
def HasUnsupportedC (env : PyEnv) : PCmps → Prop
  | .nil => False
  | .cons _ e es => HasUnsupported env e ∨ HasUnsupportedC env es
end

theorem nameOfAttr_attr {e : PExpr} {fn : Str} {name : Str} {path : List Str} (h : nameOfAttr (.attr e fn) = .ok (name, path)) :
    ∃ p, path = fn :: p := by
  simp only [nameOfAttr] at h
  split at h
  · cases h; exact ⟨_, rfl⟩
  · cases h

mutual
theorem visit_unsupported (env : PyEnv) : ∀ (e : PExpr), HasUnsupported env e → ∀ s s1 e', visit env e s ≠ (s1, .ok e')
  | .num x, hb, s, s1, e', hr => by simp [HasUnsupported] at hb
  | .bytes x, hb, s, s1, e', hr => by simp [HasUnsupported] at hb
  | .const x, hb, s, s1, e', hr => by simp [HasUnsupported] at hb
  | .str x, hb, s, s1, e', hr => by simp [HasUnsupported] at hb
  | .name n, hb, s, s1, e', hr => by simp [HasUnsupported] at hb
  | .attr e f, hb, s, s1, e', hr => by simp [HasUnsupported] at hb
  | .unary .not e, hb, s, s1, e', hr => by
      rw [visit] at hr
      obtain ⟨a, sa, h1, h2⟩ := andThen_ok hr
      simp only [HasUnsupported] at hb
      exact visit_unsupported env e hb _ _ _ h1
  | .unary .neg e, hb, s, s1, e', hr => by simp [HasUnsupported] at hb
  | .unary .pos e, hb, s, s1, e', hr => by simp [visit] at hr
  | .unary .invert e, hb, s, s1, e', hr => by simp [visit] at hr
  | .bin op l r, hb, s, s1, e', hr => by
      rw [visit] at hr
      obtain ⟨a, sa, h1, h2⟩ := andThen_ok hr
      obtain ⟨b, sb, h3, h4⟩ := andThen_ok h2
      simp only [HasUnsupported] at hb
      rcases hb with hb | hb
      · exact visit_unsupported env l hb _ _ _ h1
      · exact visit_unsupported env r hb _ _ _ h3
  | .boolop isAnd w ws, hb, s, s1, e', hr => by
      rw [visit] at hr
      obtain ⟨a, sa, h1, h2⟩ := andThen_ok hr
      obtain ⟨b, sb, h3, h4⟩ := andThen_ok h2
      simp only [HasUnsupported] at hb
      rcases hb with hb | hb
      · exact visit_unsupported env w hb _ _ _ h1
      · exact visitList_unsupported env ws hb _ _ _ h3
  | .compare l op r rest, hb, s, s1, e', hr => by
      rw [visit] at hr
      obtain ⟨a, sa, h1, h2⟩ := andThen_ok hr
      obtain ⟨b, sb, h3, h4⟩ := andThen_ok h2
      obtain ⟨ds, sd, h5, h6⟩ := andThen_ok h4
      simp only [HasUnsupported] at hb
      rcases hb with hb | hb | hb
      · exact visit_unsupported env l hb _ _ _ h1
      · exact visit_unsupported env r hb _ _ _ h3
      · exact visitCmps_unsupported env rest hb _ _ _ h5
  | .call f args kws, hb, s, s1, e', hr => by
      by_cases hf1 : ∃ n, f = .name n
      · obtain ⟨n, rfl⟩ := hf1
        rw [visit] at hr
        simp only [HasUnsupported] at hb
        split at hr
        · rename_i hfn
          obtain ⟨a, sa, h1, h2⟩ := andThen_ok hr
          rcases hb with hb | hb
          · rw [hfn] at hb; cases hb
          · exact visitList_unsupported env args hb _ _ _ h1
        · cases hr
      · by_cases hf2 : ∃ e n, f = .attr e n
        · obtain ⟨e, n, rfl⟩ := hf2
          rw [visit] at hr
          simp only [HasUnsupported] at hb
          unfold visitMethod at hr
          split at hr
          · cases hr
          · cases hr
          · rename_i hna
            obtain ⟨p, hp⟩ := nameOfAttr_attr hna
            simp only [List.cons.injEq] at hp
            obtain ⟨rfl, rfl⟩ := hp
            split at hr
            · cases hr
            · rename_i hagg
              split at hr
              · cases hr
              · cases hr
              · rcases hb with hb | hb | hb
                · exact hagg hb
                · exact hb rfl
                · cases hb
        · have hf1' : ∀ n, f ≠ .name n := fun n h => hf1 ⟨n, h⟩
          have hf2' : ∀ e n, f ≠ .attr e n := fun e n h => hf2 ⟨e, n, h⟩
          rw [visit_call_other env hf1' hf2'] at hr
          obtain ⟨f', sa, h1, h2⟩ := andThen_ok hr
          obtain ⟨as, sb, h3, h4⟩ := andThen_ok h2
          obtain ⟨ks, sd, h5, h6⟩ := andThen_ok h4
          have hb' : HasUnsupported env f ∨ HasUnsupportedL env args ∨ HasUnsupportedL env kws := by
            cases f with
            | name n => exact absurd rfl (hf1' n)
            | attr e n => exact absurd rfl (hf2' e n)
            | _ => simpa only [HasUnsupported] using hb
          rcases hb' with hb | hb | hb
          · exact visit_unsupported env f hb _ _ _ h1
          · exact visitList_unsupported env args hb _ _ _ h3
          · exact visitList_unsupported env kws hb _ _ _ h5
  | .dict items, hb, s, s1, e', hr => by simp [HasUnsupported] at hb
  | .banned _, hb, s, s1, e', hr => by simp [visit] at hr
  | .display es, hb, s, s1, e', hr => by
      rw [visit] at hr
      obtain ⟨a, sa, h1, h2⟩ := andThen_ok hr
      cases h2
  | .other es, hb, s, s1, e', hr => by
      rw [visit] at hr
      obtain ⟨a, sa, h1, h2⟩ := andThen_ok hr
      simp only [HasUnsupported] at hb
      exact visitList_unsupported env es hb _ _ _ h1
theorem visitList_unsupported (env : PyEnv) : ∀ (es : PList), HasUnsupportedL env es → ∀ s s1 es', visitList env es s ≠ (s1, .ok es')
  | .nil, hb, s, s1, es', hr => by simp [HasUnsupportedL] at hb
  | .cons e es, hb, s, s1, es', hr => by
      rw [visitList] at hr
      obtain ⟨a, sa, h1, h2⟩ := andThen_ok hr
      obtain ⟨b, sb, h3, h4⟩ := andThen_ok h2
      simp only [HasUnsupportedL] at hb
      rcases hb with hb | hb
      · exact visit_unsupported env e hb _ _ _ h1
      · exact visitList_unsupported env es hb _ _ _ h3
theorem visitCmps_unsupported (env : PyEnv) : ∀ (es : PCmps), HasUnsupportedC env es → ∀ s s1 es', visitCmps env es s ≠ (s1, .ok es')
  | .nil, hb, s, s1, es', hr => by simp [HasUnsupportedC] at hb
  | .cons op e es, hb, s, s1, es', hr => by
      rw [visitCmps] at hr
      obtain ⟨a, sa, h1, h2⟩ := andThen_ok hr
      obtain ⟨b, sb, h3, h4⟩ := andThen_ok h2
      simp only [HasUnsupportedC] at hb
      rcases hb with hb | hb
      · exact visit_unsupported env e hb _ _ _ h1
      · exact visitCmps_unsupported env es hb _ _ _ h3
end

/-- **C25** An expression with unsupported syntax at a visited position is rejected, whatever has been parsed before. -/
theorem C25_rejected (env : PyEnv) (e : PExpr) (h : HasUnsupported env e) (simple chained : List Str) :
    ∃ s er, visit env e (freshParser simple chained) = (s, .error er) := by
  rcases hv : visit env e (freshParser simple chained) with ⟨s, r⟩
  cases r with
  | error er => exact ⟨s, er, rfl⟩
  | ok e' => exact absurd hv (visit_unsupported env e h _ _ _)

/-- the hypothesis is met by `x + (a if b else c)` and by `f(x) + 1` for an unknown function -/
example (env : PyEnv) (h : env.isFunction ['f'] = false) :
    HasUnsupported env (.bin .add (.name exX) (.banned .ifExp)) ∧
    HasUnsupported env (.bin .add (.call (.name ['f']) (.cons (.name exX) .nil) .nil) (.num 1)) := by
  simp [HasUnsupported, h]

/-- **C25 (violated under unary minus)** `-(a if b else c)` is accepted. -/
theorem C25_minus_refuted (env : PyEnv) : ∃ s e', visit env (.unary .neg (.banned .ifExp)) (freshParser [] []) = (s, .ok e') :=
  ⟨_, _, rfl⟩

end Cheval
