import Verif.Props.Leftovers
import Verif.Spec.ExprMentions

/-!
# C24: exactly which variables a rejected expression leaves behind

The code reads the expression from left to right and records every variable it meets, until it meets the construct it
rejects. So what stays behind is a prefix of the variables of the expression in reading order.
-/
namespace Cheval
open Spec

/-- exactly the mentions `seen` were recorded between `s` and `s'` -/
structure Records (s s' : PSt) (seen : List Mention) : Prop where
  simple : ∀ x, x ∈ s'.simple ↔ x ∈ s.simple ∨ .alone x ∈ seen
  chained : ∀ x, x ∈ s'.chainedAll ↔ x ∈ s.chainedAll ∨ .dotted x ∈ seen

theorem Records.refl (s : PSt) : Records s s [] := ⟨fun _ => by simp, fun _ => by simp⟩

theorem Records.trans {a b c : PSt} {m n : List Mention} (h : Records a b m) (h' : Records b c n) : Records a c (m ++ n) :=
  ⟨fun x => by rw [h'.simple, h.simple, List.mem_append, or_assoc],
   fun x => by rw [h'.chained, h.chained, List.mem_append, or_assoc]⟩

/-- a step over the mentions `all`: it recorded a prefix of them, and all of them if it succeeded -/
def Reads {α : Type} (s s' : PSt) (r : Except Err α) (all : List Mention) : Prop :=
  ∃ seen rest, all = seen ++ rest ∧ Records s s' seen ∧ (∀ a, r = .ok a → rest = [])

theorem Reads.none {α : Type} (s : PSt) (r : Except Err α) : Reads s s r [] := ⟨[], [], rfl, .refl s, fun _ _ => rfl⟩

theorem Reads.stop {α : Type} (s : PSt) (e : Err) (all : List Mention) : Reads s s (.error e : Except Err α) all :=
  ⟨[], all, rfl, .refl s, fun _ h => nomatch h⟩

theorem reads_none {α : Type} {s s' : PSt} {r r' : Except Err α} (hr : (s, r) = (s', r')) : Reads s s' r' [] := by
  cases hr; exact .none _ _

theorem reads_stop {α : Type} {s s' : PSt} {e : Err} {r' : Except Err α} (hr : (s, .error e) = (s', r')) (all : List Mention) :
    Reads s s' r' all := by
  cases hr; exact .stop _ _ _

theorem reads_step {α β : Type} {s s' : PSt} {x : PSt × Except Err α} {f : α → PSt → PSt × Except Err β} {r : Except Err β}
    {m n : List Mention} (hr : andThen x f = (s', r))
    (hx : ∀ sa ra, x = (sa, ra) → Reads s sa ra m)
    (hf : ∀ a sa sb rb, f a sa = (sb, rb) → Reads sa sb rb n) : Reads s s' r (m ++ n) := by
  rcases andThen_eq hr with ⟨e, h1, h2⟩ | ⟨a, sa, h1, h2⟩
  · obtain ⟨seen, rest, rfl, hs, _⟩ := hx _ _ h1
    subst h2
    exact ⟨seen, rest ++ n, by simp, hs, fun _ h => nomatch h⟩
  · obtain ⟨seen, rest, rfl, hs, ha⟩ := hx _ _ h1
    obtain ⟨seen', rest', rfl, hs', hb⟩ := hf a sa _ _ h2
    have : rest = [] := ha a rfl
    subst this
    exact ⟨seen ++ seen', rest', by simp, hs.trans hs', hb⟩

/-- a last step that records nothing -/
theorem reads_last {α β : Type} {s s' : PSt} {x : PSt × Except Err α} {f : α → PSt → PSt × Except Err β} {r : Except Err β}
    {m : List Mention} (hr : andThen x f = (s', r))
    (hx : ∀ sa ra, x = (sa, ra) → Reads s sa ra m)
    (hf : ∀ a sa sb rb, f a sa = (sb, rb) → sb = sa) : Reads s s' r m := by
  have := reads_step (n := []) hr hx fun a sa sb rb h => by rw [hf a sa sb rb h]; exact .none _ _
  simpa using this

theorem addChain_reads {s s' : PSt} {name : Str} {c : Chain} {r : Except Err PExpr} (h : addChain s name c = (s', r)) :
    Reads s s' r [.dotted name] := by
  unfold addChain at h
  split at h
  · exact reads_stop h _
  · simp only [Prod.mk.injEq] at h
    obtain ⟨rfl, _⟩ := h
    refine ⟨[.dotted name], [], rfl, ⟨fun _ => by simp, fun x => ?_⟩, fun _ _ => rfl⟩
    simp only [setAdd]
    split
    · rename_i hn
      simp only [List.mem_singleton, Mention.dotted.injEq]
      exact ⟨.inl, fun h => h.elim id fun h => h ▸ hn⟩
    · simp

theorem visitName_reads {s s' : PSt} {n : Str} {r : Except Err PExpr} (h : visitName n s = (s', r)) :
    Reads s s' r (mentions (.name n)) := by
  unfold visitName at h
  split at h
  · rename_i hn
    simp only [mentions, hn, if_true]
    exact reads_none h
  · rename_i hn
    split at h
    · exact reads_stop h _
    · simp only [Prod.mk.injEq] at h
      obtain ⟨rfl, _⟩ := h
      simp only [mentions, hn]
      refine ⟨[.alone n], [], rfl, ⟨fun x => ?_, fun _ => by simp⟩, fun _ _ => rfl⟩
      simp only [setAdd]
      split
      · rename_i hm
        simp only [List.mem_singleton, Mention.alone.injEq]
        exact ⟨.inl, fun h => h.elim id fun h => h ▸ hm⟩
      · simp

mutual
theorem visit_reads (env : PyEnv) : ∀ (e : PExpr) (s s1 : PSt) (r : Except Err PExpr), visit env e s = (s1, r) →
    Reads s s1 r (mentions e)
  | .num x, s, s1, r, hr => by rw [visit] at hr; exact reads_none hr
  | .bytes x, s, s1, r, hr => by rw [visit] at hr; exact reads_none hr
  | .const x, s, s1, r, hr => by rw [visit] at hr; exact reads_none hr
  | .str x, s, s1, r, hr => by rw [visit] at hr; exact reads_none hr
  | .name n, s, s1, r, hr => by rw [visit] at hr; exact visitName_reads hr
  | .attr e f, s, s1, r, hr => by
      rw [visit] at hr
      unfold visitAttr at hr
      split at hr
      · exact reads_stop hr _
      · rename_i name path hn
        have hroot := nameOfAttr_root _ _ _ hn
        simp only [rootName] at hroot
        simpa [mentions, hroot] using addChain_reads hr
  | .unary .not e, s, s1, r, hr => by
      rw [visit] at hr
      simpa only [mentions] using
        reads_last hr (fun sa ra h => visit_reads env e _ _ _ h) fun a sa sb rb h => by cases h; rfl
  | .unary .neg e, s, s1, r, hr => by rw [visit] at hr; exact reads_none hr
  | .unary .pos e, s, s1, r, hr => by simp only [visit] at hr; exact reads_stop hr _
  | .unary .invert e, s, s1, r, hr => by simp only [visit] at hr; exact reads_stop hr _
  | .bin op l r', s, s1, r, hr => by
      rw [visit] at hr
      simpa only [mentions] using
        reads_step hr (fun sa ra h => visit_reads env l _ _ _ h) fun a sa sb rb h =>
          reads_last h (fun sa ra h => visit_reads env r' _ _ _ h) fun a sa sb rb h => by cases h; rfl
  | .boolop isAnd w ws, s, s1, r, hr => by
      rw [visit] at hr
      simpa only [mentions] using
        reads_step hr (fun sa ra h => visit_reads env w _ _ _ h) fun a sa sb rb h =>
          reads_last h (fun sa ra h => visitList_reads env ws _ _ _ h) fun a sa sb rb h => by cases h; rfl
  | .compare l op r' rest, s, s1, r, hr => by
      rw [visit] at hr
      simpa only [mentions] using
        reads_step hr (fun sa ra h => visit_reads env l _ _ _ h) fun a sa sb rb h =>
          reads_step h (fun sa ra h => visit_reads env r' _ _ _ h) fun a sa sb rb h =>
            reads_last h (fun sa ra h => visitCmps_reads env rest _ _ _ h) fun a sa sb rb h => by cases h; rfl
  | .call f args kws, s, s1, r, hr => by
      by_cases hf1 : ∃ n, f = .name n
      · obtain ⟨n, rfl⟩ := hf1
        rw [visit] at hr
        split at hr
        · simpa only [mentions] using
            reads_last hr (fun sa ra h => visitList_reads env args _ _ _ h) fun a sa sb rb h => by cases h; rfl
        · exact reads_stop hr _
      · by_cases hf2 : ∃ e n, f = .attr e n
        · obtain ⟨e, n, rfl⟩ := hf2
          rw [visit] at hr
          unfold visitMethod at hr
          split at hr
          · exact reads_stop hr _
          · exact reads_stop hr _
          · rename_i name fn path hn
            have hroot := nameOfAttr_root _ _ _ hn
            simp only [rootName] at hroot
            split at hr
            · exact reads_stop hr _
            · split at hr
              · exact reads_stop hr _
              · exact reads_stop hr _
              · simpa [mentions, hroot] using addChain_reads hr
        · have hf1' : ∀ n, f ≠ .name n := fun n h => hf1 ⟨n, h⟩
          have hf2' : ∀ e n, f ≠ .attr e n := fun e n h => hf2 ⟨e, n, h⟩
          rw [visit_call_other env hf1' hf2'] at hr
          have := reads_step hr (fun sa ra h => visit_reads env f _ _ _ h) fun a sa sb rb h =>
            reads_step h (fun sa ra h => visitList_reads env args _ _ _ h) fun a sa sb rb h =>
              reads_last h (fun sa ra h => visitList_reads env kws _ _ _ h) fun a sa sb rb h => by cases h; rfl
          cases f with
          | name n => exact absurd rfl (hf1' n)
          | attr e n => exact absurd rfl (hf2' e n)
          | _ => simpa only [mentions] using this
  | .dict items, s, s1, r, hr => by
      rw [visit] at hr
      unfold visitDict at hr
      split at hr
      · exact reads_stop hr _
      · split at hr
        · exact reads_stop hr _
        · simp only [Prod.mk.injEq] at hr
          obtain ⟨rfl, _⟩ := hr
          exact ⟨[], [], rfl, ⟨fun _ => by simp, fun _ => by simp⟩, fun _ _ => rfl⟩
  | .banned _, s, s1, r, hr => by rw [visit] at hr; exact reads_stop hr _
  | .display es, s, s1, r, hr => by
      rw [visit] at hr
      simpa only [mentions] using
        reads_last hr (fun sa ra h => visitList_reads env es _ _ _ h) fun a sa sb rb h => by cases h; rfl
  | .other es, s, s1, r, hr => by
      rw [visit] at hr
      simpa only [mentions] using
        reads_last hr (fun sa ra h => visitList_reads env es _ _ _ h) fun a sa sb rb h => by cases h; rfl
theorem visitList_reads (env : PyEnv) : ∀ (es : PList) (s s1 : PSt) (r : Except Err (List PExpr)), visitList env es s = (s1, r) →
    Reads s s1 r (mentionsL es)
  | .nil, s, s1, r, hr => by rw [visitList] at hr; exact reads_none hr
  | .cons e es, s, s1, r, hr => by
      rw [visitList] at hr
      simpa only [mentionsL] using
        reads_step hr (fun sa ra h => visit_reads env e _ _ _ h) fun a sa sb rb h =>
          reads_last h (fun sa ra h => visitList_reads env es _ _ _ h) fun a sa sb rb h => by cases h; rfl
theorem visitCmps_reads (env : PyEnv) : ∀ (es : PCmps) (s s1 : PSt) (r : Except Err (List (COp × PExpr))),
    visitCmps env es s = (s1, r) → Reads s s1 r (mentionsC es)
  | .nil, s, s1, r, hr => by rw [visitCmps] at hr; exact reads_none hr
  | .cons op e es, s, s1, r, hr => by
      rw [visitCmps] at hr
      simpa only [mentionsC] using
        reads_step hr (fun sa ra h => visit_reads env e _ _ _ h) fun a sa sb rb h =>
          reads_last h (fun sa ra h => visitCmps_reads env es _ _ _ h) fun a sa sb rb h => by cases h; rfl
end

/-- what the required names are after an append, given what was recorded -/
private theorem append_records (env : PyEnv) (py : PyParser) (g : ExprGroup) (e text : Str) (filt : Option Str) (tree : PExpr)
    (k : Option Nat) (er : Err) (hs : splitFilter e = .ok (text, filt)) (hp : py text = .ok tree)
    (h : (g.append env py e k).2 = .error er) :
    ∃ s, visit env tree ⟨g.simple, g.chained, [], [], []⟩ = (s, .error er) ∧
      (g.append env py e k).1.itersimple = s.simple ++ g.subgroups.flatMap (·.2.simple) ∧
      (g.append env py e k).1.iterchained = s.chainedAll ++ g.subgroups.flatMap (·.2.chained) := by
  unfold ExprGroup.append at *
  unfold parse at *
  simp only [hs, hp] at *
  rcases hv : visit env tree ⟨g.simple, g.chained, [], [], []⟩ with ⟨s, r⟩
  rw [hv] at h
  cases r with
  | error er' =>
    simp only [Except.error.injEq] at h
    subst h
    exact ⟨s, rfl, rfl, rfl⟩
  | ok x => cases k <;> cases h

/-- **C24 (exactly what stays behind)** When appending an expression raises, the variables required afterwards are those
required before and the variables of a beginning `seen` of the rejected expression in reading order. -/
theorem C24_left_behind (env : PyEnv) (py : PyParser) (g : ExprGroup) (e text : Str) (filt : Option Str) (tree : PExpr)
    (k : Option Nat) (er : Err) (hs : splitFilter e = .ok (text, filt)) (hp : py text = .ok tree)
    (h : (g.append env py e k).2 = .error er) :
    ∃ seen rest, mentions tree = seen ++ rest ∧
      (∀ x, x ∈ (g.append env py e k).1.itersimple ↔ x ∈ g.itersimple ∨ .alone x ∈ seen) ∧
      (∀ x, x ∈ (g.append env py e k).1.iterchained ↔ x ∈ g.iterchained ∨ .dotted x ∈ seen) := by
  obtain ⟨s, hv, h1, h2⟩ := append_records env py g e text filt tree k er hs hp h
  obtain ⟨seen, rest, hm, hr, _⟩ := visit_reads env tree _ _ _ hv
  refine ⟨seen, rest, hm, fun x => ?_, fun x => ?_⟩
  · rw [h1, List.mem_append, hr.simple]
    simp only [ExprGroup.itersimple, List.mem_append]
    tauto
  · rw [h2, List.mem_append, hr.chained]
    simp only [ExprGroup.iterchained, List.mem_append]
    tauto

/-- **C24 (accepted operands stay behind)** If the rejected expression is `l op r` and `l` by itself would have been
accepted, then all variables of `l` are required afterwards. -/
theorem C24_left_operand (env : PyEnv) (py : PyParser) (g : ExprGroup) (e text el textl : Str) (filt filtl : Option Str)
    (op : BOp) (l r : PExpr) (k kl : Option Nat) (er : Err)
    (hs : splitFilter e = .ok (text, filt)) (hp : py text = .ok (.bin op l r))
    (hsl : splitFilter el = .ok (textl, filtl)) (hpl : py textl = .ok l)
    (h : (g.append env py e k).2 = .error er) (hl : (g.append env py el kl).2 = .ok ()) :
    (∀ x, .alone x ∈ mentions l → x ∈ (g.append env py e k).1.itersimple) ∧
    (∀ x, .dotted x ∈ mentions l → x ∈ (g.append env py e k).1.iterchained) := by
  obtain ⟨s, hv, h1, h2⟩ := append_records env py g e text filt _ k er hs hp h
  rcases hvl : visit env l ⟨g.simple, g.chained, [], [], []⟩ with ⟨sl, rl⟩
  have hok : ∃ l', rl = .ok l' := by
    unfold ExprGroup.append at hl
    unfold parse at hl
    simp only [hsl, hpl, hvl] at hl
    cases rl with
    | error er' => cases hl
    | ok l' => exact ⟨l', rfl⟩
  obtain ⟨l', rfl⟩ := hok
  obtain ⟨seen, rest, hm, hr, hall⟩ := visit_reads env l _ _ _ hvl
  obtain rfl := hall l' rfl
  rw [List.append_nil] at hm
  rw [visit, hvl] at hv
  simp only [andThen] at hv
  have hk : ∃ n, Records sl s n := by
    rcases hvr : visit env r sl with ⟨sr, rr⟩
    obtain ⟨seen', _, _, hr', _⟩ := visit_reads env r _ _ _ hvr
    rw [hvr] at hv
    cases rr with
    | error er' => simp only [Prod.mk.injEq] at hv; exact ⟨seen', hv.1 ▸ hr'⟩
    | ok r' => simp only [Prod.mk.injEq] at hv; exact ⟨seen', hv.1 ▸ hr'⟩
  obtain ⟨n, hn⟩ := hk
  refine ⟨fun x hx => ?_, fun x hx => ?_⟩
  · rw [h1, List.mem_append]
    exact .inl ((hn.simple x).2 (.inl ((hr.simple x).2 (.inr (hm ▸ hx)))))
  · rw [h2, List.mem_append]
    exact .inl ((hn.chained x).2 (.inl ((hr.chained x).2 (.inr (hm ▸ hx)))))

/-- `x + b(a)` with an unknown function `b`, appended to an empty group: rejected, and `x`, which stands before the
offending call, is required afterwards -/
example (env : PyEnv) (hb : env.isFunction exB = false) :
    exX ∈ (ExprGroup.empty.append env exPy exB none).1.itersimple := by
  have h1 : isNanName exX = false := by decide
  have h2 : splitFilter exB = .ok (exB, none) := ex_split 'b' (by decide)
  have h3 : exPy exB = .ok (.bin .add (.name exX) (.call (.name exB) (.cons (.name exA) .nil) .nil)) := rfl
  have hr : (ExprGroup.empty.append env exPy exB none).2 = .error .unsupportedSyntax := by
    simp [ExprGroup.append, ExprGroup.empty, parse, h2, h3, visit, visitName, h1, hb, setAdd, andThen]
  have hx : (ExprGroup.empty.append env exPy exX none).2 = .ok () := by
    simp [ExprGroup.append, exX_append env none ExprGroup.empty (by simp [ExprGroup.empty])]
  exact (C24_left_operand env exPy ExprGroup.empty exB exB exX exX none none .add _ _ none none _ h2 h3
    (ex_split 'x' (by decide)) rfl hr hx).1 exX (by simp [mentions, h1])

/-- the same expression in `C24_left_behind`: its variables in reading order are `x` and `a` -/
example (env : PyEnv) (hb : env.isFunction exB = false) :
    ∃ seen rest, ([.alone exX, .alone exA] : List Mention) = seen ++ rest ∧
      ∀ x, x ∈ (ExprGroup.empty.append env exPy exB none).1.itersimple ↔ x ∈ ExprGroup.empty.itersimple ∨ .alone x ∈ seen := by
  have h1 : isNanName exX = false := by decide
  have h1' : isNanName exA = false := by decide
  have h2 : splitFilter exB = .ok (exB, none) := ex_split 'b' (by decide)
  have h3 : exPy exB = .ok (.bin .add (.name exX) (.call (.name exB) (.cons (.name exA) .nil) .nil)) := rfl
  have hr : (ExprGroup.empty.append env exPy exB none).2 = .error .unsupportedSyntax := by
    simp [ExprGroup.append, ExprGroup.empty, parse, h2, h3, visit, visitName, h1, hb, setAdd, andThen]
  obtain ⟨seen, rest, hm, hx, _⟩ := C24_left_behind env exPy _ exB exB none _ none _ h2 h3 hr
  exact ⟨seen, rest, by simpa [mentions, mentionsL, h1, h1'] using hm, hx⟩

end Cheval
