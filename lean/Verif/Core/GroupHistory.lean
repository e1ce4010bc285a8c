import Verif.Props.ExprGroup
import Verif.Spec.Utilities
import Verif.Core.DictLemmas

/-!
# The expressions a model holds after a history of calls
-/
namespace Cheval
open Spec

/-- the texts a user would expect to be in force: ungrouped ones and those of each group, in order -/
structure Texts where
  ungrouped : List Str
  groups : List (Nat × List Str)

/-- effect of a call that returned normally -/
def Texts.step (t : Texts) : GroupOp → Texts
  | .append e none => ⟨t.ungrouped ++ [e], t.groups⟩
  | .append e (some k) => ⟨t.ungrouped, dictSet t.groups k ((dictGet t.groups k).getD [] ++ [e])⟩
  | .drop k => ⟨t.ungrouped, dictDel t.groups k⟩
  | .clear => ⟨[], []⟩

/-- run the history on the code and follow the successful calls -/
def follow (env : PyEnv) (py : PyParser) (g : ExprGroup) (t : Texts) : List GroupOp → Texts
  | [] => t
  | op :: ops => match groupStep env py g op with
    | (g', .ok ()) => follow env py g' (t.step op) ops
    | (g', .error _) => follow env py g' t ops

/-- the expression is what parsing its text gave -/
def Origin (env : PyEnv) (py : PyParser) (x : Expression) (src : Source) : Prop :=
  ∃ text, splitFilter x.raw = .ok (text, src.2) ∧ py text = .ok src.1 ∧ Parsed env src x

/-- what holds for the container after any history -/
structure Held (env : PyEnv) (py : PyParser) (g : ExprGroup) : Prop where
  origin : ∀ x ∈ g.all, ∃ src, Origin env py x src
  ungrouped : ∀ x ∈ g.ungrouped, (∀ y ∈ x.symbols, y ∈ g.simple) ∧ ∀ y ∈ x.chains.map (·.1), y ∈ g.chained
  grouped : ∀ e ∈ g.subgroups, ∀ x ∈ e.2.exprs, (∀ y ∈ x.symbols, y ∈ e.2.simple) ∧ ∀ y ∈ x.chains.map (·.1), y ∈ e.2.chained

theorem parse_origin (env : PyEnv) (py : PyParser) (e : Str) (si ch : List Str) (r : List Str × List Str) (x : Expression)
    (h : parse env py e si ch = (r, .ok x)) : x.raw = e ∧ ∃ src, Origin env py x src := by
  unfold parse at h
  split at h
  · cases h
  · rename_i text filt hs
    split at h
    · cases h
    · rename_i tree hp
      split at h
      · cases h
      · rename_i s t hv
        cases h
        exact ⟨rfl, (tree, filt), text, hs, hp, rfl, si, ch, s, hv, rfl, rfl, rfl⟩

theorem Held.empty (env : PyEnv) (py : PyParser) : Held env py ExprGroup.empty := by
  constructor <;> simp [ExprGroup.empty, ExprGroup.all]

theorem Held.append {env : PyEnv} {py : PyParser} {g : ExprGroup} (h : Held env py g) (e : Str) (k : Option Nat) :
    Held env py (g.append env py e k).1 := by
  unfold ExprGroup.append
  rcases hp : parse env py e g.simple g.chained with ⟨⟨si, ch⟩, r⟩
  obtain ⟨h1, h2, _, h4⟩ := parse_spec env py e _ _ _ _ _ hp
  cases r with
  | error er =>
    exact ⟨h.origin, fun x hx => ⟨fun y hy => h1 y ((h.ungrouped x hx).1 y hy), fun y hy => h2 y ((h.ungrouped x hx).2 y hy)⟩, h.grouped⟩
  | ok x =>
    have hor := (parse_origin env py e _ _ _ _ hp).2
    cases k with
    | none =>
      refine ⟨?_, ?_, h.grouped⟩
      · intro z hz
        rcases mem_all.mp hz with hz | hz
        · rcases List.mem_append.mp hz with hz | hz
          · exact h.origin z (mem_all.mpr (.inl hz))
          · rw [List.mem_singleton] at hz; subst hz; exact hor
        · exact h.origin z (mem_all.mpr (.inr hz))
      · intro z hz
        rcases List.mem_append.mp hz with hz | hz
        · exact ⟨fun y hy => mem_setUnion.mpr (.inl (h1 y ((h.ungrouped z hz).1 y hy))),
            fun y hy => mem_setUnion.mpr (.inl (h2 y ((h.ungrouped z hz).2 y hy)))⟩
        · rw [List.mem_singleton] at hz; subst hz
          exact ⟨fun y hy => mem_setUnion.mpr (.inr hy), fun y hy => mem_setUnion.mpr (.inr hy)⟩
    | some k =>
      refine ⟨?_, ?_, ?_⟩
      · intro z hz
        rcases mem_all.mp hz with hz | ⟨k', s, hs, hz⟩
        · exact h.origin z (mem_all.mpr (.inl hz))
        · rcases mem_dictSet.mp hs with hs | ⟨hs, _⟩
          · cases hs
            rcases List.mem_append.mp hz with hz | hz
            · cases hd : dictGet g.subgroups k with
              | none => rw [hd] at hz; simp at hz
              | some s => rw [hd] at hz; exact h.origin z (mem_all.mpr (.inr ⟨k, s, dictGet_mem hd, hz⟩))
            · rw [List.mem_singleton] at hz; subst hz; exact hor
          · exact h.origin z (mem_all.mpr (.inr ⟨_, _, hs, hz⟩))
      · exact fun z hz => ⟨fun y hy => h1 y ((h.ungrouped z hz).1 y hy), fun y hy => h2 y ((h.ungrouped z hz).2 y hy)⟩
      · intro z hz w hw
        rcases mem_dictSet.mp hz with rfl | ⟨hz, _⟩
        · rcases List.mem_append.mp hw with hw | hw
          · cases hd : dictGet g.subgroups k with
            | none => rw [hd] at hw; simp at hw
            | some s =>
              rw [hd] at hw
              have := h.grouped _ (dictGet_mem hd) w hw
              simp only [hd, Option.getD_some, SubGroup.append]
              exact ⟨fun y hy => mem_setUnion.mpr (.inl (this.1 y hy)), fun y hy => mem_setUnion.mpr (.inl (this.2 y hy))⟩
          · rw [List.mem_singleton] at hw; subst hw
            exact ⟨fun y hy => mem_setUnion.mpr (.inr hy), fun y hy => mem_setUnion.mpr (.inr hy)⟩
        · exact h.grouped z hz w hw

theorem mem_dictDel {K V : Type} [DecidableEq K] {d : List (K × V)} {k : K} {e : K × V} (h : e ∈ dictDel d k) : e ∈ d := by
  unfold dictDel at h
  exact (List.mem_filter.mp h).1

theorem Held.step {env : PyEnv} {py : PyParser} {g : ExprGroup} (h : Held env py g) (op : GroupOp) :
    Held env py (groupStep env py g op).1 := by
  cases op with
  | append e k => exact h.append e k
  | clear => exact Held.empty env py
  | drop k =>
    simp only [groupStep, ExprGroup.dropGroup]
    split
    · exact h
    · refine ⟨?_, h.ungrouped, fun e he => h.grouped e (mem_dictDel he)⟩
      intro x hx
      rcases mem_all.mp hx with hx | ⟨k', s, hs, hx⟩
      · exact h.origin x (mem_all.mpr (.inl hx))
      · exact h.origin x (mem_all.mpr (.inr ⟨k', s, mem_dictDel hs, hx⟩))

theorem Held.run {env : PyEnv} {py : PyParser} {g : ExprGroup} (h : Held env py g) (ops : List GroupOp) :
    Held env py (groupRun env py g ops) := by
  induction ops generalizing g with
  | nil => exact h
  | cons op ops ih => exact ih (h.step op)

/-! copies keep all of this -/

theorem foldl_setUnion_mem (l : List Expression) (f : Expression → List Str) (a : List Str) (y : Str) :
    y ∈ l.foldl (fun a e => setUnion a (f e)) a ↔ y ∈ a ∨ ∃ x ∈ l, y ∈ f x := by
  induction l generalizing a with
  | nil => simp
  | cons x l ih => rw [List.foldl_cons, ih, mem_setUnion]; simp [or_assoc]

theorem rebuild_eq (l : List Expression) (g : SubGroup) : l.foldl SubGroup.append g =
    ⟨l.foldl (fun a e => setUnion a e.symbols) g.simple, l.foldl (fun a e => setUnion a (e.chains.map (·.1))) g.chained, g.exprs ++ l⟩ := by
  induction l generalizing g with
  | nil => simp
  | cons x l ih => rw [List.foldl_cons, ih]; simp [SubGroup.append]

theorem copy_all (g : ExprGroup) : g.copy.all = g.all := by
  simp only [ExprGroup.copy, ExprGroup.all, List.flatMap_map]
  congr 2
  funext e
  simp [SubGroup.rebuild, rebuild_eq]

theorem Held.copy {env : PyEnv} {py : PyParser} {g : ExprGroup} (h : Held env py g) : Held env py g.copy := by
  refine ⟨by rw [copy_all]; exact h.origin, ?_, ?_⟩
  · intro x hx
    exact ⟨fun y hy => (foldl_setUnion_mem _ _ _ _).mpr (.inr ⟨x, hx, hy⟩), fun y hy => (foldl_setUnion_mem _ (fun e => e.chains.map (·.1)) _ _).mpr (.inr ⟨x, hx, hy⟩)⟩
  · intro e he x hx
    simp only [ExprGroup.copy, List.mem_map] at he
    obtain ⟨⟨k, s⟩, hs, rfl⟩ := he
    simp only [SubGroup.rebuild, rebuild_eq, List.nil_append] at hx ⊢
    exact ⟨fun y hy => (foldl_setUnion_mem _ _ _ _).mpr (.inr ⟨x, hx, hy⟩), fun y hy => (foldl_setUnion_mem _ (fun e => e.chains.map (·.1)) _ _).mpr (.inr ⟨x, hx, hy⟩)⟩

/-! ## which texts are in force -/

/-- texts of the expressions of a container -/
def textsOf (g : ExprGroup) : Texts := ⟨g.ungrouped.map (·.raw), g.subgroups.map fun e => (e.1, e.2.exprs.map (·.raw))⟩

theorem dictGet_mapv {K V W : Type} [DecidableEq K] (f : V → W) (d : List (K × V)) (k : K) :
    dictGet (d.map fun e => (e.1, f e.2)) k = (dictGet d k).map f := by
  induction d with
  | nil => rfl
  | cons e d ih =>
    rw [List.map_cons, dictGet_cons, dictGet_cons]
    by_cases h : e.1 = k
    · simp [h]
    · simp [h, ih]

theorem dictSet_mapv {K V W : Type} [DecidableEq K] (f : V → W) (d : List (K × V)) (k : K) (v : V) :
    (dictSet d k v).map (fun e => (e.1, f e.2)) = dictSet (d.map fun e => (e.1, f e.2)) k (f v) := by
  have hk : k ∈ (d.map fun e => (e.1, f e.2)).map (·.1) ↔ k ∈ d.map (·.1) := by simp
  unfold dictSet
  by_cases h : k ∈ d.map (·.1)
  · rw [if_pos h, if_pos (hk.mpr h), List.map_map, List.map_map]
    congr 1
    funext e
    by_cases he : e.1 = k <;> simp [he]
  · rw [if_neg h, if_neg (fun h' => h (hk.mp h'))]; simp

theorem textsOf_step (env : PyEnv) (py : PyParser) (g : ExprGroup) (op : GroupOp) :
    textsOf (groupStep env py g op).1 = match (groupStep env py g op).2 with
      | .ok () => (textsOf g).step op
      | .error _ => textsOf g := by
  cases op with
  | clear => rfl
  | drop k =>
    simp only [groupStep, ExprGroup.dropGroup]
    cases hd : dictGet g.subgroups k with
    | none => rfl
    | some s =>
      simp only [textsOf, Texts.step, dictDel, List.filter_map]
      rfl
  | append e k =>
    simp only [groupStep, ExprGroup.append]
    rcases hp : parse env py e g.simple g.chained with ⟨⟨si, ch⟩, r⟩
    cases r with
    | error er => rfl
    | ok x =>
      have hraw := (parse_origin env py e _ _ _ _ hp).1
      cases k with
      | none => simp [textsOf, Texts.step, hraw]
      | some k =>
        simp only [textsOf, Texts.step]
        rw [dictSet_mapv (fun s : SubGroup => s.exprs.map (·.raw)), dictGet_mapv (fun s : SubGroup => s.exprs.map (·.raw))]
        congr 2
        cases dictGet g.subgroups k <;> simp [SubGroup.append, hraw]

theorem textsOf_run (env : PyEnv) (py : PyParser) (g : ExprGroup) (ops : List GroupOp) :
    textsOf (groupRun env py g ops) = follow env py g (textsOf g) ops := by
  induction ops generalizing g with
  | nil => rfl
  | cons op ops ih =>
    have hs := textsOf_step env py g op
    show textsOf (groupRun env py (groupStep env py g op).1 ops) = _
    rw [ih, hs]
    conv_rhs => unfold follow
    rcases groupStep env py g op with ⟨g', r⟩
    cases r <;> rfl

end Cheval
