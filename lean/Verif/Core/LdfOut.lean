import Verif.Core.LdfEval

/-!
# Model of the arguments `out` and `allow_casting` of `LinkedDataFrame.evaluate` (cheval/ldf/api.py:741-746)

`to_numpy(out)` (utils.py:12-20) is the memory of the Series, so that NumExpr writes into the Series; a Series `frame[col]` is a view of the
column (pandas without Copy-on-Write; with it NumExpr refuses the read-only array). NumExpr repeats operands of length one up to the length of
`out` and never repeats `out`; it checks the conversion to the type of `out` before it writes. What NumPy's conversion does is a parameter:
`store allow c old` are the elements of `out`, now `old`, after `c` was stored in it with casting 'same_kind' (`allow`) or 'safe'.
-/
namespace Cheval
open Spec
variable {V F : Type} [DecidableEq V]

/-- storing a result in an array -/
abbrev StoreIn (V : Type) := Bool → LCol V → LCol V → Except Err (List V)

/-- the array keeps its length -/
def StoreIn.Ok (S : StoreIn V) : Prop := ∀ allow c old vs, S allow c old = .ok vs → vs.length = old.vals.length

/-- `frame.evaluate(e, local_dict=locals, out=old, allow_casting=allow)` (api.py:694-746): the world, the result, and what was written to `out`, if anything.
The Series of the result is made after NumExpr has written. -/
noncomputable def EvEnv.evaluateOut (K : EvEnv V F) (E : LEnv V) (S : StoreIn V) (w : LWorld V) (r : Nat) (e : PExpr)
    (locals : List (Str × LocalVal F)) (allow : Bool) (old : LCol V) : LWorld V × Except Err (LCol V) × Option (LCol V) :=
  match w.frames[r]? with
  | none => (w, .error .attribute, none)
  | some f => if !f.linked then (w, .error .attribute, none)
    else match visit { K.py with mode := .dataframe } e (freshParser [] []) with
      | (_, .error er) => (w, .error er, none)
      | (s, .ok e') => match K.bindSymbols f s.visited (K.start locals) with
        | .error er => (w, .error er, none)
        | .ok ld => match K.bindChains E (K.argEval E) r w (subs s) ld with
          | (w1, .error er) => (w1, .error er, none)
          | (w1, .ok ld1) => match K.rows old.vals.length ld1 e' with
            | .error er => (w1, .error er, none)
            | .ok c => match S allow c old with
              | .error er => (w1, .error er, none)
              | .ok vs => (w1, if vs.length = f.rows then .ok ⟨old.kind, vs⟩ else .error .value, some ⟨old.kind, vs⟩)

/-- the same with `out=frame_q[col]`: the caller reads the column first (`__getitem__` serves links first; a link node is no Series) -/
noncomputable def EvEnv.evaluateInto (K : EvEnv V F) (E : LEnv V) (S : StoreIn V) (w : LWorld V) (r : Nat) (e : PExpr)
    (locals : List (Str × LocalVal F)) (allow : Bool) (q : Nat) (col : Str) : LWorld V × Except Err (LCol V) :=
  match w.frames[q]? with
  | none => (w, .error .attribute)
  | some g => if col ∈ g.links.map (·.1) then (w, .error .attribute)
    else match dictGet g.cols col with
      | none => (w, .error .key)
      | some old => match K.evaluateOut E S w r e locals allow old with
        | (w1, x, none) => (w1, x)
        | (w1, x, some new) => (w1.setFrame q fun g => { g with cols := dictSet g.cols col new }, x)

end Cheval
