import Verif.Num.SignedSum
import Verif.Props.RoundedRuns

/-!
# C73: utilities in double precision
-/
namespace Cheval
open FOps B64 Spec
variable {U : Type} [DecidableEq U] {R : Rounding}

open Classical in
/-- C73: in double precision (whatever `exp` and `log` return), the utility a run computes for a cell from the values of the `n` expressions that
apply to it, none of which reads `OUT`, is - if it is finite - within `n * 2^-52` times the sum of the absolute values of the exact sum; and then all
the values are finite. (`start` is zero, or the utility computed before.) -/
theorem C73_accuracy (hR : R.rnd = B64.rnd) (K : Kernel (Rnd R)) (hacc : ∀ a x, K.acc a (.num x) = some (add a x)) {env : PyEnv} {py : PyParser}
    {m : CModel U (Rnd R)} {paths : List (List Name)} {depth : Nat} {units : List U} (hm : Consistent m paths depth units)
    (hheld : Held env py m.exprs) {g : Option Nat} {c : Container} (hc : m.container g = .ok c)
    (hv : m.validate true true true true g = .ok ()) {srcs : List Source}
    (hready : List.Forall₂ (Ready env m.scope paths depth) srcs c.exprs)
    (htab : ∀ y ∈ c.simple, ∀ o ma al t, dictGet m.scope y ≠ some (.table o ma al t)) (hout : ∀ x ∈ srcs, ¬ Mentions outStr x.1)
    (vals : Nat → Nat → List (Rnd R))
    (hvals : ∀ i j (_ : i < units.length) (hj : j < paths.length),
      (srcs.filter fun x => filterMeans paths[j] x.2).map (contribution K m.scope paths[j] i j) = (vals i j).map fun v => some (.num v))
    (clear : Bool) :
    ∃ ix u, (m.runUtilities K g clear).1.cached = some (ix, u) ∧ u.rows = units.length ∧ u.cols = paths.length ∧
      (m.runUtilities K g clear).2 = (if ∃ i j, i < units.length ∧ j < paths.length ∧ isNan (u.val i j) = true
        then .error .utilityBounds else .ok u) ∧
      ∀ i j, i < units.length → j < paths.length → ∀ S : ℝ, (u.val i j).v = .fin S → (vals i j).length ≤ 2 ^ 51 →
        (startAt m i j).v = .fin (startAt m i j).val ∧ (∀ v ∈ vals i j, v.v = .fin v.val) ∧
        |S - ((startAt m i j).val + ((vals i j).map Rnd.val).sum)| ≤
          (vals i j).length / 2 ^ 52 * (|(startAt m i j).val| + ((vals i j).map fun v => |v.val|).sum) := by
  have htot : ∀ i j (_ : i < units.length) (hj : j < paths.length),
      cellTotal K m.scope paths[j] i j srcs (startAt m i j) = some ((vals i j).foldl add (startAt m i j)) := fun i j hi hj =>
    C35_total_is_sum K hacc m.scope paths[j] i j srcs hout (vals i j) (startAt m i j) (hvals i j hi hj)
  obtain ⟨u, h1, h2, h3, h4, ix, h5⟩ := C35_sum K hm hheld hc hv hready htab (fun i j hi hj => by rw [htot i j hi hj]; rfl) clear
  refine ⟨ix, u, h5, h1, h2, h4, fun i j hi hj S hS hn => ?_⟩
  have he := h3 i j hi hj
  rw [htot i j hi hj, Option.some.injEq] at he
  rw [he] at hS
  obtain ⟨a1, a2, -⟩ := foldl_add_err hR _ _ S hS
  exact ⟨a1, a2, foldl_add_close hR _ hn _ S hS⟩

/-- C73: so the order of the expressions matters at most `n * 2^-51` times the sum of the absolute values: two models that differ only in
their expressions and hold the same ones in different order compute utilities that close, wherever both are finite. -/
theorem C73_order (hR : R.rnd = B64.rnd) (K : Kernel (Rnd R)) (hacc : ∀ a x, K.acc a (.num x) = some (add a x)) {env : PyEnv} {py : PyParser}
    {m m' : CModel U (Rnd R)} {paths : List (List Name)} {depth : Nat} {units : List U} (hm : Consistent m paths depth units)
    (hm' : m' = { m with exprs := m'.exprs })
    (hheld : Held env py m.exprs) (hheld' : Held env py m'.exprs) {g g' : Option Nat} {c c' : Container} (hc : m.container g = .ok c)
    (hc' : m'.container g' = .ok c')
    (hv : m.validate true true true true g = .ok ()) (hv' : m'.validate true true true true g' = .ok ()) {srcs srcs' : List Source}
    (hready : List.Forall₂ (Ready env m.scope paths depth) srcs c.exprs)
    (hready' : List.Forall₂ (Ready env m.scope paths depth) srcs' c'.exprs)
    (htab : ∀ y ∈ c.simple, ∀ o ma al t, dictGet m.scope y ≠ some (.table o ma al t))
    (htab' : ∀ y ∈ c'.simple, ∀ o ma al t, dictGet m.scope y ≠ some (.table o ma al t))
    (hp : srcs.Perm srcs') (hout : ∀ x ∈ srcs, ¬ Mentions outStr x.1)
    (vals : Nat → Nat → List (Rnd R))
    (hvals : ∀ i j (_ : i < units.length) (hj : j < paths.length),
      (srcs.filter fun x => filterMeans paths[j] x.2).map (contribution K m.scope paths[j] i j) = (vals i j).map fun v => some (.num v))
    (clear : Bool) :
    ∃ ix u ix' u', (m.runUtilities K g clear).1.cached = some (ix, u) ∧ (m'.runUtilities K g' clear).1.cached = some (ix', u') ∧
      ∀ i j, i < units.length → j < paths.length → ∀ S S' : ℝ, (u.val i j).v = .fin S → (u'.val i j).v = .fin S' → (vals i j).length ≤ 2 ^ 51 →
        |S - S'| ≤ (vals i j).length / 2 ^ 51 * (|(startAt m i j).val| + ((vals i j).map fun v => |v.val|).sum) := by
  have hs : m'.scope = m.scope := by rw [hm']
  have hca : m'.cached = m.cached := by rw [hm']
  have hst : ∀ i j, startAt m' i j = startAt m i j := by intro i j; simp only [startAt, hca]
  have hcons : Consistent m' paths depth units := by
    refine ⟨?_, ?_, ?_, ?_⟩
    · rw [hm']; exact hm.unitsEq
    · rw [hm']; exact hm.choices
    · rw [hs]; exact hm.fits
    · rw [hca]; exact hm.cached
  -- the values of the expressions in the other order
  have hex : ∀ i j, i < units.length → ∀ hj : j < paths.length, ∃ vs : List (Rnd R),
      (srcs'.filter fun x => filterMeans paths[j] x.2).map (contribution K m.scope paths[j] i j) = vs.map (fun v => some (.num v)) ∧ vs.Perm (vals i j) := by
    intro i j hi hj
    have h1 := ((hp.filter fun x => filterMeans paths[j] x.2).map (contribution K m.scope paths[j] i j)).symm
    rw [hvals i j hi hj] at h1
    have h2 : ((srcs'.filter fun x => filterMeans paths[j] x.2).map (contribution K m.scope paths[j] i j)) =
        ((srcs'.filter fun x => filterMeans paths[j] x.2).map (contribution K m.scope paths[j] i j)) := rfl
    generalize (srcs'.filter fun x => filterMeans paths[j] x.2).map (contribution K m.scope paths[j] i j) = L at h1 h2
    let f : Option (Val (Rnd R)) → Rnd R := fun o => match o with
      | some (.num x) => x
      | _ => zero
    refine ⟨L.map f, ?_, ?_⟩
    · rw [List.map_map]
      conv_lhs => rw [← List.map_id L]
      apply List.map_congr_left
      intro o ho
      have := h1.mem_iff.mp ho
      obtain ⟨v, -, rfl⟩ := List.mem_map.mp this
      rfl
    · have := h1.map f
      rw [List.map_map] at this
      have e : (f ∘ fun v => some (Val.num v)) = id := rfl
      rwa [e, List.map_id] at this
  classical
  let vals' : Nat → Nat → List (Rnd R) := fun i j => if h : i < units.length ∧ j < paths.length then Classical.choose (hex i j h.1 h.2) else []
  have hvals' : ∀ i j (hi : i < units.length) (hj : j < paths.length),
      (srcs'.filter fun x => filterMeans paths[j] x.2).map (contribution K m.scope paths[j] i j) = (vals' i j).map (fun v => some (.num v)) ∧
      (vals' i j).Perm (vals i j) := by
    intro i j hi hj
    simp only [vals', dif_pos (And.intro hi hj)]
    exact Classical.choose_spec (hex i j hi hj)
  obtain ⟨ix, u, h1, -, -, -, h2⟩ := C73_accuracy hR K hacc hm hheld hc hv hready htab hout vals hvals clear
  obtain ⟨ix', u', h1', -, -, -, h2'⟩ := C73_accuracy hR K hacc hcons hheld' hc' hv' (hs ▸ hready') (hs ▸ htab')
    (fun x hx => hout x (hp.mem_iff.mpr hx)) vals' (fun i j hi hj => by rw [hs]; exact (hvals' i j hi hj).1) clear
  refine ⟨ix, u, ix', u', h1, h1', fun i j hi hj S S' hS hS' hn => ?_⟩
  obtain ⟨-, hpm⟩ := hvals' i j hi hj
  obtain ⟨-, -, h3⟩ := h2 i j hi hj S hS hn
  obtain ⟨-, -, h3'⟩ := h2' i j hi hj S' hS' (by rw [hpm.length_eq]; exact hn)
  rw [hst, (hpm.map Rnd.val).sum_eq, (hpm.map fun v => |v.val|).sum_eq, hpm.length_eq] at h3'
  have h4 := abs_sub_le S ((startAt m i j).val + ((vals i j).map Rnd.val).sum) S'
  rw [abs_sub_comm ((startAt m i j).val + ((vals i j).map Rnd.val).sum) S'] at h4
  have e : ((vals i j).length : ℝ) / 2 ^ 51 = 2 * ((vals i j).length / 2 ^ 52) := by ring
  rw [e]
  linarith

/-! ## a model in double precision whose utilities depend on the order of its expressions -/

/-- `x`, `y` and `z` parse as the symbols they are -/
def ruPy : PyParser := fun t => if t = ['x'] ∨ t = ['y'] ∨ t = ['z'] then .ok (.name t) else .error .syntaxErr

def ruExpr (n : Str) : Expression := ⟨n, .name n, [], [], none, [n]⟩

theorem ru_exprs (env : PyEnv) (a b c : Str) (ha : a = ['x'] ∨ a = ['y'] ∨ a = ['z']) (hb : b = ['x'] ∨ b = ['y'] ∨ b = ['z'])
    (hc : c = ['x'] ∨ c = ['y'] ∨ c = ['z']) (hab : a ≠ b) (hac : a ≠ c) (hbc : b ≠ c) :
    groupRun env ruPy ExprGroup.empty [.append a none, .append b none, .append c none] =
      ⟨[ruExpr a, ruExpr b, ruExpr c], [a, b, c], [], []⟩ := by
  have hs : ∀ t : Str, t = ['x'] ∨ t = ['y'] ∨ t = ['z'] → splitFilter t = .ok (t, none) ∧ isNanName t = false := by
    rintro t (rfl | rfl | rfl) <;> decide
  have hpa : ∀ (t : Str), (t = ['x'] ∨ t = ['y'] ∨ t = ['z']) → ∀ s : List Str, parse env ruPy t s [] = ((setAdd s t, []), .ok (ruExpr t)) := by
    intro t ht s
    obtain ⟨h1, h2⟩ := hs t ht
    have h3 : ruPy t = .ok (.name t) := by unfold ruPy; rw [if_pos ht]
    simp [parse, h1, h3, visit, visitName, h2, ruExpr, setAdd]
  have hsa : ∀ (s : List Str) (t : Str), setUnion (setAdd s t) (ruExpr t).symbols = setAdd s t := by
    intro s t
    simp only [setUnion, ruExpr, List.foldl_cons, List.foldl_nil, setAdd]
    split <;> simp [*]
  have hch : ∀ t : Str, setUnion [] ((ruExpr t).chains.map (·.1)) = [] := by intro t; simp [setUnion, ruExpr]
  simp only [groupRun, List.foldl_cons, List.foldl_nil, groupStep, ExprGroup.append, ExprGroup.empty]
  simp only [hpa a ha, hsa, hch]
  simp only [hpa b hb, hsa, hch]
  simp only [hpa c hc, hsa, hch]
  simp [setAdd, hab.symm, hac.symm, hbc.symm]

theorem rnd_one : rnd (1 : ℝ) = .fin 1 := by
  have := rnd_dyadic 1 0 (by norm_num) (by norm_num) (by norm_num)
  simpa using this

theorem rnd_neg_one : rnd (-1 : ℝ) = .fin (-1) := by
  have h := rnd_one
  rw [rnd_nonneg (by norm_num)] at h
  split_ifs at h with hb
  simp only [XR.fin.injEq] at h
  unfold rnd
  rw [if_neg (by norm_num), neg_neg, if_neg hb, h]

/-- 2^-54 -/
noncomputable def ruSmall : ℝ := 2 ^ (-54 : ℤ)

theorem rnd_small : rnd ruSmall = .fin ruSmall := by
  have := rnd_dyadic 1 (-54) (by norm_num) (by norm_num) (by norm_num)
  simpa [ruSmall] using this

theorem ruSmall_pos : 0 < ruSmall := two_zpow_pos _

/-- `2^-54 + 1` rounds to 1 -/
theorem rnd_small_one : rnd (ruSmall + 1) = .fin 1 := by
  have h0 : (0 : ℝ) ≤ ruSmall + 1 := by linarith [ruSmall_pos]
  have hs : ruSmall = 1 / 2 ^ 54 := by unfold ruSmall; rw [zpow_neg]; norm_num
  have hlog : Int.log 2 (ruSmall + 1) = 0 := by
    have h1 : (0 : ℤ) ≤ Int.log 2 (ruSmall + 1) := by
      rw [← Int.zpow_le_iff_le_log (by norm_num) (by linarith [ruSmall_pos])]
      simp [ruSmall_pos.le]
    have h2 : Int.log 2 (ruSmall + 1) < 1 := by
      rw [← Int.lt_zpow_iff_log_lt (by norm_num) (by linarith [ruSmall_pos]), hs]
      norm_num
    omega
  have hq : qexp (ruSmall + 1) = -52 := by unfold qexp; rw [hlog]; norm_num
  have hr : rpos (ruSmall + 1) = 1 := by
    unfold rpos
    rw [hq]
    have e : (ruSmall + 1) / (2 : ℝ) ^ (-52 : ℤ) = 2 ^ 52 + 1 / 4 := by
      rw [hs, zpow_neg]
      norm_num
    have hf : ⌊((2 : ℝ) ^ 52 + 1 / 4)⌋ = 2 ^ 52 := by
      rw [Int.floor_eq_iff]
      constructor <;> push_cast <;> norm_num
    rw [e]
    unfold roundEven
    rw [hf, if_pos (by push_cast; norm_num)]
    rw [zpow_neg]
    push_cast
    norm_num
  have h1 := rnd_one
  rw [rnd_nonneg (by norm_num), ] at h1
  split_ifs at h1 with hb
  simp only [XR.fin.injEq] at h1
  rw [rnd_nonneg h0, hr, ← h1, if_neg hb]

noncomputable def ruX : F64 := ⟨.fin ruSmall, by intro y h; simp only [XR.fin.injEq] at h; subst h; exact rnd_small⟩
noncomputable def ruY : F64 := ⟨.fin 1, by intro y h; simp only [XR.fin.injEq] at h; subst h; exact rnd_one⟩
noncomputable def ruZ : F64 := ⟨.fin (-1), by intro y h; simp only [XR.fin.injEq] at h; subst h; exact rnd_neg_one⟩

theorem ru_add {a b : F64} {x y : ℝ} (ha : a.v = .fin x) (hb : b.v = .fin y) : (add a b).v = rnd (x + y) := by
  show R64.rndX (XR.add a.v b.v) = _
  rw [ha, hb]
  rfl

/-- x + y + z = 0 ... -/
theorem ru_sum1 : ([ruX, ruY, ruZ].foldl add (zero : F64)).v = .fin 0 := by
  have h0 : (zero : F64).v = .fin 0 := rfl
  have h1 : (add (zero : F64) ruX).v = .fin ruSmall := by rw [ru_add h0 (y := ruSmall) rfl, zero_add]; exact rnd_small
  have h2 : (add (add (zero : F64) ruX) ruY).v = .fin 1 := by rw [ru_add h1 (y := 1) rfl]; exact rnd_small_one
  have h3 : (add (add (add (zero : F64) ruX) ruY) ruZ).v = .fin 0 := by
    rw [ru_add h2 (y := -1) rfl, add_neg_cancel]; exact R64.zero
  exact h3

/-- ... and y + z + x = 2^-54 -/
theorem ru_sum2 : ([ruY, ruZ, ruX].foldl add (zero : F64)).v = .fin ruSmall := by
  have h0 : (zero : F64).v = .fin 0 := rfl
  have h1 : (add (zero : F64) ruY).v = .fin 1 := by rw [ru_add h0 (y := 1) rfl, zero_add]; exact rnd_one
  have h2 : (add (add (zero : F64) ruY) ruZ).v = .fin 0 := by rw [ru_add h1 (y := -1) rfl, add_neg_cancel]; exact R64.zero
  have h3 : (add (add (add (zero : F64) ruY) ruZ) ruX).v = .fin ruSmall := by
    rw [ru_add h2 (y := ruSmall) rfl, zero_add]; exact rnd_small
  exact h3

noncomputable def ruScope : List (Str × Sym F64) := [(['x'], .number (some ruX)), (['y'], .number (some ruY)), (['z'], .number (some ruZ))]

/-- the values of the symbols -/
noncomputable def ruVal (n : Str) : F64 := if n = ['x'] then ruX else if n = ['y'] then ruY else ruZ

/-- a model with three choices, two decision units and the numbers x = 2^-54, y = 1, z = -1; its expressions are the symbols, in the order given -/
noncomputable def ruModel (env : PyEnv) (a b c : Str) : CModel Nat F64 :=
  ⟨after rfOps, groupRun env ruPy ExprGroup.empty [.append a none, .append b none, .append c none], ruScope, some [7, 8], none, 8⟩

theorem ru_facts (env : PyEnv) (K : Kernel F64) {a b c : Str}
    (ha : a = ['x'] ∨ a = ['y'] ∨ a = ['z']) (hb : b = ['x'] ∨ b = ['y'] ∨ b = ['z'])
    (hc : c = ['x'] ∨ c = ['y'] ∨ c = ['z']) (hab : a ≠ b) (hac : a ≠ c) (hbc : b ≠ c) :
    (ruModel env a b c).container none = .ok ⟨[a, b, c], [], [ruExpr a, ruExpr b, ruExpr c]⟩ ∧
    (ruModel env a b c).validate true true true true none = .ok () ∧
    Consistent (ruModel env a b c) [[['A']], [['B']], [['C']]] 1 [7, 8] ∧
    List.Forall₂ (Ready env ruScope [[['A']], [['B']], [['C']]] 1) [(.name a, none), (.name b, none), (.name c, none)] [ruExpr a, ruExpr b, ruExpr c] ∧
    (∀ y ∈ [a, b, c], ∀ o ma al t, dictGet ruScope y ≠ some (.table o ma al t)) ∧
    (∀ x ∈ [((.name a, none) : Source), (.name b, none), (.name c, none)], ¬ Mentions outStr x.1) ∧
    (∀ i j (_ : i < 2) (hj : j < 3), ([((.name a, none) : Source), (.name b, none), (.name c, none)].filter fun x =>
        filterMeans ([[['A']], [['B']], [['C']]] : List (List Name))[j] x.2).map
          (contribution K ruScope ([[['A']], [['B']], [['C']]] : List (List Name))[j] i j) =
      [ruVal a, ruVal b, ruVal c].map fun v => some (.num v)) := by
  have hcont : (ruModel env a b c).container none = .ok ⟨[a, b, c], [], [ruExpr a, ruExpr b, ruExpr c]⟩ := by
    simp [CModel.container, ruModel, ru_exprs env a b c ha hb hc hab hac hbc, ExprGroup.itersimple, ExprGroup.iterchained, ExprGroup.all]
  have hget : ∀ t : Str, t = ['x'] ∨ t = ['y'] ∨ t = ['z'] → dictGet ruScope t = some (.number (some (ruVal t))) ∧ t ∉ reserved ∧ isNanName t = false ∧
      t ≠ nanStr ∧ t ≠ outStr ∧ t ≠ negInfStr := by
    rintro t (rfl | rfl | rfl)
    · exact ⟨by simp [dictGet, ruScope, ruVal], by decide⟩
    · exact ⟨by simp [dictGet, ruScope, ruVal], by decide⟩
    · exact ⟨by simp [dictGet, ruScope, ruVal], by decide⟩
  have hs : (ruModel env a b c).scope = ruScope := rfl
  have hv : (ruModel env a b c).validate true true true true none = .ok () := by
    have ht : (ruModel env a b c).tree = after rfOps := rfl
    have hu : (ruModel env a b c).units = some [7, 8] := rfl
    simp [CModel.validate, ht, rfOps_valid, hs, hcont, CModel.decisionUnits, hu, checkSymbols, (hget a ha).1, (hget a ha).2.1,
      (hget b hb).1, (hget b hb).2.1, (hget c hc).1, (hget c hc).2.1, Sym.filled, bind, Except.bind]
  have hcon : Consistent (ruModel env a b c) [[['A']], [['B']], [['C']]] 1 [7, 8] := by
    refine ⟨rfl, ?_, ?_, by intro ix u h; cases h⟩
    · obtain ⟨labels, h1, h2⟩ := labelled_after rfOps rfOps_clean rfOps_valid
      refine ⟨labels, h1, ?_⟩
      rw [rfOps_expected] at h2
      simpa [Choices.depth] using h2
    · intro e he
      simp only [ruModel, ruScope, List.mem_cons, List.not_mem_nil, or_false] at he
      rcases he with rfl | rfl | rfl <;> exact trivial
  have hready : ∀ t : Str, t = ['x'] ∨ t = ['y'] ∨ t = ['z'] → Ready env ruScope [[['A']], [['B']], [['C']]] 1 (.name t, none) (ruExpr t) := by
    intro t ht
    have h1 := (hget t ht).2.2.1
    refine ⟨⟨rfl, [], [], ⟨[t], [], [], [], [t]⟩, ?_, rfl, rfl, rfl⟩, by simp [Plain, PlainOver], by simp, by intro a ha; simp [ruExpr] at ha, ?_, ?_, ?_⟩
    · simp [visit, visitName, h1, freshParser, setAdd, ruExpr]
    · intro y hy
      simp only [ruExpr, List.mem_singleton] at hy
      subst hy
      refine ⟨?_, ?_⟩ <;> rintro ⟨q, hq⟩ <;> rcases ht with rfl | rfl | rfl <;> simp [subPrefix, dictPrefix] at hq
    · intro t ls sub ch h; simp [ruExpr] at h
    · intro e he; simp [ruExpr] at he
  have hcontr : ∀ (t : Str), (t = ['x'] ∨ t = ['y'] ∨ t = ['z']) → ∀ (p : List Name) (i j : Nat),
      contribution K ruScope p i j (.name t, none) = some (.num (ruVal t)) := by
    intro t ht p i j
    obtain ⟨h1, -, h3, h4, h5, h6⟩ := hget t ht
    simp [contribution, den, h3, cellEnv, h4, h5, h6, h1, symAt]
  have hout : ∀ x ∈ [((.name a, none) : Source), (.name b, none), (.name c, none)], ¬ Mentions outStr x.1 := by
    intro x hx
    simp only [List.mem_cons, List.not_mem_nil, or_false] at hx
    rcases hx with rfl | rfl | rfl
    · exact (hget a ha).2.2.2.2.1
    · exact (hget b hb).2.2.2.2.1
    · exact (hget c hc).2.2.2.2.1
  refine ⟨hcont, hv, hcon, .cons (hready a ha) (.cons (hready b hb) (.cons (hready c hc) .nil)), ?_, hout, ?_⟩
  · intro y hy o ma al t h
    have : dictGet ruScope y = some (.number (some (ruVal y))) := by
      simp only [List.mem_cons, List.not_mem_nil, or_false] at hy
      rcases hy with rfl | rfl | rfl
      · exact (hget _ ha).1
      · exact (hget _ hb).1
      · exact (hget _ hc).1
    rw [this] at h
    cases h
  · intro i j hi hj
    simp [filterMeans, hcontr a ha, hcontr b hb, hcontr c hc]

theorem ru_run (env : PyEnv) (K : Kernel F64) (hacc : ∀ a x, K.acc a (.num x) = some (add a x)) {a b c : Str}
    (ha : a = ['x'] ∨ a = ['y'] ∨ a = ['z']) (hb : b = ['x'] ∨ b = ['y'] ∨ b = ['z'])
    (hc : c = ['x'] ∨ c = ['y'] ∨ c = ['z']) (hab : a ≠ b) (hac : a ≠ c) (hbc : b ≠ c) (clear : Bool) :
    ∃ ix u, ((ruModel env a b c).runUtilities K none clear).1.cached = some (ix, u) ∧ u.rows = 2 ∧ u.cols = 3 ∧
      ∀ i j, i < 2 → j < 3 → u.val i j = [ruVal a, ruVal b, ruVal c].foldl add zero := by
  obtain ⟨hcont, hv, hcon, hready, htab, hout, hvals⟩ := ru_facts env K ha hb hc hab hac hbc
  have hs : (ruModel env a b c).scope = ruScope := rfl
  have htot : ∀ i j (_ : i < 2) (hj : j < 3), cellTotal K ruScope ([[['A']], [['B']], [['C']]] : List (List Name))[j] i j
      [(.name a, none), (.name b, none), (.name c, none)] zero = some ([ruVal a, ruVal b, ruVal c].foldl add zero) := by
    intro i j hi hj
    exact C35_total_is_sum K hacc _ _ i j _ hout _ _ (hvals i j hi hj)
  obtain ⟨u, h1, h2, h3, h4, ix, h5⟩ := C35_sum K hcon ((Held.empty env ruPy).run _) hcont hv hready htab
    (by intro i j hi hj; rw [hs]; exact Option.isSome_iff_exists.mpr ⟨_, htot i j hi hj⟩) clear
  refine ⟨ix, u, h5, h1, h2, fun i j hi hj => ?_⟩
  have := h3 i j hi hj
  rw [hs, show startAt (ruModel env a b c) i j = zero from rfl, htot i j hi hj] at this
  exact Option.some.inj this

/-- C73: the order does matter. Two models that hold the same three expressions, none of which reads `OUT`, in different order compute
different utilities in double precision: 0 and 2^-54. -/
theorem C73_order_matters (env : PyEnv) (K : Kernel F64) (hacc : ∀ a x, K.acc a (.num x) = some (add a x)) (clear : Bool) :
    ∃ (m m' : CModel Nat F64) (c c' : Container), m' = { m with exprs := m'.exprs } ∧ m.container none = .ok c ∧ m'.container none = .ok c' ∧
      c.exprs.Perm c'.exprs ∧
      ∃ ix u ix' u', (m.runUtilities K none clear).1.cached = some (ix, u) ∧ (m'.runUtilities K none clear).1.cached = some (ix', u') ∧
        ∀ i j, i < 2 → j < 3 → (u.val i j).v = .fin 0 ∧ (u'.val i j).v = .fin (2 ^ (-54 : ℤ)) := by
  have h1 : (['x'] : Str) ≠ ['y'] := by decide
  have h2 : (['x'] : Str) ≠ ['z'] := by decide
  have h3 : (['y'] : Str) ≠ ['z'] := by decide
  obtain ⟨ix, u, a1, -, -, a2⟩ := ru_run env K hacc (.inl rfl) (.inr (.inl rfl)) (.inr (.inr rfl)) h1 h2 h3 clear
  obtain ⟨ix', u', b1, -, -, b2⟩ := ru_run env K hacc (.inr (.inl rfl)) (.inr (.inr rfl)) (.inl rfl) h3 h1.symm h2.symm clear
  refine ⟨_, _, ⟨[['x'], ['y'], ['z']], [], [ruExpr ['x'], ruExpr ['y'], ruExpr ['z']]⟩, ⟨[['y'], ['z'], ['x']], [], [ruExpr ['y'], ruExpr ['z'], ruExpr ['x']]⟩,
    rfl, ?_, ?_, ?_, ix, u, ix', u', a1, b1, fun i j hi hj => ⟨?_, ?_⟩⟩
  · simp [CModel.container, ruModel, ru_exprs env _ _ _ (.inl rfl) (.inr (.inl rfl)) (.inr (.inr rfl)) h1 h2 h3, ExprGroup.itersimple, ExprGroup.iterchained, ExprGroup.all]
  · simp [CModel.container, ruModel, ru_exprs env _ _ _ (.inr (.inl rfl)) (.inr (.inr rfl)) (.inl rfl) h3 h1.symm h2.symm, ExprGroup.itersimple, ExprGroup.iterchained, ExprGroup.all]
  · exact (List.perm_append_comm (l₁ := [ruExpr ['x']]) (l₂ := [ruExpr ['y'], ruExpr ['z']]))
  · rw [a2 i j hi hj]
    have e1 : ruVal ['x'] = ruX := by simp [ruVal]
    have e2 : ruVal ['y'] = ruY := by simp [ruVal]
    have e3 : ruVal ['z'] = ruZ := by simp [ruVal]
    rw [e1, e2, e3]
    exact ru_sum1
  · rw [b2 i j hi hj]
    have e1 : ruVal ['x'] = ruX := by simp [ruVal]
    have e2 : ruVal ['y'] = ruY := by simp [ruVal]
    have e3 : ruVal ['z'] = ruZ := by simp [ruVal]
    rw [e1, e2, e3]
    exact ru_sum2

/-- the hypotheses of `C73_accuracy` and of `C73_order` are met by these two models: their utilities differ by at most `3 * 2^-51 * (2 + 2^-54)` -/
example (env : PyEnv) (K : Kernel F64) (hacc : ∀ a x, K.acc a (.num x) = some (add a x)) (clear : Bool) :
    (∃ ix u, ((ruModel env ['x'] ['y'] ['z']).runUtilities K none clear).1.cached = some (ix, u) ∧
      ∀ i j, i < 2 → j < 3 → ∀ S : ℝ, (u.val i j).v = .fin S → |S - ruSmall| ≤ 3 / 2 ^ 52 * (2 + ruSmall)) ∧
    ∃ ix u ix' u', ((ruModel env ['x'] ['y'] ['z']).runUtilities K none clear).1.cached = some (ix, u) ∧
      ((ruModel env ['y'] ['z'] ['x']).runUtilities K none clear).1.cached = some (ix', u') ∧
      ∀ i j, i < 2 → j < 3 → ∀ S S' : ℝ, (u.val i j).v = .fin S → (u'.val i j).v = .fin S' → |S - S'| ≤ 3 / 2 ^ 51 * (2 + ruSmall) := by
  have h1 : (['x'] : Str) ≠ ['y'] := by decide
  have h2 : (['x'] : Str) ≠ ['z'] := by decide
  have h3 : (['y'] : Str) ≠ ['z'] := by decide
  obtain ⟨hc, hv, hm, hr, ht, ho, hvals⟩ := ru_facts env K (.inl rfl) (.inr (.inl rfl)) (.inr (.inr rfl)) h1 h2 h3
  obtain ⟨hc', hv', -, hr', ht', -, -⟩ := ru_facts env K (.inr (.inl rfl)) (.inr (.inr rfl)) (.inl rfl) h3 h1.symm h2.symm
  have e1 : ruVal ['x'] = ruX := by simp [ruVal]
  have e2 : ruVal ['y'] = ruY := by simp [ruVal]
  have e3 : ruVal ['z'] = ruZ := by simp [ruVal]
  have x1 : Rnd.val ruX = ruSmall := rfl
  have x2 : Rnd.val ruY = 1 := rfl
  have x3 : Rnd.val ruZ = -1 := rfl
  have x0 : ∀ i j, Rnd.val (startAt (ruModel env ['x'] ['y'] ['z']) i j) = 0 := fun _ _ => rfl
  refine ⟨?_, ?_⟩
  · obtain ⟨ix, u, a1, -, -, -, a2⟩ := C73_accuracy rfl K hacc hm ((Held.empty env ruPy).run _) hc hv hr ht ho (fun _ _ => [ruVal ['x'], ruVal ['y'], ruVal ['z']])
      hvals clear
    refine ⟨ix, u, a1, fun i j hi hj S hS => ?_⟩
    have := (a2 i j hi hj S hS (by norm_num)).2.2
    rw [x0, e1, e2, e3] at this
    simp only [List.map_cons, List.map_nil, List.sum_cons, List.sum_nil, x1, x2, x3, abs_of_pos ruSmall_pos, abs_zero, abs_one, abs_neg, List.length_cons,
      List.length_nil] at this
    refine le_trans (le_of_eq (by congr 1; ring)) (le_trans this (le_of_eq (by push_cast; ring)))
  · obtain ⟨ix, u, ix', u', a1, a2, a3⟩ := C73_order rfl K hacc hm (m' := ruModel env ['y'] ['z'] ['x']) rfl ((Held.empty env ruPy).run _) ((Held.empty env ruPy).run _) hc hc' hv hv' hr hr' ht ht'
      (List.perm_append_comm (l₁ := [((.name ['x'], none) : Source)]) (l₂ := [(.name ['y'], none), (.name ['z'], none)])) ho
      (fun _ _ => [ruVal ['x'], ruVal ['y'], ruVal ['z']]) hvals clear
    refine ⟨ix, u, ix', u', a1, a2, fun i j hi hj S S' hS hS' => ?_⟩
    have := a3 i j hi hj S S' hS hS' (by norm_num)
    rw [x0, e1, e2, e3] at this
    simp only [List.map_cons, List.map_nil, List.sum_cons, List.sum_nil, x1, x2, x3, abs_of_pos ruSmall_pos, abs_zero, abs_one, abs_neg, List.length_cons,
      List.length_nil] at this
    exact le_trans this (le_of_eq (by push_cast; ring))

end Cheval
