import Verif.Props.EndToEnd
import Verif.Props.SinglePrecision

/-!
# C76: models of precision 4, from the values of the expressions to the probabilities, with and without nests

The utility table of such a model holds float32 numbers. `_kernel_eval` (model.py:517-529) computes `OUT + (expression)` with NumExpr and has the
result written into the table with `casting='same_kind'`: the sum is computed in double precision and converted to single precision. (If the
expression itself is float32, NumExpr adds in single precision; the result is the same, double precision having more than twice the digits.)
-/
namespace Cheval
open FOps B64 B32 Spec
variable {U Q V : Type} [DecidableEq U] {R : Rounding}

namespace B32

/-- conversion of a double to single precision: to nearest, ties to even, overflow to infinity -/
noncomputable def cast32 : XR → XR
  | .fin x => open Classical in if 0 ≤ x then rnd32 x else match rnd32 (-x) with
    | .fin y => .fin (-y)
    | _ => .ninf
  | v => v

theorem rnd_neg_fin {y : ℝ} (h0 : 0 ≤ y) (h : rnd y = .fin y) : rnd (-y) = .fin (-y) := by
  rcases h0.eq_or_lt with h1 | h1
  · rw [← h1, neg_zero]; rw [← h1] at h; exact h
  · rw [rnd_nonneg h0] at h
    split at h
    · cases h
    rename_i hb
    simp only [XR.fin.injEq] at h
    unfold rnd
    rw [if_neg (by linarith), neg_neg, h, if_neg]
    rwa [h] at hb

theorem cast32_rep {v : XR} {y : ℝ} (h : cast32 v = .fin y) : rnd y = .fin y := by
  cases v with
  | nan => cases h
  | pinf => cases h
  | ninf => cases h
  | fin x =>
    simp only [cast32] at h
    split at h
    · rename_i h0
      exact rnd32_rep x y h0 h
    · rename_i h0
      have h0 : 0 ≤ -x := by linarith
      cases hr : rnd32 (-x) with
      | nan => rw [hr] at h; cases h
      | pinf => rw [hr] at h; cases h
      | ninf => rw [hr] at h; cases h
      | fin z =>
        rw [hr] at h
        simp only [XR.fin.injEq] at h
        subst h
        have hz := rnd32_nonneg (-x) h0
        rw [hr] at hz
        exact rnd_neg_fin (by simpa [XR.le] using hz) (rnd32_rep _ z h0 hr)

theorem rnd32_near {x : ℝ} (h0 : 0 ≤ x) (h : x ≤ 2 ^ (127 : ℕ)) : ∃ y, rnd32 x = .fin y ∧ |y - x| ≤ 1 / 2 ^ 24 * x + 1 / 2 ^ 150 := by
  rcases h0.eq_or_lt with h1 | h1
  · subst h1
    refine ⟨0, ?_, by norm_num⟩
    have e : rpos32 0 = 0 := by
      unfold rpos32
      rw [zero_div, show (0 : ℝ) = ((0 : ℤ) : ℝ) by norm_num, roundEven_int]
      simp
    unfold rnd32
    rw [e, if_neg (by norm_num)]
  · obtain ⟨y, hy, -⟩ := rnd32_fin h1 h
    refine ⟨y, hy, ?_⟩
    unfold rnd32 at hy
    split at hy
    · cases hy
    · have e : rpos32 x = y := by simpa using hy
      rw [← e]
      exact rpos32_abs x h1

/-- the error of a conversion: relative `2^-24`, or absolute `2^-150` -/
theorem cast32_near {x : ℝ} (h : |x| ≤ 2 ^ (127 : ℕ)) : ∃ y, cast32 (.fin x) = .fin y ∧ |y - x| ≤ 1 / 2 ^ 24 * |x| + 1 / 2 ^ 150 := by
  by_cases h0 : 0 ≤ x
  · rw [abs_of_nonneg h0] at h ⊢
    obtain ⟨y, h1, h2⟩ := rnd32_near h0 h
    exact ⟨y, by simp only [cast32, if_pos h0, h1], h2⟩
  · have h0' : 0 ≤ -x := by linarith
    rw [abs_of_neg (not_le.mp h0)] at h ⊢
    obtain ⟨y, h1, h2⟩ := rnd32_near h0' h
    refine ⟨-y, by simp only [cast32, if_neg h0, h1], ?_⟩
    rw [show -y - x = -(y - -x) by ring, abs_neg]
    exact h2

end B32

/-- a double converted to single precision -/
noncomputable def narrow (hR : R.rnd = B64.rnd) (a : Rnd R) : Rnd R := ⟨cast32 a.v, fun _ h => by rw [hR]; exact cast32_rep h⟩

/-- one addition to a cell of a float32 table -/
theorem narrow_add_near (hR : R.rnd = B64.rnd) {a x : Rnd R} {p q : ℝ} (ha : a.v = .fin p) (hx : x.v = .fin q) (hB : |p + q| ≤ 2 ^ 126) :
    ∃ y, (narrow hR (add a x)).v = .fin y ∧ |y - (p + q)| ≤ 1 / 2 ^ 23 * |p + q| + 1 / 2 ^ 150 := by
  have hle : |p + q| ≤ 2 ^ 1000 := hB.trans (pow_le_pow_right₀ (by norm_num) (by norm_num))
  obtain ⟨z, hz, -⟩ := rnd_signed hle
  have hs : (add a x).v = .fin z := by
    show R.rndX (XR.add a.v x.v) = _
    rw [ha, hx]
    show R.rnd (p + q) = _
    rw [hR]; exact hz
  have he := rnd_sum_err (by rw [← hR]; exact a.rep _ ha) (by rw [← hR]; exact x.rep _ hx) hz
  have hu : uro = 1 / 2 ^ 53 := by unfold uro; norm_num
  rw [hu] at he
  have hza : |z| ≤ |p + q| + 1 / 2 ^ 53 * |p + q| := by
    have := abs_add_le (z - (p + q)) (p + q)
    rw [sub_add_cancel] at this
    linarith
  have h0 := abs_nonneg (p + q)
  obtain ⟨y, h1, h2⟩ := cast32_near (x := z) (by
    have : (2 : ℝ) ^ 127 = 2 * 2 ^ 126 := by norm_num
    rw [this]
    nlinarith)
  refine ⟨y, by show cast32 (add a x).v = _; rw [hs]; exact h1, ?_⟩
  have h3 := abs_sub_le y z (p + q)
  nlinarith

theorem narrow_ninf (hR : R.rnd = B64.rnd) {a : Rnd R} (h : a.v = .ninf) : (narrow hR a).v = .ninf := by
  show cast32 a.v = _
  rw [h]; rfl

theorem pow_23_le {k : ℕ} (hk : k ≤ 2 ^ 20) : (1 + 1 / 2 ^ 23 : ℝ) ^ k ≤ 2 := by
  have h1 : (1 + 1 / 2 ^ 23 : ℝ) ^ k ≤ Real.exp (k * (1 / 2 ^ 23)) := by
    rw [Real.exp_nat_mul]
    refine pow_le_pow_left₀ (by norm_num) ?_ k
    linarith [Real.add_one_le_exp (1 / 2 ^ 23 : ℝ)]
  have h2 : (k : ℝ) * (1 / 2 ^ 23) ≤ 1 / 2 := by
    have : (k : ℝ) ≤ 2 ^ 20 := by exact_mod_cast hk
    nlinarith
  have h3 : Real.exp (1 / 2) ≤ 2 := by
    have h4 : Real.exp (1 / 2) * Real.exp (1 / 2) = Real.exp 1 := by rw [← Real.exp_add]; norm_num
    have h5 := Real.exp_one_lt_d9
    nlinarith [Real.exp_pos (1 / 2 : ℝ)]
  exact h1.trans ((Real.exp_le_exp.mpr h2).trans h3)

theorem abs_sum_le_absSum (l : List (Rnd R)) : |(l.map Rnd.val).sum| ≤ absSum l := by
  unfold absSum
  induction l with
  | nil => simp
  | cons x l ih =>
    simp only [List.map_cons, List.sum_cons]
    exact (abs_add_le _ _).trans (by linarith)

/-- adding up numbers that are finite or `-inf` in a cell of a float32 table -/
theorem narrow_sum (hR : R.rnd = B64.rnd) (c : Rnd R) (ws : List (Rnd R)) (hv : ∀ w ∈ c :: ws, w.v = .ninf ∨ ∃ x, w.v = .fin x)
    (hn : ws.length ≤ 2 ^ 20) (hA : absSum (c :: ws) ≤ 2 ^ 120) :
    ((∃ w ∈ c :: ws, w.v = .ninf) → (ws.foldl (fun a x => narrow hR (add a x)) c).v = .ninf) ∧
    ((¬ ∃ w ∈ c :: ws, w.v = .ninf) → ∃ S : ℝ, (ws.foldl (fun a x => narrow hR (add a x)) c).v = .fin S ∧
      |S - ((c :: ws).map Rnd.val).sum| ≤ (1 + 1 / 2 ^ 23) ^ ws.length * (ws.length * (1 / 2 ^ 23 * absSum (c :: ws) + 1 / 2 ^ 150))) := by
  induction ws using List.reverseRecOn with
  | nil =>
    constructor
    · rintro ⟨w, hw, h⟩
      simp only [List.mem_singleton] at hw
      subst hw; exact h
    · intro hno
      obtain ⟨x, hx⟩ := (hv c (by simp)).resolve_left fun h => hno ⟨c, by simp, h⟩
      refine ⟨x, hx, ?_⟩
      simp [Rnd.val_fin hx]
  | append_singleton ws w ih =>
    have eA : absSum (c :: (ws ++ [w])) = absSum (c :: ws) + |w.val| := by simp [absSum, add_assoc]
    have hA0 := absSum_nonneg (c :: ws)
    have hw0 := abs_nonneg w.val
    have hlen : (ws ++ [w]).length = ws.length + 1 := by simp
    rw [hlen] at hn
    obtain ⟨i1, i2⟩ := ih (fun x hx => hv x (by
      rcases List.mem_cons.mp hx with rfl | hx
      · simp
      · simp [hx])) (by omega) (by linarith)
    have hwv := hv w (by simp)
    rw [List.foldl_append, List.foldl_cons, List.foldl_nil]
    set s := ws.foldl (fun a x => narrow hR (add a x)) c with hs
    constructor
    · rintro ⟨x, hx, hxv⟩
      apply narrow_ninf
      by_cases hin : ∃ w ∈ c :: ws, w.v = .ninf
      · exact add_ninf_left (i1 hin) hwv
      · obtain ⟨S, hS, -⟩ := i2 hin
        refine add_ninf_right ?_ (.inr ⟨S, hS⟩)
        rcases List.mem_cons.mp hx with rfl | hx
        · exact absurd ⟨_, by simp, hxv⟩ hin
        · rcases List.mem_append.mp hx with hx | hx
          · exact absurd ⟨x, by simp [hx], hxv⟩ hin
          · simp only [List.mem_singleton] at hx
            subst hx; exact hxv
    · intro hno
      obtain ⟨S, hS, hSe⟩ := i2 (by
        rintro ⟨x, hx, h⟩
        refine hno ⟨x, ?_, h⟩
        rcases List.mem_cons.mp hx with rfl | hx
        · simp
        · simp [hx])
      obtain ⟨q, hq⟩ := hwv.resolve_left fun h => hno ⟨w, by simp, h⟩
      have hqv : w.val = q := Rnd.val_fin hq
      set X := ((c :: ws).map Rnd.val).sum with hX
      have hXA : |X| ≤ absSum (c :: ws) := by
        rw [hX]
        exact abs_sum_le_absSum _
      set A := absSum (c :: ws) with hAdef
      rw [eA, hqv] at hA ⊢
      rw [hqv] at hw0
      have hk : (ws.length : ℝ) ≤ 2 ^ 20 := by
        have : ws.length ≤ 2 ^ 20 := by omega
        exact_mod_cast this
      have hk0 : (0 : ℝ) ≤ ws.length := Nat.cast_nonneg _
      set E := (1 + 1 / 2 ^ 23 : ℝ) ^ ws.length * (ws.length * (1 / 2 ^ 23 * A + 1 / 2 ^ 150)) with hE
      have hE1 : E ≤ A + 1 := by
        have h1 := pow_23_le (k := ws.length) (by omega)
        have h2 : (ws.length : ℝ) * (1 / 2 ^ 23 * A + 1 / 2 ^ 150) ≤ 2 ^ 20 * (1 / 2 ^ 23 * A + 1 / 2 ^ 150) :=
          mul_le_mul_of_nonneg_right hk (by positivity)
        have h3 : (0 : ℝ) ≤ ws.length * (1 / 2 ^ 23 * A + 1 / 2 ^ 150) := by positivity
        calc E ≤ 2 * (2 ^ 20 * (1 / 2 ^ 23 * A + 1 / 2 ^ 150)) := mul_le_mul h1 h2 h3 (by norm_num)
          _ ≤ _ := by norm_num; linarith
      have hSA : |S + q - (X + q)| ≤ E := by rwa [add_sub_add_right_eq_sub]
      have hXq : |X + q| ≤ A + |q| := (abs_add_le _ _).trans (by linarith)
      have hSq : |S + q| ≤ E + (A + |q|) := by
        have := abs_add_le (S + q - (X + q)) (X + q)
        rw [sub_add_cancel] at this
        linarith
      obtain ⟨y, hy1, hy2⟩ := narrow_add_near hR hS hq (by
        refine hSq.trans ?_
        have : (2 : ℝ) ^ 126 = 64 * 2 ^ 120 := by norm_num
        rw [this]
        nlinarith)
      refine ⟨y, hy1, ?_⟩
      have e1 : ((c :: (ws ++ [w])).map Rnd.val).sum = X + q := by
        rw [hX]; simp [hqv, add_assoc]
      rw [e1, hlen]
      have h3 := abs_sub_le y (S + q) (X + q)
      have hp1 : (1 : ℝ) ≤ (1 + 1 / 2 ^ 23 : ℝ) ^ (ws.length + 1) := one_le_pow₀ (by norm_num)
      have h4 : |y - (X + q)| ≤ (1 + 1 / 2 ^ 23) * E + (1 / 2 ^ 23 * (A + |q|) + 1 / 2 ^ 150) := by nlinarith
      have h5 : (1 + 1 / 2 ^ 23) * E ≤ (1 + 1 / 2 ^ 23 : ℝ) ^ (ws.length + 1) * (ws.length * (1 / 2 ^ 23 * (A + |q|) + 1 / 2 ^ 150)) := by
        rw [hE, pow_succ' _ ws.length, mul_assoc]
        refine mul_le_mul_of_nonneg_left (mul_le_mul_of_nonneg_left (mul_le_mul_of_nonneg_left ?_ hk0) (by positivity)) (by norm_num)
        nlinarith
      have h6 : (1 / 2 ^ 23 * (A + |q|) + 1 / 2 ^ 150 : ℝ) ≤ (1 + 1 / 2 ^ 23 : ℝ) ^ (ws.length + 1) * (1 / 2 ^ 23 * (A + |q|) + 1 / 2 ^ 150) :=
        le_mul_of_one_le_left (by positivity) hp1
      push_cast
      nlinarith

/-- the run of a model of precision 4: every expression has a value in every cell it applies to, none reads `OUT`, and each sum is converted
to single precision when it is written to the table -/
structure SingleRun (hR : R.rnd = B64.rnd) (env : PyEnv) (py : PyParser) (K : Kernel (Rnd R)) (m : CModel U (Rnd R)) (g : Option Nat)
    (paths : List (List Name)) (depth : Nat) (units : List U) (c : Container) (srcs : List Source) (vals : Nat → Nat → List (Rnd R)) : Prop
    extends PlainData env py K m g paths depth units c srcs vals where
  accumulates : ∀ a x, K.acc a (.num x) = some (narrow hR (add a x))

/-- the utilities of a unit are sums of at most `2^20` values that are finite or `-inf`, adding up to at most `2^120` in size, and for `k` values
of total size `A` the error `k (2^-22 A + 2^-149)` is at most `δ` -/
def Moderate32 (start : Nat → Rnd R) (vals : Nat → List (Rnd R)) (n : Nat) (δ : ℝ) : Prop :=
  ∀ j < n, (∀ w ∈ start j :: vals j, w.v = .ninf ∨ ∃ x, w.v = .fin x) ∧ (vals j).length ≤ 2 ^ 20 ∧
    absSum (start j :: vals j) ≤ 2 ^ 120 ∧ (vals j).length * (1 / 2 ^ 22 * absSum (start j :: vals j) + 1 / 2 ^ 149) ≤ δ

/-- **C76 (stored utilities)** The float32 utilities of a run differ by at most `k (2^-22 A + 2^-149)` from the exact sums of the `k` values of
the applying expressions and the utility stored before, `A` being the sum of their sizes; they are `-inf` exactly when one of these values is. -/
theorem C76_utilities {hR : R.rnd = B64.rnd} {env : PyEnv} {py : PyParser} {K : Kernel (Rnd R)} {m : CModel U (Rnd R)} {g : Option Nat}
    {paths : List (List Name)} {depth : Nat} {units : List U} {c : Container} {srcs : List Source} {vals : Nat → Nat → List (Rnd R)}
    (h : SingleRun hR env py K m g paths depth units c srcs vals) {clear : Bool} {m' : CModel U (Rnd R)} {u : Tab (Rnd R)}
    (hu : m.runUtilities K g clear = (m', .ok u)) :
    u.rows = units.length ∧ u.cols = paths.length ∧
    ∀ i < units.length, ∀ δ, Moderate32 (startAt m i) (vals i) paths.length δ → ∃ W : Nat → Util, ∀ j < paths.length,
      (u.val i j).v = util (W j) ∧ Near δ (W j) (exactSum (startAt m i j :: vals i j)) := by
  obtain ⟨hv, ⟨ix, hix⟩, -⟩ := runUtilities_ok hu
  have htot : ∀ i j (_ : i < units.length) (hj : j < paths.length), cellTotal K m.scope paths[j] i j srcs (startAt m i j)
      = some ((vals i j).foldl (fun a x => narrow hR (add a x)) (startAt m i j)) := fun i j hi hj =>
    total_fold K h.accumulates m.scope paths[j] i j srcs h.noOut (vals i j) (startAt m i j) (h.values i j hi hj)
  obtain ⟨u0, h1, h2, h3, h4, ix0, h5⟩ := C35_sum K h.consistent h.held h.runs hv h.ready h.noTables
    (fun i j hi hj => by rw [htot i j hi hj]; rfl) clear
  have e : u0 = u := by
    rw [hu] at h5
    rw [h5] at hix
    exact (Prod.mk.inj (Option.some.inj hix)).2
  subst e
  refine ⟨h1, h2, fun i hi δ hmod => ?_⟩
  have hx : ∀ j, ∃ W : Util, j < paths.length → (u0.val i j).v = util W ∧ Near δ W (exactSum (startAt m i j :: vals i j)) := by
    intro j
    by_cases hj : j < paths.length
    · obtain ⟨k1, k2, k3, k4⟩ := hmod j hj
      obtain ⟨w1, w2⟩ := narrow_sum hR (startAt m i j) (vals i j) k1 k2 k3
      have := h3 i j hi hj
      rw [htot i j hi hj, Option.some.injEq] at this
      rw [← this] at w1 w2
      unfold exactSum
      by_cases hx : ∃ v ∈ startAt m i j :: vals i j, v.v = .ninf
      · rw [if_pos hx]
        exact ⟨none, fun _ => ⟨w1 hx, trivial⟩⟩
      · rw [if_neg hx]
        obtain ⟨S, hS, hSe⟩ := w2 hx
        refine ⟨some S, fun _ => ⟨hS, ?_⟩⟩
        show |S - _| ≤ δ
        refine hSe.trans (le_trans ?_ k4)
        have hp := pow_23_le k2
        have h0 : (0 : ℝ) ≤ (vals i j).length * (1 / 2 ^ 23 * absSum (startAt m i j :: vals i j) + 1 / 2 ^ 150) :=
          mul_nonneg (Nat.cast_nonneg _) (add_nonneg (mul_nonneg (by norm_num) (absSum_nonneg _)) (by norm_num))
        refine (mul_le_mul_of_nonneg_right hp h0).trans (le_of_eq ?_)
        norm_num
        ring
    · exact ⟨none, fun hc => absurd hc hj⟩
  exact ⟨fun j => (hx j).choose, fun j hj => (hx j).choose_spec hj⟩

/-- **C76 (from the values of the expressions, no nests)** When run_stochastic on a model of precision 4 without nests returns, then for every
decision unit whose exact utilities are -inf or at most 87, and one at least -39, with errors of the stored utilities at most `δ <= 1/4` (see
`Moderate32`): the probability in the column of each choice differs from the multinomial logit of the exact utilities by at most
`4 δ + 3 * 2^-24 + n * 2^-52`. -/
theorem C76_flat (ops : List (TreeOp F32)) (hc : CleanRun Choices.empty ops) (hd : (expected ops).depth ≤ 1)
    (hn : (expected ops).live.length ≤ 2 ^ 30) (s : Setting F32 Q) (m m' : CModel U F32) (hm : m.tree = after ops)
    {env : PyEnv} {py : PyParser} {g : Option Nat} {depth : Nat} {units : List U} {c : Container} {srcs : List Source} {vals : Nat → Nat → List F32}
    (hp : SingleRun rnd_R32 env py s.K m g ((expected ops).live.map (·.path)) depth units c srcs vals)
    (threads : Int) (clear scaled check : Bool) (fr : Frame F32) (ls : Nat → F32) (nls : Frame F32)
    (h : RunStochastic s m g threads clear scaled check (m', .ok (fr, ls, nls))) :
    ∀ i < units.length, ∀ δ, 0 ≤ δ → δ ≤ 1 / 4 → Moderate32 (startAt m i) (vals i) (expected ops).live.length δ →
      (∀ j < (expected ops).live.length, ∀ x, exactSum (startAt m i j :: vals i j) = some x → x ≤ 87) →
      (∃ j < (expected ops).live.length, ∃ x, exactSum (startAt m i j :: vals i j) = some x ∧ -39 ≤ x) →
      choices m.tree = .ok fr.cols ∧ fr.cols.length = (expected ops).live.length ∧ ∀ j < (expected ops).live.length, |(fr.val i j).val - expw (exactSum (startAt m i j :: vals i j)) /
          ∑ k ∈ Finset.range (expected ops).live.length, expw (exactSum (startAt m i k :: vals i k))|
        ≤ 4 * δ + 3 * (1 / 2 ^ 24) + (expected ops).live.length * (1 / 2 ^ 52) := by
  obtain ⟨u, hu⟩ := runStochastic_utilities h
  obtain ⟨hrow, hcol, hut⟩ := C76_utilities hp hu
  rw [List.length_map] at hcol hut
  intro i hi δ hδ0 hδ hmod hle hbig
  obtain ⟨W, hW⟩ := hut i hi δ hmod
  have hcell : ∀ j < u.cols, (u.val i j).v = .ninf ∨ ∃ x : ℝ, (u.val i j).v = .fin x ∧ x ≤ 88 := by
    intro k hk
    rw [hcol] at hk
    obtain ⟨h1, h2⟩ := hW k hk
    rw [h1]
    cases hw : W k with
    | none => exact .inl rfl
    | some y =>
      refine .inr ⟨y, rfl, ?_⟩
      rw [hw] at h2
      cases hx : exactSum (startAt m i k :: vals i k) with
      | none => rw [hx] at h2; exact h2.elim
      | some x =>
        rw [hx] at h2
        have h2 : |y - x| ≤ δ := h2
        have := hle k hk x hx
        linarith [(abs_le.mp h2).2]
  have hone : ∃ j < u.cols, ∃ x : ℝ, (u.val i j).v = .fin x ∧ -40 ≤ x := by
    obtain ⟨k, hk, x, hx, hx0⟩ := hbig
    obtain ⟨h1, h2⟩ := hW k hk
    rw [hx] at h2
    cases hw : W k with
    | none => rw [hw] at h2; exact h2.elim
    | some y =>
      rw [hw] at h2 h1
      have h2 : |y - x| ≤ δ := h2
      exact ⟨k, by rw [hcol]; exact hk, y, h1, by linarith [(abs_le.mp h2).1]⟩
  obtain ⟨k1, k2, -⟩ := C76_run ops hc hd hn s m m' hm g threads clear scaled check u hu fr ls nls h i (by rw [hrow]; exact hi) hcell hone
  refine ⟨k1, by rw [k2, hcol], fun j hj => ?_⟩
  have := C76_stored ops hc hd hn s m m' hm g threads clear scaled check u hu fr ls nls h i (by rw [hrow]; exact hi) hcell hone
    (fun j => exactSum (startAt m i j :: vals i j)) δ hδ0 hδ (by
      intro k hk
      rw [hcol] at hk
      obtain ⟨h1, h2⟩ := hW k hk
      unfold cellUtil
      rw [h1]
      cases hw : W k with
      | none =>
        rw [hw] at h2
        cases hx : exactSum (startAt m i k :: vals i k) with
        | none => trivial
        | some x => rw [hx] at h2; exact h2.elim
      | some y =>
        rw [hw] at h2
        cases hx : exactSum (startAt m i k :: vals i k) with
        | none => rw [hx] at h2; exact h2.elim
        | some x =>
          rw [hx] at h2
          show |_ - _| ≤ _
          rw [abs_sub_comm]; exact h2) j (by rw [hcol]; exact hj)
  rwa [hcol] at this

/-- **C76 (from the values of the expressions, nests)** `nested_probabilities` converts the float32 utilities to double precision first
(core.py:168). `exp` and `log` having relative error at most `ε <= 1/1000`: when run_stochastic on a model of precision 4 with `n` choices (nests
included) on `d` levels returns, then for every decision unit whose stored utilities have errors at most `δ` (see `Moderate32`) and whose returned
logsum is finite: let `T`, `P` be the nested logit of the exact utilities, with terms between `exp(-M)` and `exp(M)`, `M <= 599`, and `σ` the
smallest scale applied. The probability under the label of each elemental choice differs from the exact one by at most
`d (4Δ + (4n+5) 2^-53) + 4 d² δ / σ`, if `d ((M+41) ε + (3M+2n+53) 2^-53) <= σ Δ`, `Δ <= 1/5` and `4 d δ <= σ`. -/
theorem C76_nested {hR : R.rnd = B64.rnd} {ε : ℝ} (hε : 0 ≤ ε) (hε1 : ε ≤ 1 / 1000) (hexp : ExpAcc R ε) (hlog : LogAcc R ε)
    (ops : List (TreeOp (Rnd R))) (hc : CleanRun Choices.empty ops) (hd : 1 < (expected ops).depth)
    (hn : (expected ops).live.length ≤ 2 ^ 48) (s : Setting (Rnd R) Q) (m m' : CModel U (Rnd R)) (hm : m.tree = after ops)
    {env : PyEnv} {py : PyParser} {g : Option Nat} {depth : Nat} {units : List U} {c : Container} {srcs : List Source} {vals : Nat → Nat → List (Rnd R)}
    (hp : SingleRun hR env py s.K m g ((expected ops).live.map (·.path)) depth units c srcs vals)
    (threads : Int) (clear scaled check : Bool) (fr : Frame (Rnd R)) (ls : Nat → Rnd R) (nls : Frame (Rnd R))
    (h : RunStochastic s m g threads clear scaled check (m', .ok (fr, ls, nls))) :
    elementalChoices m.tree = .ok fr.cols ∧
    ∀ i < units.length, ∀ (T P : Nat → ℝ) (S σ M Δ δ : ℝ),
      (expected ops).treeR.IsNestedLogit scaled (fun j => exactSum (startAt m i j :: vals i j)) T P → (ls i).v = .fin S →
      0 ≤ δ → Moderate32 (startAt m i) (vals i) (expected ops).live.length δ → 0 < σ → 4 * (expected ops).depth * δ ≤ σ →
      (∀ k < (expected ops).live.length, σ ≤ (expected ops).treeR.θp scaled k) → 0 ≤ M → M ≤ 599 →
      (∀ k < (expected ops).live.length, T k = 0 ∨ |Real.log (T k)| ≤ M) → Δ ≤ 1 / 5 →
      (expected ops).depth * ((M + 41) * ε + (3 * M + 2 * (expected ops).live.length + 53) * (1 / 2 ^ 53)) ≤ σ * Δ →
      ∀ j (_ : j < fr.cols.length), ∃ k, ∃ _ : k < (expected ops).live.length,
        fr.cols[j] = pad (expected ops).depth (expected ops).live[k].path ∧ (expected ops).treeR.Leaf k ∧
        |(fr.val i j).val - P k| ≤ (expected ops).depth * (4 * Δ + (4 * (expected ops).live.length + 5) * (1 / 2 ^ 53)) +
          4 * (expected ops).depth ^ 2 * δ / σ := by
  obtain ⟨u, hu⟩ := runStochastic_utilities h
  obtain ⟨hrow, hcol, hut⟩ := C76_utilities hp hu
  rw [List.length_map] at hcol hut
  obtain ⟨k1, k2⟩ := nested_near hR hε hε1 hexp hlog ops hc hd hn s m m' hm threads clear scaled check hu hcol fr ls nls h
  refine ⟨k1, fun i hi T P S σ M Δ δ hspec hS hδ0 hmod hσ hσδ hσ' hM0 hM hTM hΔ hsmall => ?_⟩
  obtain ⟨W, hW⟩ := hut i hi δ hmod
  exact k2 i (by rw [hrow]; exact hi) W _ T P S σ M Δ δ hW hspec hS hδ0 hσ hσδ hσ' hM0 hM hTM hΔ hsmall

/-! ### Concrete calls -/

/-- C76_utilities: expressions with the values 2^-54, 1 and -1 on top of the utilities `0, 0, -inf`, added up in single precision -/
example (env : PyEnv) (K : Kernel F64) (hacc : ∀ a x, K.acc a (.num x) = some (narrow rfl (add a x))) : ∃ m' u,
    (reModel env).runUtilities K none true = (m', .ok u) ∧ ∀ i < 2, ∃ x, (u.val i 0).v = .fin x ∧ |x - ruSmall| ≤ 3 * (1 / 2 ^ 22 * 3 + 1 / 2 ^ 149) := by
  obtain ⟨hp, hv⟩ := re_data env K
  have hpa : (expected rfOps).live.map (·.path) = [[['A']], [['B']], [['C']]] := by rw [rfOps_expected]; rfl
  have hsr : SingleRun rfl env ruPy K (reModel env) none ((expected rfOps).live.map (·.path)) 1 [7, 8]
      ⟨[['x'], ['y'], ['z']], [], [ruExpr ['x'], ruExpr ['y'], ruExpr ['z']]⟩ [(.name ['x'], none), (.name ['y'], none), (.name ['z'], none)]
      (fun _ _ => [ruX, ruY, ruZ]) := ⟨hp, hacc⟩
  rw [hpa] at hp hsr
  have hst : ∀ i j, startAt (reModel env) i j = if j = 2 then FOps.negInf else FOps.zero := fun i j => rfl
  have hfin : ∀ i j, ∀ w ∈ startAt (reModel env) i j :: [ruX, ruY, ruZ], w.v = .ninf ∨ ∃ x, w.v = .fin x := by
    intro i j w hw
    rw [hst] at hw
    simp only [List.mem_cons, List.not_mem_nil, or_false] at hw
    rcases hw with rfl | rfl | rfl | rfl
    · split
      · exact .inl rfl
      · exact .inr ⟨_, rfl⟩
    · exact .inr ⟨_, rfl⟩
    · exact .inr ⟨_, rfl⟩
    · exact .inr ⟨_, rfl⟩
  have x1 : ruX.val = ruSmall := rfl
  have x2 : ruY.val = 1 := rfl
  have x3 : ruZ.val = -1 := rfl
  have x4 : Rnd.val (FOps.zero : F64) = 0 := rfl
  have x5 : Rnd.val (FOps.negInf : F64) = 0 := rfl
  have hs0 := ruSmall_pos
  have hs1 : ruSmall ≤ 1 := by
    unfold ruSmall; rw [zpow_neg]; norm_num
  have hA : ∀ i j, absSum (startAt (reModel env) i j :: [ruX, ruY, ruZ]) ≤ 3 := by
    intro i j
    rw [hst]
    split <;> simp only [absSum, List.map_cons, List.map_nil, List.sum_cons, List.sum_nil, x1, x2, x3, x4, x5, abs_zero, abs_neg, abs_one, abs_of_pos hs0] <;> linarith
  have htot : ∀ i j (_ : i < 2) (hj : j < 3), cellTotal K (reModel env).scope ([[['A']], [['B']], [['C']]] : List (List Name))[j] i j
      [(.name ['x'], none), (.name ['y'], none), (.name ['z'], none)] (startAt (reModel env) i j)
      = some ([ruX, ruY, ruZ].foldl (fun a x => narrow rfl (add a x)) (startAt (reModel env) i j)) := fun i j hi hj =>
    total_fold K hacc _ _ i j _ hp.noOut _ _ (hp.values i j hi hj)
  obtain ⟨u, h1, h2, h3, h4, ix, h5⟩ := C35_sum K hp.consistent hp.held hp.runs hv hp.ready hp.noTables
    (fun i j hi hj => by rw [htot i j hi hj]; rfl) true
  rw [if_neg] at h4
  swap
  · rintro ⟨i, j, hi, hj, h⟩
    have hcell := h3 i j hi hj
    rw [htot i j hi hj, Option.some.injEq] at hcell
    obtain ⟨n1, n2⟩ := narrow_sum (R := R64) rfl (startAt (reModel env) i j) [ruX, ruY, ruZ] (hfin i j) (by norm_num)
      ((hA i j).trans (by norm_num))
    rw [← hcell] at n1 n2
    have h : XR.isNan (u.val i j).v = true := h
    by_cases hx : ∃ w ∈ startAt (reModel env) i j :: [ruX, ruY, ruZ], w.v = .ninf
    · rw [n1 hx] at h; cases h
    · obtain ⟨S, hS, -⟩ := n2 hx
      rw [hS] at h; cases h
  rcases hru : (reModel env).runUtilities K none true with ⟨m', r⟩
  rw [hru] at h4
  have h4 : r = .ok u := h4
  subst h4
  refine ⟨m', u, rfl, fun i hi => ?_⟩
  obtain ⟨-, -, hut⟩ := C76_utilities hsr hru
  obtain ⟨W, hW⟩ := hut i hi (3 * (1 / 2 ^ 22 * 3 + 1 / 2 ^ 149)) (by
    intro j _
    refine ⟨hfin i j, by norm_num, (hA i j).trans (by norm_num), ?_⟩
    show ((3 : ℕ) : ℝ) * _ ≤ _
    have := hA i j
    push_cast
    linarith)
  obtain ⟨w1, w2⟩ := hW 0 (by norm_num)
  have hex : exactSum (startAt (reModel env) i 0 :: [ruX, ruY, ruZ]) = some ruSmall := by
    unfold exactSum
    rw [if_neg]
    · rw [hst, if_neg (by norm_num)]
      simp only [List.map_cons, List.map_nil, List.sum_cons, List.sum_nil, x1, x2, x3, x4]
      norm_num
    · rintro ⟨v, hv, h⟩
      rw [hst, if_neg (by norm_num)] at hv
      simp only [List.mem_cons, List.not_mem_nil, or_false] at hv
      rcases hv with rfl | rfl | rfl | rfl <;> cases h
  rw [hex] at w2
  cases hw : W 0 with
  | none => rw [hw] at w2; exact w2.elim
  | some x =>
    rw [hw] at w1 w2
    exact ⟨x, w1, w2⟩

/-- C76_nested: all hypotheses hold for a run without expressions on top of the utilities `0, 0, 0, -inf`, computed before -/
example (K : Kernel F64) (hacc : ∀ a x, K.acc a (.num x) = some (narrow rfl (add a x))) (g : Rng F64) (l : LegacyRandom Nat) : ∃ m' fr ls nls,
    RunStochastic ⟨K, g, l, 0, 4⟩ rrModel none 2 true true true (m', .ok (fr, ls, nls)) ∧
    ∀ i < 2, ∀ j < fr.cols.length, ∃ k < 4, |(fr.val i j).val - nxP k| ≤ 1 / 2 ^ 40 := by
  obtain ⟨m', u, fr, ls, nls, hru, hrows, ho, hl⟩ := rr_call K g l
  have hd : 1 < (expected rrOps).depth := by rw [rrOps_expected]; simp [Choices.depth]
  have hdep : (expected rrOps).depth = 2 := by rw [rrOps_expected]; simp [Choices.depth]
  have hlen : (expected rrOps).live.length = 4 := by rw [rrOps_expected]; rfl
  let env : PyEnv := ⟨false, fun _ => false, id, .utilities⟩
  have hp : SingleRun (R := R64) rfl env emPy K rrModel none ((expected rrOps).live.map (·.path)) (expected rrOps).depth [7, 8] ⟨[], [], []⟩ [] (fun _ _ => []) := by
    refine ⟨⟨⟨rfl, ?_, (by intro e he; simp [rrModel] at he), ?_⟩, Held.empty env emPy, ?_, .nil, (by intro y hy; cases hy), (by intro x hx; cases hx),
      fun _ _ _ _ => rfl⟩, hacc⟩
    · exact labelled_after rrOps rrOps_clean rrOps_valid
    · intro ix u h
      simp only [rrModel, Option.some.injEq, Prod.mk.injEq] at h
      obtain ⟨rfl, rfl⟩ := h
      exact ⟨rfl, by rw [List.length_map, hlen]⟩
    · simp [CModel.container, rrModel, ExprGroup.empty, ExprGroup.itersimple, ExprGroup.iterchained, ExprGroup.all]
  obtain ⟨-, h2⟩ := C76_nested (R := R64) (hR := rfl) (ε := 1 / 2 ^ 53) (by positivity) (by norm_num) expAcc_R64 logAcc_R64 rrOps rrOps_clean hd
    (by rw [hlen]; norm_num) _ rrModel m' rfl hp 2 true true true fr ls nls ho
  refine ⟨m', fr, ls, nls, ho, fun i hi j hj => ?_⟩
  have hst : ∀ j, startAt rrModel i j = if j = 3 then FOps.negInf else FOps.zero := fun j => rfl
  have hex : (fun j => exactSum [startAt rrModel i j]) = nxU := by
    funext j
    rw [hst]
    unfold nxU exactSum
    have x4 : Rnd.val (FOps.zero : F64) = 0 := rfl
    by_cases h3 : j = 3
    · rw [if_pos h3, if_pos h3]
      exact if_pos ⟨_, List.mem_cons_self, rfl⟩
    · rw [if_neg h3, if_neg h3, if_neg]
      · simp [x4]
      · rintro ⟨v, hv, h⟩
        simp only [List.mem_singleton] at hv
        subst hv; cases h
  have hdata := nestEx_data
  rw [rr_treeR] at h2
  obtain ⟨k, hk, -, -, h3⟩ := h2 i hi nxT nxP 2 1 0 (2 * (41 * (1 / 2 ^ 53) + (2 * 4 + 53) * (1 / 2 ^ 53))) 0 (by rw [hex]; exact nestEx_spec) (hl i hi)
    (le_refl _) (by
      intro j _
      refine ⟨?_, by norm_num, ?_, by norm_num⟩
      · intro w hw
        rw [hst, List.mem_singleton] at hw
        subst hw
        split
        · exact .inl rfl
        · exact .inr ⟨_, rfl⟩
      · have x4 : Rnd.val (FOps.zero : F64) = 0 := rfl
        have x5 : Rnd.val (FOps.negInf : F64) = 0 := rfl
        rw [hst]
        split <;> simp only [absSum, List.map_cons, List.map_nil, List.sum_cons, List.sum_nil, x4, x5, abs_zero, add_zero] <;> positivity)
    one_pos (by norm_num) (fun k hk => hdata.applied k (by rw [hlen] at hk; exact hk)) (le_refl _) (by norm_num) (by
      intro k hk
      by_cases h3 : k = 3
      · left; simp [nxT, h3]
      · right; simp [nxT, h3]) (by norm_num) (by rw [hlen, hdep]; norm_num) j hj
  refine ⟨k, by rw [← hlen]; exact hk, h3.trans ?_⟩
  rw [hlen, hdep]
  norm_num

/-- C76_flat: a run without expressions on top of the float32 utilities `2, 0, -inf`, computed before -/
example (K : Kernel F32) (hacc : ∀ a x, K.acc a (.num x) = some (narrow rnd_R32 (add a x))) (g : Rng F32) (lr : LegacyRandom Nat) :
    ∃ (m m' : CModel Nat F32) (fr : Frame F32) (ls : Nat → F32) (nls : Frame F32),
    RunStochastic ⟨K, g, lr, 0, 4⟩ m none 2 true true true (m', .ok (fr, ls, nls)) ∧ ∀ i < 2,
      |(fr.val i 0).val - Real.exp 2 / (Real.exp 2 + 1)| ≤ 3 * (1 / 2 ^ 24) + 3 * (1 / 2 ^ 52) := by
  let w : Nat → F32 := fun j => if j = 0 then whole (R := R32) rfl 2 (by norm_num) else if j = 1 then FOps.zero else FOps.negInf
  have hw0 : (w 0).v = .fin 2 := by simp [w, whole]
  have hw1 : (w 1).v = .fin 0 := rfl
  have hw2 : (w 2).v = .ninf := rfl
  have hc2 : ∀ j < 3, j = 0 ∨ j = 1 ∨ j = 2 := by omega
  have hw : ∀ j, FOps.isNan (w j) = false := by
    intro j
    show XR.isNan (w j).v = false
    simp only [w]
    split
    · rfl
    · split <;> rfl
  obtain ⟨ps, l, t, h, hl, hacc'⟩ := C76_in_range [w 0, w 1, w 2] (by norm_num) (by
      intro u hu
      simp only [List.mem_cons, List.not_mem_nil, or_false] at hu
      rcases hu with rfl | rfl | rfl
      · exact Or.inr ⟨_, hw0, by norm_num⟩
      · exact Or.inr ⟨_, hw1, by norm_num⟩
      · exact Or.inl hw2) ⟨_, List.mem_cons_self .., _, hw0, by norm_num⟩ true
  obtain ⟨m', u, fr, ls, nls, hru, h1, h2, h3, hst⟩ := bg_stochastic w hw true ps l t h K g lr
  refine ⟨bgModel w, m', fr, ls, nls, hst, fun i hi => ?_⟩
  have hlen : (expected (rgOps R32)).live.length = 3 := by rw [rgOps_expected]; rfl
  let env : PyEnv := ⟨false, fun _ => false, id, .utilities⟩
  have hp : SingleRun (R := R32) rnd_R32 env emPy K (bgModel w) none ((expected (rgOps R32)).live.map (·.path)) (expected (rgOps R32)).depth [7, 8] ⟨[], [], []⟩ []
      (fun _ _ => []) := by
    refine ⟨⟨⟨rfl, ?_, (by intro e he; simp [bgModel] at he), ?_⟩, Held.empty env emPy, ?_, .nil, (by intro y hy; cases hy), (by intro x hx; cases hx),
      fun _ _ _ _ => rfl⟩, hacc⟩
    · exact labelled_after (rgOps R32) rgOps_clean rgOps_valid
    · intro ix u h
      simp only [bgModel, Option.some.injEq, Prod.mk.injEq] at h
      obtain ⟨rfl, rfl⟩ := h
      exact ⟨rfl, by rw [List.length_map, hlen]⟩
    · simp [CModel.container, bgModel, ExprGroup.empty, ExprGroup.itersimple, ExprGroup.iterchained, ExprGroup.all]
  have hstart : ∀ j, startAt (bgModel w) i j = w j := fun j => rfl
  have e0 : exactSum [w 0] = some 2 := by
    unfold exactSum
    rw [if_neg (by rintro ⟨v, hv, h⟩; rw [List.mem_singleton] at hv; subst hv; rw [hw0] at h; cases h)]
    simp [Rnd.val_fin hw0]
  have e1 : exactSum [w 1] = some 0 := by
    unfold exactSum
    rw [if_neg (by rintro ⟨v, hv, h⟩; rw [List.mem_singleton] at hv; subst hv; rw [hw1] at h; cases h)]
    simp [Rnd.val_fin hw1]
  have e2 : exactSum [w 2] = none := if_pos ⟨_, List.mem_cons_self, hw2⟩
  obtain ⟨-, -, h4⟩ := C76_flat (units := [7, 8]) (rgOps R32) rgOps_clean bg_flat (by rw [hlen]; norm_num) _ (bgModel w) m' rfl hp 2 true true true fr ls nls hst i hi 0
    (le_refl _) (by norm_num) (by
      intro j hj
      rw [hlen] at hj
      rw [hstart]
      rcases hc2 j hj with rfl | rfl | rfl
      · exact ⟨by intro v hv; rw [List.mem_singleton] at hv; subst hv; exact .inr ⟨_, hw0⟩, by norm_num,
          by simp [absSum, Rnd.val_fin hw0]; norm_num, by norm_num⟩
      · exact ⟨by intro v hv; rw [List.mem_singleton] at hv; subst hv; exact .inr ⟨_, hw1⟩, by norm_num,
          by simp [absSum, Rnd.val_fin hw1], by norm_num⟩
      · have : (w 2).val = 0 := rfl
        exact ⟨by intro v hv; rw [List.mem_singleton] at hv; subst hv; exact .inl hw2, by norm_num,
          by simp [absSum, this], by norm_num⟩) (by
      intro j hj x hx
      rw [hlen] at hj
      rw [hstart] at hx
      rcases hc2 j hj with rfl | rfl | rfl
      · rw [e0] at hx; cases hx; norm_num
      · rw [e1] at hx; cases hx; norm_num
      · rw [e2] at hx; cases hx) ⟨0, by rw [hlen]; norm_num, 2, by rw [hstart]; exact e0, by norm_num⟩
  have := h4 0 (by rw [hlen]; norm_num)
  rw [hlen] at this
  simp only [hstart, Finset.sum_range_succ, Finset.sum_range_zero, e0, e1, e2, expw, zero_add, add_zero, mul_zero, Real.exp_zero] at this
  exact_mod_cast this

end Cheval
