import Verif.Proofs.RoundArith
import Verif.Proofs.Kernel
/-! # Rounding errors: properties C54, C55

Unlike the other files, these theorems do not leave floats without meaning: the float type is any one that
satisfies the standard model of floating-point arithmetic (`Spec/Rounding.lean`, met by IEEE-754 doubles). -/

namespace SymRust
variable {F : Type} [FloatOps F] (R : Rounding F)
open Expr Rounding

/-! ## C54 -/

/-- C54: whatever error bound `E` standard error propagation gives for evaluating `e` with rounding at every step,
the result of `num_aggregate` has a value within `E` of the exact value `r` of `e`, at every assignment; no float
in it has overflowed, and if the result is a number, its `to_f64` is within `E` of `r` too. -/
theorem C54_error_bound (m : Mode) (e e' : Expr F) (he : Built m e) (hs : RuleSafe .strict e)
    (h : e.numAggregate .strict = .ok e') (env : Env) (r E : ℝ) (hw : R.Within env e r E) :
    (∃ v, denote R.real? env e' = some v ∧ |v - r| ≤ E) ∧
    ∀ n, e' = ofNum n → ∃ f, R.val n.toF64 = some f ∧ |f - r| ≤ E := by
  have he : WF SmartNum.Valid e := he.mono fun _ hn => hn.valid
  obtain ⟨v, h1, h2, h3⟩ := agg_near (agg_of_numAggregate he.tree h) he hs hw
  exact ⟨⟨v, h1, h2⟩, h3⟩

/-- The `r` of `Within` is the exact value. -/
theorem C54_exact_value (env : Env) (e : Expr F) (r E : ℝ) (h : R.Within env e r E) :
    denote R.real? env e = some r := by
  induction h with
  | num n r h => rw [denote_ofNum]; exact h
  | var v => simp
  | unary op a r₁ E₁ r D _ h _ i => simp [denote, denoteList, i, h]
  | binary op a b r₁ E₁ r₂ E₂ r D _ _ h _ i j => simp [denote, denoteList, i, j, h]

theorem Rounding.Arith.ruleSafe {R : Rounding F} {e : Expr F} {r A : ℝ} {k : ℕ} (h : R.Arith e r A k) (m : Mode) :
    RuleSafe m e := by
  unfold RuleSafe
  induction h with
  | num n => exact everywhere_ofNum.2 ⟨fun _ _ h => by simp [ofNum, Expr.cos] at h, fun _ _ _ h => by simp [ofNum, Expr.pow] at h⟩
  | neg a _ _ _ _ i =>
    exact everywhere_neg.2 ⟨⟨fun _ _ h => by simp [Expr.neg, Expr.cos, genOpNeg, genOpCos] at h,
      fun _ _ _ h => by simp [Expr.neg, Expr.pow] at h⟩, i⟩
  | add a b _ _ _ _ _ _ _ _ _ _ _ i j =>
    exact everywhere_add.2 ⟨⟨fun _ _ h => by simp [Expr.add, Expr.cos] at h,
      fun _ _ _ h => by simp [Expr.add, Expr.pow, genOpAdd, genOpPow] at h⟩, i, j⟩
  | sub a b _ _ _ _ _ _ _ _ _ _ _ i j =>
    exact everywhere_sub.2 ⟨⟨fun _ _ h => by simp [Expr.sub, Expr.cos] at h,
      fun _ _ _ h => by simp [Expr.sub, Expr.pow, genOpSub, genOpPow] at h⟩, i, j⟩
  | mul a b _ _ _ _ _ _ _ _ _ _ _ i j =>
    exact everywhere_mul.2 ⟨⟨fun _ _ h => by simp [Expr.mul, Expr.cos] at h,
      fun _ _ _ h => by simp [Expr.mul, Expr.pow, genOpMul, genOpPow] at h⟩, i, j⟩
  | div a b _ _ _ _ _ _ _ _ _ _ _ i j =>
    exact everywhere_div.2 ⟨⟨fun _ _ h => by simp [Expr.div, Expr.cos] at h,
      fun _ _ _ h => by simp [Expr.div, Expr.pow, genOpDiv, genOpPow] at h⟩, i, j⟩

theorem Rounding.Arith.num_result {R : Rounding F} {e : Expr F} {r A : ℝ} {k : ℕ} (ha : R.Arith e r A k) {m : Mode}
    {e' : Expr F} (h : e.numAggregate m = .ok e') : ∃ n, e' = ofNum n := by
  have fin : ∀ {z : Res (SmartNum F)} {e' : Expr F}, (z >>= fun a => Res.ok (ofNum a)) = .ok e' → ∃ n, e' = ofNum n := by
    intro z e' h
    cases z with
    | ok n => cases h; exact ⟨_, rfl⟩
    | panic => cases h
  induction ha generalizing e' with
  | num n => rw [numAggregate_ofNum] at h; cases h; exact ⟨_, rfl⟩
  | neg a _ _ _ _ i =>
    rw [numAggregate_neg] at h
    cases ha : a.numAggregate m with
    | panic => rw [ha] at h; simp [negEvalRule, pop_one] at h
    | ok a' =>
      obtain ⟨x, rfl⟩ := i ha
      rw [ha] at h
      simp only [negEvalRule, pop_one, Res.ok_bind, isNum_ofNum, if_true, numUnwrap_ofNum] at h
      exact fin h
  | add a b _ _ _ _ _ _ _ _ _ _ _ i j =>
    rw [numAggregate_add] at h
    cases hb : b.numAggregate m with
    | panic => rw [hb] at h; simp [addEvalRule, pop_two] at h
    | ok b' =>
      cases ha : a.numAggregate m with
      | panic => rw [ha, hb] at h; simp [addEvalRule, pop_one, pop_two] at h
      | ok a' =>
        obtain ⟨x, rfl⟩ := i ha
        obtain ⟨y, rfl⟩ := j hb
        rw [ha, hb] at h
        simp only [addEvalRule, pop_one, pop_two, Res.ok_bind, isNum_ofNum, Bool.and_self, if_true, numUnwrap_ofNum] at h
        exact fin h
  | sub a b _ _ _ _ _ _ _ _ _ _ _ i j =>
    rw [numAggregate_sub] at h
    cases hb : b.numAggregate m with
    | panic => rw [hb] at h; simp [subEvalRule, pop_two] at h
    | ok b' =>
      cases ha : a.numAggregate m with
      | panic => rw [ha, hb] at h; simp [subEvalRule, pop_one, pop_two] at h
      | ok a' =>
        obtain ⟨x, rfl⟩ := i ha
        obtain ⟨y, rfl⟩ := j hb
        rw [ha, hb] at h
        simp only [subEvalRule, pop_one, pop_two, Res.ok_bind, isNum_ofNum, Bool.and_self, if_true, numUnwrap_ofNum] at h
        exact fin h
  | mul a b _ _ _ _ _ _ _ _ _ _ _ i j =>
    rw [numAggregate_mul] at h
    cases hb : b.numAggregate m with
    | panic => rw [hb] at h; simp [mulEvalRule, pop_two] at h
    | ok b' =>
      cases ha : a.numAggregate m with
      | panic => rw [ha, hb] at h; simp [mulEvalRule, pop_one, pop_two] at h
      | ok a' =>
        obtain ⟨x, rfl⟩ := i ha
        obtain ⟨y, rfl⟩ := j hb
        rw [ha, hb] at h
        simp only [mulEvalRule, pop_one, pop_two, Res.ok_bind, isNum_ofNum, Bool.and_self, if_true, numUnwrap_ofNum] at h
        exact fin h
  | div a b _ _ _ _ _ _ _ _ _ _ _ i j =>
    rw [numAggregate_div] at h
    cases hb : b.numAggregate m with
    | panic => rw [hb] at h; simp [divEvalRule, pop_two] at h
    | ok b' =>
      cases ha : a.numAggregate m with
      | panic => rw [ha, hb] at h; simp [divEvalRule, pop_one, pop_two] at h
      | ok a' =>
        obtain ⟨x, rfl⟩ := i ha
        obtain ⟨y, rfl⟩ := j hb
        rw [ha, hb] at h
        simp only [divEvalRule, pop_one, pop_two, Res.ok_bind, isNum_ofNum, Bool.and_self, if_true, numUnwrap_ofNum] at h
        exact fin h

/-- C54, arithmetic of numbers: the result of `num_aggregate` is a number, and its float is within `14 u k A` of
the exact value, where `k` counts the operations and `A` is the value without cancellation. -/
theorem C54_arithmetic (m : Mode) (e e' : Expr F) (he : Built m e) (h : e.numAggregate .strict = .ok e')
    (r A : ℝ) (k : ℕ) (ha : R.Arith e r A k) (hk : 27 * R.u * k ≤ 1) :
    ∃ n f, e' = ofNum n ∧ R.val n.toF64 = some f ∧ |f - r| ≤ 14 * R.u * k * A := by
  obtain ⟨n, rfl⟩ := ha.num_result h
  obtain ⟨E, hw, hE⟩ := ha.within (fun _ => 0) hk
  obtain ⟨-, h2⟩ := C54_error_bound R m e _ he (ha.ruleSafe _) h _ r E hw
  obtain ⟨f, h3, h4⟩ := h2 n rfl
  refine ⟨n, f, rfl, h3, h4.trans (hE.trans ?_)⟩
  have := grow_le hk
  exact mul_le_mul_of_nonneg_right (by linarith) ((abs_nonneg r).trans ha.abs_le.1)

/-! ## C55 -/

/-- C55: `to_f64` of a number is within `8 u |v| + 4 η` of its value. -/
theorem C55_to_f64 (m : Mode) (n : SmartNum F) (hn : SmartNum.Reachable m n) (v : ℝ) (hv : R.real? n = some v) :
    ∃ f, R.val n.toF64 = some f ∧ |f - v| ≤ 8 * R.u * |v| + 4 * R.η := val_toF64 hn.valid hv

/-- The margin within which rounding can decide a closeness comparison of `a` and `b` either way. -/
noncomputable def margin (a b : ℝ) : ℝ := R.widen (a - b) (R.widen a 0 + R.widen b 0)

theorem lt_margin {z d M ε : ℝ} (h : |z - d| ≤ M) : (|d| + M < ε → |z| < ε) ∧ (ε ≤ |d| - M → ¬ |z| < ε) := by
  have h1 : |z| ≤ |d| + M := by
    calc |z| = |(z - d) + d| := by ring_nf
      _ ≤ |z - d| + |d| := abs_add_le _ _
      _ ≤ _ := by linarith
  have h2 : |d| ≤ |z| + M := by
    calc |d| = |z - (z - d)| := by ring_nf
      _ ≤ |z| + |z - d| := abs_sub _ _
      _ ≤ _ := by linarith
  exact ⟨fun h => by linarith, fun h => by linarith⟩

theorem sub_box {a b x y Ea Eb : ℝ} (hx : |x - a| ≤ Ea) (hy : |y - b| ≤ Eb) : |x - y - (a - b)| ≤ Ea + Eb := by
  calc |x - y - (a - b)| = |(x - a) - (y - b)| := by ring_nf
    _ ≤ |x - a| + |y - b| := abs_sub _ _
    _ ≤ _ := add_le_add hx hy

/-- C55: `is_close` is right about the exact values, except for differences within the rounding margin of `eps`. -/
theorem C55_is_close (m : Mode) (x y : SmartNum F) (hx : SmartNum.Reachable m x) (hy : SmartNum.Reachable m y)
    (a b : ℝ) (ha : R.real? x = some a) (hb : R.real? y = some b) (hbig : |a - b| + (R.widen a 0 + R.widen b 0) ≤ R.big)
    (eps : F) (ε : ℝ) (he : R.val eps = some ε) :
    (|a - b| + margin R a b < ε → x.isClose y eps = true) ∧ (ε ≤ |a - b| - margin R a b → x.isClose y eps = false) := by
  obtain ⟨f, hf, hf'⟩ := val_toF64 hx.valid ha
  obtain ⟨g, hg, hg'⟩ := val_toF64 hy.valid hb
  have box := sub_box (show |f - a| ≤ R.widen a 0 by simpa [widen] using hf')
    (show |g - b| ≤ R.widen b 0 by simpa [widen] using hg')
  obtain ⟨z, hz, hz'⟩ := R.sub _ _ _ _ hf hg (by
    calc |f - g| = |(f - g - (a - b)) + (a - b)| := by ring_nf
      _ ≤ |f - g - (a - b)| + |a - b| := abs_add_le _ _
      _ ≤ R.big := by linarith)
  have hη := R.η_nonneg
  have hm : |z - (a - b)| ≤ margin R a b := widen_near_u box (by linarith)
  have hlt := R.lt _ _ _ _ (R.abs _ _ hz) he
  obtain ⟨h1, h2⟩ := lt_margin (ε := ε) hm
  refine ⟨fun h => hlt.2 (h1 h), fun h => ?_⟩
  have := mt hlt.1 (h2 h)
  exact Bool.eq_false_iff.2 this

/-- C55: `near` is right about the exact values, except for differences within the rounding margin of `eps`. -/
theorem C55_near (m : Mode) (x y : SmartNum F) (hx : SmartNum.Reachable m x) (hy : SmartNum.Reachable m y)
    (a b : ℝ) (ha : R.real? x = some a) (hb : R.real? y = some b) (hbig : |a - b| + (R.widen a 0 + R.widen b 0) ≤ R.big)
    (eps : F) (ε : ℝ) (he : R.val eps = some ε) (c : Bool) (h : (ofNum x).near .strict (ofNum y) eps = .ok c) :
    (|a - b| + margin R a b < ε → c = true) ∧ (ε ≤ |a - b| - margin R a b → c = false) := by
  obtain ⟨d, hd, rfl⟩ : ∃ d, x.sub .strict y = .ok d ∧ c = FloatOps.lt (FloatOps.abs d.toF64) eps := by
    have hn : ∀ x : SmartNum F, (ofNum x).toSmartNum = .ok x := fun _ => rfl
    unfold Expr.near at h
    rw [hn, hn] at h
    simp only [Expr.liftExcept, Out.ok_bind] at h
    cases hd : x.sub .strict y with
    | panic => rw [hd] at h; simp at h
    | ok d =>
      rw [hd] at h
      simp only [Out.ok_bind, Res.lift_ok, Out.pure_eq, Out.ok.injEq] at h
      exact ⟨d, rfl, h.symm⟩
  have hz : d.Valid := numClosed_valid (F := F) .strict |>.sub _ _ _ hx.valid hy.valid hd
  obtain ⟨-, -, -, z, hz, hz'⟩ := sub_near hx.valid hy.valid hz (nearNum_of_real? (r := a) hx.valid ha (D := 0) (by simp))
    (nearNum_of_real? (r := b) hy.valid hb (D := 0) (by simp)) (r := a - b)
    (fun p q hp hq => ⟨sub_box hp hq, by
      calc |p - q| = |(p - q - (a - b)) + (a - b)| := by ring_nf
        _ ≤ |p - q - (a - b)| + |a - b| := abs_add_le _ _
        _ ≤ R.big := by linarith [sub_box hp hq]⟩) hd
  have hlt := R.lt _ _ _ _ (R.abs _ _ hz) he
  obtain ⟨h1, h2⟩ := lt_margin (ε := ε) hz'
  refine ⟨fun h => hlt.2 (h1 h), fun h => ?_⟩
  have := mt hlt.1 (h2 h)
  exact Bool.eq_false_iff.2 this

end SymRust
