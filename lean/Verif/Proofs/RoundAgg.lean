import Verif.Proofs.Rounding
/-! The error bound of `num_aggregate`. -/

namespace SymRust
variable {F : Type} [FloatOps F] {R : Rounding F}
open Expr

namespace Rounding
variable {env : Env} {a b : Expr F} {r E : ℝ}

theorem Within.unary_inv {op : AstOperator} (h : R.Within env (.mk (.operator op) [a]) r E) :
    ∃ r₁ E₁ D, R.Within env a r₁ E₁ ∧ E = R.widen r D ∧ opValue op.descriptor [some r₁] = some r ∧
      ∀ x, |x - r₁| ≤ E₁ → ∃ w, opValue op.descriptor [some x] = some w ∧ |w - r| ≤ D := by
  generalize he : Expr.mk (.operator op) [a] = e at h
  cases h with
  | num n => simp [ofNum] at he
  | var v => simp [ofVar, newVariable] at he
  | unary op' a' r₁ E₁ r D h1 h2 h3 => cases he; exact ⟨r₁, E₁, D, h1, rfl, h2, h3⟩
  | binary => simp at he

theorem Within.binary_inv {op : AstOperator} (h : R.Within env (.mk (.operator op) [a, b]) r E) :
    ∃ r₁ E₁ r₂ E₂ D, R.Within env a r₁ E₁ ∧ R.Within env b r₂ E₂ ∧ E = R.widen r D ∧
      opValue op.descriptor [some r₁, some r₂] = some r ∧
      ∀ x y, |x - r₁| ≤ E₁ → |y - r₂| ≤ E₂ →
        ∃ w, opValue op.descriptor [some x, some y] = some w ∧ |w - r| ≤ D ∧ (Computed op.descriptor → |w| ≤ R.big) := by
  generalize he : Expr.mk (.operator op) [a, b] = e at h
  cases h with
  | num n => simp [ofNum] at he
  | var v => simp [ofVar, newVariable] at he
  | unary => simp at he
  | binary op' a' b' r₁ E₁ r₂ E₂ r D h1 h2 h3 h4 => cases he; exact ⟨r₁, E₁, r₂, E₂, D, h1, h2, rfl, h3, h4⟩

theorem Within.num_inv {n : SmartNum F} (h : R.Within env (ofNum n) r E) : R.real? n = some r ∧ E = R.widen r 0 := by
  generalize he : ofNum n = e at h
  cases h with
  | num n' r h => simp only [ofNum, Expr.mk.injEq, AstNode.operand.injEq, AstOperand.num.injEq, and_true] at he; subst he; exact ⟨h, rfl⟩
  | var v => simp [ofNum, ofVar, newVariable] at he
  | unary => simp [ofNum] at he
  | binary => simp [ofNum] at he

theorem Within.var_inv {v : Variable} (h : R.Within env (ofVar v) r E) : r = env v ∧ E = 0 := by
  generalize he : ofVar v = e at h
  cases h with
  | num n' r h => simp [ofNum, ofVar, newVariable] at he
  | var v' =>
    have : v = v' := by cases v; cases v'; simpa [ofVar, newVariable] using he
    subst this; exact ⟨rfl, rfl⟩
  | unary => simp [ofVar, newVariable] at he
  | binary => simp [ofVar, newVariable] at he

/-- The claim for one result. -/
def Near (R : Rounding F) (env : Env) (e : Expr F) (r E : ℝ) : Prop :=
  ∃ v, denote R.real? env e = some v ∧ |v - r| ≤ E ∧ ∀ n, e = ofNum n → ∃ f, R.val n.toF64 = some f ∧ |f - r| ≤ E

theorem near_num {n : SmartNum F} : R.Near env (ofNum n) r E ↔ R.NearNum n r E := by
  constructor
  · rintro ⟨v, h1, h2, h3⟩
    rw [denote_ofNum] at h1
    exact ⟨v, h1, h2, h3 n rfl⟩
  · rintro ⟨v, h1, h2, h3⟩
    refine ⟨v, by rw [denote_ofNum]; exact h1, h2, fun m hm => ?_⟩
    simp only [ofNum, Expr.mk.injEq, AstNode.operand.injEq, AstOperand.num.injEq, and_true] at hm
    subst hm; exact h3

theorem near_of_denote {e : Expr F} (he : WF SmartNum.Valid e) {v D : ℝ} (h : denote R.real? env e = some v)
    (hv : |v - r| ≤ D) : R.Near env e r (R.widen r D) := by
  refine ⟨v, h, hv.trans (le_widen ((abs_nonneg _).trans hv)), ?_⟩
  rintro n rfl
  rw [denote_ofNum] at h
  obtain ⟨-, -, -, h⟩ := nearNum_of_real? (WF.num_iff.1 he) h hv
  exact h

theorem Near.image {e : Expr F} {r₁ E₁ D : ℝ} (h : R.Near env e r₁ E₁) (hD : ∀ v, |v - r₁| ≤ E₁ → |v - r| ≤ D) :
    R.Near env e r (R.widen r D) := by
  obtain ⟨v, h1, h2, h3⟩ := h
  have hw : D ≤ R.widen r D := le_widen ((abs_nonneg _).trans (hD _ h2))
  refine ⟨v, h1, (hD _ h2).trans hw, fun n hn => ?_⟩
  obtain ⟨f, h4, h5⟩ := h3 n hn
  exact ⟨f, h4, (hD _ h5).trans hw⟩

theorem real?_ofI64 (R : Rounding F) (v : Int64) : R.real? (SmartNum.ofI64 v) = some (v.toInt : ℝ) := by
  rw [real?_of_exact (SmartNum.valid_ofI64 v) (q := v.toInt) (by
    simp [SmartNum.ofI64, SmartNum.ofVal, SmartNumVal.ofI64, SmartNum.exact?, SmartNumVal.exact?])]
  simp

theorem near_zero {D : ℝ} (h : |0 - r| ≤ D) : R.Near env (Expr.ofI64 0) r (R.widen r D) := by
  rw [Expr.ofI64, near_num]
  exact nearNum_of_real? (SmartNum.valid_ofI64 0) (R.real?_ofI64 0) (by simpa using h)
theorem near_one {D : ℝ} (h : |1 - r| ≤ D) : R.Near env (Expr.ofI64 1) r (R.widen r D) := by
  rw [Expr.ofI64, near_num]
  exact nearNum_of_real? (SmartNum.valid_ofI64 1) (R.real?_ofI64 1)
    (by rw [show (1 : Int64).toInt = 1 from by decide]; simpa using h)

theorem agg_near {e e' : Expr F} (h : Agg .strict e e') (he : WF SmartNum.Valid e) (hs : RuleSafe .strict e)
    (hw : R.Within env e r E) : R.Near env e' r E := by
  have NC := numClosed_valid (F := F) .strict
  have he' : WF SmartNum.Valid e' := h.wf NC he
  induction h generalizing r E with
  | num n =>
    obtain ⟨h1, rfl⟩ := hw.num_inv
    rw [near_num]
    exact nearNum_of_real? (WF.num_iff.1 he) h1 (by simp)
  | var v =>
    obtain ⟨rfl, rfl⟩ := hw.var_inv
    exact ⟨env v, by simp, by simp, fun n hn => by simp [ofNum, ofVar, newVariable] at hn⟩
  | neg_num h1 hk ih =>
    obtain ⟨r₁, E₁, D, w1, rfl, -, hb⟩ := hw.unary_inv
    have w := WF.neg_iff.1 he
    have hx := h1.wf NC w
    have i := near_num.1 (ih w (everywhere_neg.1 hs).2 w1 hx)
    rw [near_num]
    refine neg_near (WF.num_iff.1 hx) (WF.num_iff.1 he') i (fun x hx => ?_) hk
    obtain ⟨w, hw, h⟩ := hb x hx
    simp only [genOpNeg, opValue, Option.some.injEq] at hw
    subst hw; exact h
  | neg_neg h1 ih =>
    obtain ⟨r₁, E₁, D, w1, rfl, -, hb⟩ := hw.unary_inv
    have w := WF.neg_iff.1 he
    obtain ⟨v, hv, hv', -⟩ := ih w (everywhere_neg.1 hs).2 w1 (h1.wf NC w)
    obtain ⟨u, hu, rfl⟩ := denote_neg.1 hv
    obtain ⟨w, hw, h⟩ := hb _ hv'
    simp only [genOpNeg, opValue, Option.some.injEq, _root_.neg_neg] at hw
    subst hw
    exact near_of_denote he' hu h
  | neg h1 _ _ ih =>
    obtain ⟨r₁, E₁, D, w1, rfl, -, hb⟩ := hw.unary_inv
    have w := WF.neg_iff.1 he
    obtain ⟨v, hv, hv', -⟩ := ih w (everywhere_neg.1 hs).2 w1 (h1.wf NC w)
    obtain ⟨w, hw, h⟩ := hb _ hv'
    simp only [genOpNeg, opValue, Option.some.injEq] at hw
    subst hw
    exact near_of_denote he' (denote_neg.2 ⟨v, hv, rfl⟩) h
  | add_num h1 h2 hz i j =>
    obtain ⟨r₁, E₁, r₂, E₂, D, w1, w2, rfl, -, hb⟩ := hw.binary_inv
    have w := WF.add_iff.1 he
    have hs' := (everywhere_add.1 hs).2
    have hx := h1.wf NC w.1
    have hy := h2.wf NC w.2
    have i := near_num.1 (i w.1 hs'.1 w1 hx)
    have j := near_num.1 (j w.2 hs'.2 w2 hy)
    rw [near_num]
    refine add_near (WF.num_iff.1 hx) (WF.num_iff.1 hy) (WF.num_iff.1 he') i j (fun x y hx hy => ?_) hz
    obtain ⟨w, hw, h, h'⟩ := hb x y hx hy
    simp only [genOpAdd, opValue, Option.some.injEq] at hw
    subst hw; exact ⟨h, h' trivial⟩
  | add_zero_l h1 h2 h0 _ i j =>
    obtain ⟨r₁, E₁, r₂, E₂, D, w1, w2, rfl, -, hb⟩ := hw.binary_inv
    have w := WF.add_iff.1 he
    have hs' := (everywhere_add.1 hs).2
    have hx := h1.wf NC w.1
    have i := (near_num.1 (i w.1 hs'.1 w1 hx)).exact (WF.num_iff.1 hx) ((WF.num_iff.1 hx).zero_iff.1 h0)
    refine (j w.2 hs'.2 w2 he').image fun y hy => ?_
    obtain ⟨w, hw, h, -⟩ := hb _ y i hy
    simp only [genOpAdd, opValue, Option.some.injEq, Rat.cast_zero, zero_add] at hw
    subst hw; exact h
  | add_zero_r h1 h2 h0 _ i j =>
    obtain ⟨r₁, E₁, r₂, E₂, D, w1, w2, rfl, -, hb⟩ := hw.binary_inv
    have w := WF.add_iff.1 he
    have hs' := (everywhere_add.1 hs).2
    have hx := h2.wf NC w.2
    have j := (near_num.1 (j w.2 hs'.2 w2 hx)).exact (WF.num_iff.1 hx) ((WF.num_iff.1 hx).zero_iff.1 h0)
    refine (i w.1 hs'.1 w1 he').image fun y hy => ?_
    obtain ⟨w, hw, h, -⟩ := hb y _ hy j
    simp only [genOpAdd, opValue, Option.some.injEq, Rat.cast_zero, add_zero] at hw
    subst hw; exact h
  | add h1 h2 _ _ _ i j =>
    obtain ⟨r₁, E₁, r₂, E₂, D, w1, w2, rfl, -, hb⟩ := hw.binary_inv
    have w := WF.add_iff.1 he
    have hs' := (everywhere_add.1 hs).2
    obtain ⟨x, hx, hx', -⟩ := i w.1 hs'.1 w1 (h1.wf NC w.1)
    obtain ⟨y, hy, hy', -⟩ := j w.2 hs'.2 w2 (h2.wf NC w.2)
    obtain ⟨w, hw, h, -⟩ := hb x y hx' hy'
    simp only [genOpAdd, opValue, Option.some.injEq] at hw
    exact near_of_denote he' (denote_add.2 ⟨x, y, hx, hy, hw⟩) h
  | sub_num h1 h2 hz i j =>
    obtain ⟨r₁, E₁, r₂, E₂, D, w1, w2, rfl, -, hb⟩ := hw.binary_inv
    have w := WF.sub_iff.1 he
    have hs' := (everywhere_sub.1 hs).2
    have hx := h1.wf NC w.1
    have hy := h2.wf NC w.2
    have i := near_num.1 (i w.1 hs'.1 w1 hx)
    have j := near_num.1 (j w.2 hs'.2 w2 hy)
    rw [near_num]
    refine sub_near (WF.num_iff.1 hx) (WF.num_iff.1 hy) (WF.num_iff.1 he') i j (fun x y hx hy => ?_) hz
    obtain ⟨w, hw, h, h'⟩ := hb x y hx hy
    simp only [genOpSub, opValue, Option.some.injEq] at hw
    subst hw; exact ⟨h, h' trivial⟩
  | sub_zero_l h1 h2 h0 _ i j =>
    obtain ⟨r₁, E₁, r₂, E₂, D, w1, w2, rfl, -, hb⟩ := hw.binary_inv
    have w := WF.sub_iff.1 he
    have hs' := (everywhere_sub.1 hs).2
    have hx := h1.wf NC w.1
    have i := (near_num.1 (i w.1 hs'.1 w1 hx)).exact (WF.num_iff.1 hx) ((WF.num_iff.1 hx).zero_iff.1 h0)
    obtain ⟨y, hy, hy', -⟩ := j w.2 hs'.2 w2 (h2.wf NC w.2)
    obtain ⟨w, hw, h, -⟩ := hb _ y i hy'
    simp only [genOpSub, opValue, Option.some.injEq, Rat.cast_zero, zero_sub] at hw
    exact near_of_denote he' (denote_neg.2 ⟨y, hy, hw⟩) h
  | sub_zero_r h1 h2 h0 _ i j =>
    obtain ⟨r₁, E₁, r₂, E₂, D, w1, w2, rfl, -, hb⟩ := hw.binary_inv
    have w := WF.sub_iff.1 he
    have hs' := (everywhere_sub.1 hs).2
    have hx := h2.wf NC w.2
    have j := (near_num.1 (j w.2 hs'.2 w2 hx)).exact (WF.num_iff.1 hx) ((WF.num_iff.1 hx).zero_iff.1 h0)
    refine (i w.1 hs'.1 w1 he').image fun y hy => ?_
    obtain ⟨w, hw, h, -⟩ := hb y _ hy j
    simp only [genOpSub, opValue, Option.some.injEq, Rat.cast_zero, sub_zero] at hw
    subst hw; exact h
  | sub h1 h2 _ _ _ i j =>
    obtain ⟨r₁, E₁, r₂, E₂, D, w1, w2, rfl, -, hb⟩ := hw.binary_inv
    have w := WF.sub_iff.1 he
    have hs' := (everywhere_sub.1 hs).2
    obtain ⟨x, hx, hx', -⟩ := i w.1 hs'.1 w1 (h1.wf NC w.1)
    obtain ⟨y, hy, hy', -⟩ := j w.2 hs'.2 w2 (h2.wf NC w.2)
    obtain ⟨w, hw, h, -⟩ := hb x y hx' hy'
    simp only [genOpSub, opValue, Option.some.injEq] at hw
    exact near_of_denote he' (denote_sub.2 ⟨x, y, hx, hy, hw⟩) h
  | mul_num h1 h2 hz i j =>
    obtain ⟨r₁, E₁, r₂, E₂, D, w1, w2, rfl, -, hb⟩ := hw.binary_inv
    have w := WF.mul_iff.1 he
    have hs' := (everywhere_mul.1 hs).2
    have hx := h1.wf NC w.1
    have hy := h2.wf NC w.2
    have i := near_num.1 (i w.1 hs'.1 w1 hx)
    have j := near_num.1 (j w.2 hs'.2 w2 hy)
    rw [near_num]
    refine mul_near (WF.num_iff.1 hx) (WF.num_iff.1 hy) (WF.num_iff.1 he') i j (fun x y hx hy => ?_) hz
    obtain ⟨w, hw, h, h'⟩ := hb x y hx hy
    simp only [genOpMul, opValue, Option.some.injEq] at hw
    subst hw; exact ⟨h, h' trivial⟩
  | mul_zero_l h1 h2 h0 _ i j =>
    obtain ⟨r₁, E₁, r₂, E₂, D, w1, w2, rfl, -, hb⟩ := hw.binary_inv
    have w := WF.mul_iff.1 he
    have hs' := (everywhere_mul.1 hs).2
    have hx := h1.wf NC w.1
    have i := (near_num.1 (i w.1 hs'.1 w1 hx)).exact (WF.num_iff.1 hx) ((WF.num_iff.1 hx).zero_iff.1 h0)
    obtain ⟨y, hy, hy', -⟩ := j w.2 hs'.2 w2 (h2.wf NC w.2)
    obtain ⟨w, hw, h, -⟩ := hb _ y i hy'
    simp only [genOpMul, opValue, Option.some.injEq, Rat.cast_zero, zero_mul] at hw
    subst hw; exact near_zero h
  | mul_zero_r h1 h2 h0 _ i j =>
    obtain ⟨r₁, E₁, r₂, E₂, D, w1, w2, rfl, -, hb⟩ := hw.binary_inv
    have w := WF.mul_iff.1 he
    have hs' := (everywhere_mul.1 hs).2
    have hx := h2.wf NC w.2
    have j := (near_num.1 (j w.2 hs'.2 w2 hx)).exact (WF.num_iff.1 hx) ((WF.num_iff.1 hx).zero_iff.1 h0)
    obtain ⟨y, hy, hy', -⟩ := i w.1 hs'.1 w1 (h1.wf NC w.1)
    obtain ⟨w, hw, h, -⟩ := hb y _ hy' j
    simp only [genOpMul, opValue, Option.some.injEq, Rat.cast_zero, mul_zero] at hw
    subst hw; exact near_zero h
  | mul_one_l h1 h2 h0 _ i j =>
    obtain ⟨r₁, E₁, r₂, E₂, D, w1, w2, rfl, -, hb⟩ := hw.binary_inv
    have w := WF.mul_iff.1 he
    have hs' := (everywhere_mul.1 hs).2
    have hx := h1.wf NC w.1
    have i := (near_num.1 (i w.1 hs'.1 w1 hx)).exact (WF.num_iff.1 hx) ((WF.num_iff.1 hx).one_iff.1 h0)
    refine (j w.2 hs'.2 w2 he').image fun y hy => ?_
    obtain ⟨w, hw, h, -⟩ := hb _ y i hy
    simp only [genOpMul, opValue, Option.some.injEq, Rat.cast_one, one_mul] at hw
    subst hw; exact h
  | mul_one_r h1 h2 h0 _ i j =>
    obtain ⟨r₁, E₁, r₂, E₂, D, w1, w2, rfl, -, hb⟩ := hw.binary_inv
    have w := WF.mul_iff.1 he
    have hs' := (everywhere_mul.1 hs).2
    have hx := h2.wf NC w.2
    have j := (near_num.1 (j w.2 hs'.2 w2 hx)).exact (WF.num_iff.1 hx) ((WF.num_iff.1 hx).one_iff.1 h0)
    refine (i w.1 hs'.1 w1 he').image fun y hy => ?_
    obtain ⟨w, hw, h, -⟩ := hb y _ hy j
    simp only [genOpMul, opValue, Option.some.injEq, Rat.cast_one, mul_one] at hw
    subst hw; exact h
  | mul h1 h2 _ _ _ _ _ i j =>
    obtain ⟨r₁, E₁, r₂, E₂, D, w1, w2, rfl, -, hb⟩ := hw.binary_inv
    have w := WF.mul_iff.1 he
    have hs' := (everywhere_mul.1 hs).2
    obtain ⟨x, hx, hx', -⟩ := i w.1 hs'.1 w1 (h1.wf NC w.1)
    obtain ⟨y, hy, hy', -⟩ := j w.2 hs'.2 w2 (h2.wf NC w.2)
    obtain ⟨w, hw, h, -⟩ := hb x y hx' hy'
    simp only [genOpMul, opValue, Option.some.injEq] at hw
    exact near_of_denote he' (denote_mul.2 ⟨x, y, hx, hy, hw⟩) h
  | div_num h1 h2 hz i j =>
    obtain ⟨r₁, E₁, r₂, E₂, D, w1, w2, rfl, -, hb⟩ := hw.binary_inv
    have w := WF.div_iff.1 he
    have hs' := (everywhere_div.1 hs).2
    have hx := h1.wf NC w.1
    have hy := h2.wf NC w.2
    have i := near_num.1 (i w.1 hs'.1 w1 hx)
    have j := near_num.1 (j w.2 hs'.2 w2 hy)
    rw [near_num]
    refine div_near (WF.num_iff.1 hx) (WF.num_iff.1 hy) (WF.num_iff.1 he') i j (fun x y hx hy => ?_) hz
    obtain ⟨w, hw, h, h'⟩ := hb x y hx hy
    simp only [genOpDiv, opValue] at hw
    split at hw
    · cases hw
    cases hw; exact ⟨by assumption, h, h' True.intro⟩
  | div_zero_l h1 h2 h0 _ i j =>
    obtain ⟨r₁, E₁, r₂, E₂, D, w1, w2, rfl, -, hb⟩ := hw.binary_inv
    have w := WF.div_iff.1 he
    have hs' := (everywhere_div.1 hs).2
    have hx := h1.wf NC w.1
    have i := (near_num.1 (i w.1 hs'.1 w1 hx)).exact (WF.num_iff.1 hx) ((WF.num_iff.1 hx).zero_iff.1 h0)
    obtain ⟨y, hy, hy', -⟩ := j w.2 hs'.2 w2 (h2.wf NC w.2)
    obtain ⟨w, hw, h, -⟩ := hb _ y i hy'
    simp only [genOpDiv, opValue, Rat.cast_zero, zero_div] at hw
    split at hw
    · cases hw
    cases hw; exact near_zero h
  | div h1 h2 _ _ i j =>
    obtain ⟨r₁, E₁, r₂, E₂, D, w1, w2, rfl, -, hb⟩ := hw.binary_inv
    have w := WF.div_iff.1 he
    have hs' := (everywhere_div.1 hs).2
    obtain ⟨x, hx, hx', -⟩ := i w.1 hs'.1 w1 (h1.wf NC w.1)
    obtain ⟨y, hy, hy', -⟩ := j w.2 hs'.2 w2 (h2.wf NC w.2)
    obtain ⟨w, hw, h, -⟩ := hb x y hx' hy'
    refine near_of_denote he' (v := w) ?_ h
    rw [denote_div', hx, hy]; exact hw
  | sin_num h1 h0 ih =>
    obtain ⟨r₁, E₁, D, w1, rfl, -, hb⟩ := hw.unary_inv
    have w := WF.sin_iff.1 he
    have hx := h1.wf NC w
    obtain ⟨v, hv, hv', -⟩ := near_num.1 (ih w (everywhere_sin.1 hs).2 w1 hx)
    have hx := WF.num_iff.1 hx
    obtain ⟨w, hw, h⟩ := hb _ hv'
    simp only [genOpSin, opValue, Option.some.injEq] at hw
    have : w = 0 := by
      rw [Bool.or_eq_true] at h0
      rcases h0 with h0 | h0
      · rw [real?_of_exact hx (hx.zero_iff.1 h0)] at hv; cases hv
        rw [← hw]; simp
      · have ht : ‹SmartNum F›.tag = .pi := by simpa [SmartNum.isPi] using h0
        simp only [real?, ht, Option.some.injEq] at hv
        rw [← hw, ← hv, Real.sin_pi]
    subst this; exact near_zero h
  | sin h1 _ _ ih =>
    obtain ⟨r₁, E₁, D, w1, rfl, -, hb⟩ := hw.unary_inv
    have w := WF.sin_iff.1 he
    obtain ⟨v, hv, hv', -⟩ := ih w (everywhere_sin.1 hs).2 w1 (h1.wf NC w)
    obtain ⟨w, hw, h⟩ := hb _ hv'
    simp only [genOpSin, opValue, Option.some.injEq] at hw
    exact near_of_denote he' (denote_sin.2 ⟨v, hv, hw⟩) h
  | cos_num h1 h0 ih =>
    obtain ⟨r₁, E₁, D, w1, rfl, -, hb⟩ := hw.unary_inv
    have w := WF.cos_iff.1 he
    have hx := h1.wf NC w
    obtain ⟨v, hv, hv', -⟩ := near_num.1 (ih w (everywhere_cos.1 hs).2 w1 hx)
    have hx := WF.num_iff.1 hx
    obtain ⟨u, hu, h⟩ := hb _ hv'
    simp only [genOpCos, opValue, Option.some.injEq] at hu
    have hp := (everywhere_cos.1 hs).1.cos _ _ rfl (numAggregate_of_agg w.tree h1)
    rw [isPi_ofNum] at hp
    rw [hp, Bool.or_false] at h0
    rw [real?_of_exact hx (hx.zero_iff.1 h0)] at hv; cases hv
    rw [Rat.cast_zero, Real.cos_zero] at hu
    subst hu; exact near_one h
  | cos h1 _ _ ih =>
    obtain ⟨r₁, E₁, D, w1, rfl, -, hb⟩ := hw.unary_inv
    have w := WF.cos_iff.1 he
    obtain ⟨v, hv, hv', -⟩ := ih w (everywhere_cos.1 hs).2 w1 (h1.wf NC w)
    obtain ⟨w, hw, h⟩ := hb _ hv'
    simp only [genOpCos, opValue, Option.some.injEq] at hw
    exact near_of_denote he' (denote_cos.2 ⟨v, hv, hw⟩) h
  | exp_zero h1 h0 ih =>
    obtain ⟨r₁, E₁, D, w1, rfl, -, hb⟩ := hw.unary_inv
    have w := WF.exp_iff.1 he
    have hx := h1.wf NC w
    have i := (near_num.1 (ih w (everywhere_exp.1 hs).2 w1 hx)).exact (WF.num_iff.1 hx) ((WF.num_iff.1 hx).zero_iff.1 h0)
    obtain ⟨u, hu, h⟩ := hb _ i
    simp only [genOpExp, opValue, Option.some.injEq, Rat.cast_zero, Real.exp_zero] at hu
    subst hu; exact near_one h
  | exp_one h1 h0 ih =>
    obtain ⟨r₁, E₁, D, w1, rfl, -, hb⟩ := hw.unary_inv
    have w := WF.exp_iff.1 he
    have hx := h1.wf NC w
    have i := (near_num.1 (ih w (everywhere_exp.1 hs).2 w1 hx)).exact (WF.num_iff.1 hx) ((WF.num_iff.1 hx).one_iff.1 h0)
    obtain ⟨u, hu, h⟩ := hb _ i
    simp only [genOpExp, opValue, Option.some.injEq, Rat.cast_one] at hu
    subst hu
    rw [Expr.e, near_num]
    exact nearNum_of_real? SmartNum.valid_e (by simp [real?, SmartNum.e]) h
  | exp_ln h1 ih =>
    obtain ⟨r₁, E₁, D, w1, rfl, -, hb⟩ := hw.unary_inv
    have w := WF.exp_iff.1 he
    obtain ⟨v, hv, hv', -⟩ := ih w (everywhere_exp.1 hs).2 w1 (h1.wf NC w)
    obtain ⟨u, hu, hu0, rfl⟩ := denote_ln.1 hv
    obtain ⟨w, hw, h⟩ := hb _ hv'
    simp only [genOpExp, opValue, Option.some.injEq, Real.exp_log hu0] at hw
    subst hw
    exact near_of_denote he' hu h
  | exp h1 _ _ _ ih =>
    obtain ⟨r₁, E₁, D, w1, rfl, -, hb⟩ := hw.unary_inv
    have w := WF.exp_iff.1 he
    obtain ⟨v, hv, hv', -⟩ := ih w (everywhere_exp.1 hs).2 w1 (h1.wf NC w)
    obtain ⟨w, hw, h⟩ := hb _ hv'
    simp only [genOpExp, opValue, Option.some.injEq] at hw
    exact near_of_denote he' (denote_exp.2 ⟨v, hv, hw⟩) h
  | ln_e h1 h0 ih =>
    obtain ⟨r₁, E₁, D, w1, rfl, -, hb⟩ := hw.unary_inv
    have w := WF.ln_iff.1 he
    obtain ⟨v, hv, hv', -⟩ := near_num.1 (ih w (everywhere_ln.1 hs).2 w1 (h1.wf NC w))
    have ht : ‹SmartNum F›.tag = .e := by simpa [SmartNum.isE] using h0
    simp only [real?, ht, Option.some.injEq] at hv
    subst hv
    obtain ⟨u, hu, h⟩ := hb _ hv'
    simp only [genOpLn, opValue, Real.exp_pos, if_true, Option.some.injEq, Real.log_exp] at hu
    subst hu; exact near_one h
  | ln_one h1 h0 ih =>
    obtain ⟨r₁, E₁, D, w1, rfl, -, hb⟩ := hw.unary_inv
    have w := WF.ln_iff.1 he
    have hx := h1.wf NC w
    have i := (near_num.1 (ih w (everywhere_ln.1 hs).2 w1 hx)).exact (WF.num_iff.1 hx) ((WF.num_iff.1 hx).one_iff.1 h0)
    obtain ⟨u, hu, h⟩ := hb _ i
    simp only [genOpLn, opValue, Rat.cast_one, zero_lt_one, if_true, Option.some.injEq, Real.log_one] at hu
    subst hu; exact near_zero h
  | ln_exp h1 ih =>
    obtain ⟨r₁, E₁, D, w1, rfl, -, hb⟩ := hw.unary_inv
    have w := WF.ln_iff.1 he
    obtain ⟨v, hv, hv', -⟩ := ih w (everywhere_ln.1 hs).2 w1 (h1.wf NC w)
    obtain ⟨u, hu, rfl⟩ := denote_exp.1 hv
    obtain ⟨w, hw, h⟩ := hb _ hv'
    simp only [genOpLn, opValue, Real.exp_pos, if_true, Option.some.injEq, Real.log_exp] at hw
    subst hw
    exact near_of_denote he' hu h
  | ln h1 _ _ _ ih =>
    obtain ⟨r₁, E₁, D, w1, rfl, -, hb⟩ := hw.unary_inv
    have w := WF.ln_iff.1 he
    obtain ⟨v, hv, hv', -⟩ := ih w (everywhere_ln.1 hs).2 w1 (h1.wf NC w)
    obtain ⟨w, hw, h⟩ := hb _ hv'
    refine near_of_denote he' (v := w) ?_ h
    rw [denote_ln', hv]; exact hw
  | pow_zero h1 h2 h0 i j =>
    have hp := (everywhere_pow.1 hs).1.pow _ _ _ rfl (numAggregate_of_agg (WF.pow_iff.1 he).1.tree h1)
    rw [isZero_ofNum, h0] at hp; cases hp.1
  | pow_one h1 h2 h0 i j =>
    have hp := (everywhere_pow.1 hs).1.pow _ _ _ rfl (numAggregate_of_agg (WF.pow_iff.1 he).1.tree h1)
    rw [isOne_ofNum, h0] at hp; cases hp.2.1
  | pow_ln h1 h2 i j =>
    have hp := (everywhere_pow.1 hs).1.pow _ _ _ rfl (numAggregate_of_agg (WF.pow_iff.1 he).1.tree h1)
    exact absurd rfl (hp.2.2 _)
  | pow h1 h2 _ _ _ i j =>
    obtain ⟨r₁, E₁, r₂, E₂, D, w1, w2, rfl, -, hb⟩ := hw.binary_inv
    have w := WF.pow_iff.1 he
    have hs' := (everywhere_pow.1 hs).2
    obtain ⟨x, hx, hx', -⟩ := i w.1 hs'.1 w1 (h1.wf NC w.1)
    obtain ⟨y, hy, hy', -⟩ := j w.2 hs'.2 w2 (h2.wf NC w.2)
    obtain ⟨w, hw, h, -⟩ := hb x y hx' hy'
    refine near_of_denote he' (v := w) ?_ h
    rw [denote_pow', hx, hy]; exact hw

end Rounding
end SymRust
