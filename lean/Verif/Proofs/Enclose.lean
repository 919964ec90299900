import Verif.Spec.Enclose
import Verif.Proofs.RoundAgg
/-! Enclosures are preserved by `num_aggregate`. -/

namespace SymRust
variable {F : Type} [FloatOps F] {R : Rounding F}
open Expr

namespace Rounding
variable {V : Ranges} {a b : Expr F} {S S₁ S₂ : Set ℝ} {x y z : SmartNum F}

theorem mem_blur (w : ℝ) : w ∈ R.blur w := by
  have := R.η_nonneg
  have := mul_nonneg R.u_nonneg (abs_nonneg w)
  simp only [blur, Set.mem_setOf_eq, sub_self, abs_zero]
  linarith

theorem mem_blur_u {w f : ℝ} (h : |f - w| ≤ R.u * |w| + R.η) : f ∈ R.blur w := by
  have := R.η_nonneg
  have := mul_nonneg R.u_nonneg (abs_nonneg w)
  simp only [blur, Set.mem_setOf_eq]
  linarith

/-- The value of the number and the float it is converted to are in `S`. -/
def InNum (R : Rounding F) (n : SmartNum F) (S : Set ℝ) : Prop :=
  ∃ v ∈ S, R.real? n = some v ∧ ∃ f ∈ S, R.val n.toF64 = some f

theorem InNum.mono (h : R.InNum x S₁) (hs : S₁ ⊆ S) : R.InNum x S := by
  obtain ⟨v, h1, h2, f, h3, h4⟩ := h
  exact ⟨v, hs h1, h2, f, hs h3, h4⟩

theorem inNum_of_real? (hx : x.Valid) {v : ℝ} (h : R.real? x = some v) (hv : R.blur v ⊆ S) : R.InNum x S := by
  obtain ⟨f, h1, h2⟩ := val_toF64 hx h
  exact ⟨v, hv (mem_blur v), h, f, hv h2, h1⟩

theorem inNum_of_exact (hx : x.Valid) {q : ℚ} (h : x.exact? = some q) (hv : R.blur (q : ℝ) ⊆ S) : R.InNum x S :=
  inNum_of_real? hx (real?_of_exact hx h) hv

theorem inNum_of_float {f : F} {g : ℝ} (h : R.val f = some g) (hv : g ∈ S) :
    R.InNum (SmartNum.wrapVal (.real f)) S :=
  ⟨g, hv, by simpa [real?, SmartNum.wrapVal, SmartNumVal.isZero, SmartNumVal.isOne] using h, g, hv,
    by simpa [SmartNum.toF64, SmartNumVal.toF64, SmartNum.wrapVal, SmartNumVal.isZero, SmartNumVal.isOne] using h⟩

theorem InNum.exact (hx : x.Valid) (h : R.InNum x S) {q : ℚ} (hq : x.exact? = some q) : (q : ℝ) ∈ S := by
  obtain ⟨v, h1, h2, -⟩ := h
  rw [real?_of_exact hx hq] at h2
  cases h2
  exact h1

theorem InNum.cases (hx : x.Valid) (h : R.InNum x S) (hf : ¬ x.value.isF) : ∃ q : ℚ, x.exact? = some q ∧ (q : ℝ) ∈ S := by
  obtain ⟨v, h1, h2, -⟩ := h
  obtain ⟨q, hq, rfl⟩ := exact_of_real? hx hf h2
  exact ⟨q, hq, h1⟩

theorem InNum.nonempty (h : R.InNum x S) : S.Nonempty := by
  obtain ⟨v, h1, -⟩ := h
  exact ⟨v, h1⟩

theorem neg_in (hx : x.Valid) (hz : z.Valid) (h1 : R.InNum x S₁)
    (hb : ∀ a ∈ S₁, R.blur (-a) ⊆ S) (h : x.neg .strict = .ok z) : R.InNum z S := by
  by_cases hf : x.value.isF
  · obtain ⟨-, -, -, f, h4, h3⟩ := h1
    cases hv : x.value with
    | real g =>
      unfold SmartNum.neg at h
      rw [hv] at h
      cases h
      rw [SmartNum.toF64, hv] at h3
      exact inNum_of_float (R.neg _ _ h3) (hb _ h4 (mem_blur _))
    | integer i => simp [hv, SmartNumVal.isF] at hf
    | rational i => simp [hv, SmartNumVal.isF] at hf
  · obtain ⟨q, hq, hq'⟩ := h1.cases hx hf
    exact inNum_of_exact hz (SmartNum.neg_exact (by simp) hx hq h) (by push_cast; exact hb _ hq')

theorem add_in (hx : x.Valid) (hy : y.Valid) (hz : z.Valid) (h1 : R.InNum x S₁) (h2 : R.InNum y S₂)
    (hb : ∀ a ∈ S₁, ∀ b ∈ S₂, R.blur (a + b) ⊆ S ∧ |a + b| ≤ R.big) (h : x.add .strict y = .ok z) : R.InNum z S := by
  by_cases hf : x.value.isF ∨ y.value.isF
  · unfold SmartNum.add at h
    split at h
    · rename_i h0
      cases h
      have := h1.exact hx (hx.zero_iff.1 h0)
      exact h2.mono fun v hv => by have := (hb _ this _ hv).1 (mem_blur _); simpa using this
    split at h
    · rename_i h0
      cases h
      have := h2.exact hy (hy.zero_iff.1 h0)
      exact h1.mono fun v hv => by have := (hb _ hv _ this).1 (mem_blur _); simpa using this
    rw [add_float hf] at h
    cases h
    obtain ⟨-, -, -, f, hf', hf⟩ := h1
    obtain ⟨-, -, -, g, hg', hg⟩ := h2
    obtain ⟨b1, b2⟩ := hb _ hf' _ hg'
    obtain ⟨w, hw, hw'⟩ := R.add _ _ _ _ hf hg b2
    have hη := R.η_nonneg
    exact inNum_of_float hw (b1 (mem_blur_u (by linarith)))
  · rw [not_or] at hf
    obtain ⟨p, hp, hp'⟩ := h1.cases hx hf.1
    obtain ⟨q, hq, hq'⟩ := h2.cases hy hf.2
    exact inNum_of_exact hz (SmartNum.add_exact hx hy hp hq h) (by push_cast; exact (hb _ hp' _ hq').1)

theorem sub_in (hx : x.Valid) (hy : y.Valid) (hz : z.Valid) (h1 : R.InNum x S₁) (h2 : R.InNum y S₂)
    (hb : ∀ a ∈ S₁, ∀ b ∈ S₂, R.blur (a - b) ⊆ S ∧ |a - b| ≤ R.big) (h : x.sub .strict y = .ok z) : R.InNum z S := by
  by_cases hf : x.value.isF ∨ y.value.isF
  · unfold SmartNum.sub at h
    split at h
    · rename_i h0
      have := h1.exact hx (hx.zero_iff.1 h0)
      exact neg_in hy hz h2 (fun v hv => by have := (hb _ this _ hv).1; simpa using this) h
    split at h
    · rename_i h0
      cases h
      have := h2.exact hy (hy.zero_iff.1 h0)
      exact h1.mono fun v hv => by have := (hb _ hv _ this).1 (mem_blur _); simpa using this
    rw [sub_float hf] at h
    cases h
    obtain ⟨-, -, -, f, hf', hf⟩ := h1
    obtain ⟨-, -, -, g, hg', hg⟩ := h2
    obtain ⟨b1, b2⟩ := hb _ hf' _ hg'
    obtain ⟨w, hw, hw'⟩ := R.sub _ _ _ _ hf hg b2
    have hη := R.η_nonneg
    exact inNum_of_float hw (b1 (mem_blur_u (by linarith)))
  · rw [not_or] at hf
    obtain ⟨p, hp, hp'⟩ := h1.cases hx hf.1
    obtain ⟨q, hq, hq'⟩ := h2.cases hy hf.2
    exact inNum_of_exact hz (SmartNum.sub_exact hx hy hp hq h) (by push_cast; exact (hb _ hp' _ hq').1)

theorem mul_in (hx : x.Valid) (hy : y.Valid) (hz : z.Valid) (h1 : R.InNum x S₁) (h2 : R.InNum y S₂)
    (hb : ∀ a ∈ S₁, ∀ b ∈ S₂, R.blur (a * b) ⊆ S ∧ |a * b| ≤ R.big) (h : x.mul .strict y = .ok z) : R.InNum z S := by
  by_cases hf : x.value.isF ∨ y.value.isF
  · unfold SmartNum.mul at h
    split at h
    · rename_i h0
      cases h
      have := h1.exact hx (hx.one_iff.1 h0)
      exact h2.mono fun v hv => by have := (hb _ this _ hv).1 (mem_blur _); simpa using this
    split at h
    · rename_i h0
      cases h
      have := h2.exact hy (hy.one_iff.1 h0)
      exact h1.mono fun v hv => by have := (hb _ hv _ this).1 (mem_blur _); simpa using this
    by_cases h0 : (x.value.isZero || y.value.isZero) = true
    · have : x.value.mul .strict y.value = .ok (.integer 0) := by unfold SmartNumVal.mul; rw [if_pos h0]
      rw [this] at h
      have hzz : z.exact? = some 0 := by cases h; rfl
      refine inNum_of_exact hz hzz ?_
      rw [Bool.or_eq_true] at h0
      rcases h0 with h0 | h0
      · have h3 := h1.exact hx ((SmartNumVal.isZero_iff hx.ok).1 h0)
        obtain ⟨w, hw⟩ := h2.nonempty
        have := (hb _ h3 _ hw).1
        simpa using this
      · have h3 := h2.exact hy ((SmartNumVal.isZero_iff hy.ok).1 h0)
        obtain ⟨w, hw⟩ := h1.nonempty
        have := (hb _ hw _ h3).1
        simpa using this
    rw [mul_float hf (by simpa using h0)] at h
    cases h
    obtain ⟨-, -, -, f, hf', hf⟩ := h1
    obtain ⟨-, -, -, g, hg', hg⟩ := h2
    obtain ⟨b1, b2⟩ := hb _ hf' _ hg'
    obtain ⟨w, hw, hw'⟩ := R.mul _ _ _ _ hf hg b2
    exact inNum_of_float hw (b1 (mem_blur_u hw'))
  · rw [not_or] at hf
    obtain ⟨p, hp, hp'⟩ := h1.cases hx hf.1
    obtain ⟨q, hq, hq'⟩ := h2.cases hy hf.2
    exact inNum_of_exact hz (SmartNum.mul_exact (by simp) hx hy hp hq h) (by push_cast; exact (hb _ hp' _ hq').1)

theorem div_in (hx : x.Valid) (hy : y.Valid) (hz : z.Valid) (h1 : R.InNum x S₁) (h2 : R.InNum y S₂)
    (hb : ∀ a ∈ S₁, ∀ b ∈ S₂, b ≠ 0 ∧ R.blur (a / b) ⊆ S ∧ |a / b| ≤ R.big)
    (h : x.div .strict y = .ok z) : R.InNum z S := by
  by_cases hf : x.value.isF ∨ y.value.isF
  · unfold SmartNum.div at h
    by_cases h0 : x.value.isZero = true
    · have : x.value.div .strict y.value = .ok (.integer 0) := by unfold SmartNumVal.div; rw [if_pos h0]
      rw [this] at h
      have hzz : z.exact? = some 0 := by cases h; rfl
      refine inNum_of_exact hz hzz ?_
      have h3 := h1.exact hx ((SmartNumVal.isZero_iff hx.ok).1 h0)
      obtain ⟨w, hw⟩ := h2.nonempty
      have := (hb _ h3 _ hw).2.1
      simpa using this
    rw [div_float hf (by simpa using h0)] at h
    cases h
    obtain ⟨-, -, -, f, hf', hf⟩ := h1
    obtain ⟨-, -, -, g, hg', hg⟩ := h2
    obtain ⟨b0, b1, b2⟩ := hb _ hf' _ hg'
    obtain ⟨w, hw, hw'⟩ := R.div _ _ _ _ hf hg b0 b2
    exact inNum_of_float hw (b1 (mem_blur_u hw'))
  · rw [not_or] at hf
    obtain ⟨p, hp, hp'⟩ := h1.cases hx hf.1
    obtain ⟨q, hq, hq'⟩ := h2.cases hy hf.2
    obtain ⟨b0, b1, -⟩ := hb _ hp' _ hq'
    exact inNum_of_exact hz (SmartNum.div_exact (by simp) hx hy hp hq (by exact_mod_cast b0) h) (by push_cast; exact b1)

/-! ### expressions -/

/-- `Encloses`, but a number only needs its value and its float in `S`. -/
inductive Cov (R : Rounding F) (V : Ranges) : Expr F → Set ℝ → Prop
  | num (n : SmartNum F) (S : Set ℝ) : R.InNum n S → Cov R V (ofNum n) S
  | var (v : Variable) (S : Set ℝ) : V v ⊆ S → Cov R V (ofVar v) S
  | unary (op : AstOperator) (a : Expr F) (S₁ S : Set ℝ) : Cov R V a S₁ →
      (∀ x ∈ S₁, ∃ w, opValue op.descriptor [some x] = some w ∧ R.blur w ⊆ S) →
      Cov R V (.mk (.operator op) [a]) S
  | binary (op : AstOperator) (a b : Expr F) (S₁ S₂ S : Set ℝ) : Cov R V a S₁ → Cov R V b S₂ →
      (∀ x ∈ S₁, ∀ y ∈ S₂, ∃ w, opValue op.descriptor [some x, some y] = some w ∧ R.blur w ⊆ S ∧
        (Computed op.descriptor → |w| ≤ R.big)) →
      Cov R V (.mk (.operator op) [a, b]) S

omit [FloatOps F] in
theorem wf_children {P : SmartNum F → Prop} {op : AstOperator} {l : List (Expr F)} (he : WF P (.mk (.operator op) l)) :
    ∀ c ∈ l, WF P c := by
  generalize h : Expr.mk (.operator op) l = e at he
  cases he with
  | num n => simp [ofNum] at h
  | var v => simp [ofVar, newVariable] at h
  | _ =>
    simp only [Expr.neg, Expr.sin, Expr.cos, Expr.exp, Expr.ln, Expr.add, Expr.sub, Expr.mul, Expr.div, Expr.pow,
      Expr.mk.injEq] at h
    rw [h.2]
    simp_all

theorem Encloses.cov {e : Expr F} (h : R.Encloses V e S) (he : WF SmartNum.Valid e) : R.Cov V e S := by
  induction h with
  | num n r S h1 h2 => exact .num _ _ (inNum_of_real? (WF.num_iff.1 he) h1 h2)
  | var v S h => exact .var _ _ h
  | unary op a S₁ S _ h i => exact .unary _ _ _ _ (i (wf_children he _ (by simp))) h
  | binary op a b S₁ S₂ S _ _ h i j => exact .binary _ _ _ _ _ _ (i (wf_children he _ (by simp))) (j (wf_children he _ (by simp))) h

theorem Cov.mono {e : Expr F} (h : R.Cov V e S₁) (hs : S₁ ⊆ S) : R.Cov V e S := by
  cases h with
  | num n _ h => exact .num _ _ (h.mono hs)
  | var v _ h => exact .var _ _ (h.trans hs)
  | unary op a T _ h1 h2 =>
    refine .unary _ _ _ _ h1 fun x hx => ?_
    obtain ⟨w, h3, h4⟩ := h2 x hx
    exact ⟨w, h3, h4.trans hs⟩
  | binary op a b T U _ h1 h2 h3 =>
    refine .binary _ _ _ _ _ _ h1 h2 fun x hx y hy => ?_
    obtain ⟨w, h4, h5, h6⟩ := h3 x hx y hy
    exact ⟨w, h4, h5.trans hs, h6⟩

theorem Cov.unary_inv {op : AstOperator} (h : R.Cov V (.mk (.operator op) [a]) S) :
    ∃ S₁, R.Cov V a S₁ ∧ ∀ x ∈ S₁, ∃ w, opValue op.descriptor [some x] = some w ∧ R.blur w ⊆ S := by
  generalize he : Expr.mk (.operator op) [a] = e at h
  cases h with
  | num n => simp [ofNum] at he
  | var v => simp [ofVar, newVariable] at he
  | unary op' a' S₁ S h1 h2 => cases he; exact ⟨S₁, h1, h2⟩
  | binary => simp at he

theorem Cov.binary_inv {op : AstOperator} (h : R.Cov V (.mk (.operator op) [a, b]) S) :
    ∃ S₁ S₂, R.Cov V a S₁ ∧ R.Cov V b S₂ ∧
      ∀ x ∈ S₁, ∀ y ∈ S₂, ∃ w, opValue op.descriptor [some x, some y] = some w ∧ R.blur w ⊆ S ∧
        (Computed op.descriptor → |w| ≤ R.big) := by
  generalize he : Expr.mk (.operator op) [a, b] = e at h
  cases h with
  | num n => simp [ofNum] at he
  | var v => simp [ofVar, newVariable] at he
  | unary => simp at he
  | binary op' a' b' S₁ S₂ S h1 h2 h3 => cases he; exact ⟨S₁, S₂, h1, h2, h3⟩

theorem cov_num {n : SmartNum F} : R.Cov V (ofNum n) S ↔ R.InNum n S := by
  refine ⟨fun h => ?_, .num _ _⟩
  generalize he : ofNum n = e at h
  cases h with
  | num n' _ h => simp only [ofNum, Expr.mk.injEq, AstNode.operand.injEq, AstOperand.num.injEq, and_true] at he; subst he; exact h
  | var v => simp [ofNum, ofVar, newVariable] at he
  | unary => simp [ofNum] at he
  | binary => simp [ofNum] at he

theorem cov_var {v : Variable} : R.Cov V (ofVar v : Expr F) S ↔ V v ⊆ S := by
  refine ⟨fun h => ?_, .var _ _⟩
  generalize he : ofVar v = e at h
  cases h with
  | num n' _ h => simp [ofNum, ofVar, newVariable] at he
  | var v' _ h =>
    have : v = v' := by cases v; cases v'; simpa [ofVar, newVariable] using he
    subst this; exact h
  | unary => simp [ofVar, newVariable] at he
  | binary => simp [ofVar, newVariable] at he

/-- The exact value is in the enclosure. -/
theorem Cov.value {e : Expr F} (h : R.Cov V e S) {env : Env} (hV : env ∈ V.envs) :
    ∃ v ∈ S, denote R.real? env e = some v := by
  induction h with
  | num n S h => obtain ⟨v, h1, h2, -⟩ := h; exact ⟨v, h1, by rw [denote_ofNum]; exact h2⟩
  | var v S h => exact ⟨env v, h (hV v), by simp⟩
  | unary op a S₁ S _ h i =>
    obtain ⟨v, h1, h2⟩ := i
    obtain ⟨w, h3, h4⟩ := h v h1
    exact ⟨w, h4 (mem_blur w), by simp [denote, denoteList, h2, h3]⟩
  | binary op a b S₁ S₂ S _ _ h i j =>
    obtain ⟨v, h1, h2⟩ := i
    obtain ⟨v', h1', h2'⟩ := j
    obtain ⟨w, h3, h4, -⟩ := h v h1 v' h1'
    exact ⟨w, h4 (mem_blur w), by simp [denote, denoteList, h2, h2', h3]⟩

theorem Cov.nonempty {e : Expr F} (h : R.Cov V e S) (hV : V.envs.Nonempty) : S.Nonempty := by
  obtain ⟨env, he⟩ := hV
  obtain ⟨v, h1, -⟩ := h.value he
  exact ⟨v, h1⟩

theorem cov_zero (h : R.blur 0 ⊆ S) : R.Cov V (Expr.ofI64 0 : Expr F) S := by
  rw [Expr.ofI64, cov_num]
  exact inNum_of_real? (SmartNum.valid_ofI64 0) (R.real?_ofI64 0) (by simpa using h)
theorem cov_one (h : R.blur 1 ⊆ S) : R.Cov V (Expr.ofI64 1 : Expr F) S := by
  rw [Expr.ofI64, cov_num]
  exact inNum_of_real? (SmartNum.valid_ofI64 1) (R.real?_ofI64 1)
    (by rw [show (1 : Int64).toInt = 1 from by decide]; simpa using h)

/-! One characterisation per operator. -/
section ops
local macro "un" : tactic => `(tactic| (
  constructor
  · intro h
    obtain ⟨S₁, h1, h2⟩ := h.unary_inv
    refine ⟨S₁, h1, fun x hx => ?_⟩
    obtain ⟨w, h3, h4⟩ := h2 x hx
    cases h3
    exact h4
  · rintro ⟨S₁, h1, h2⟩
    exact .unary _ _ _ _ h1 fun x hx => ⟨_, rfl, h2 x hx⟩))
local macro "bi" : tactic => `(tactic| (
  constructor
  · intro h
    obtain ⟨S₁, S₂, h1, h1', h2⟩ := h.binary_inv
    refine ⟨S₁, S₂, h1, h1', fun x hx y hy => ?_⟩
    obtain ⟨w, h3, h4, h5⟩ := h2 x hx y hy
    cases h3
    exact ⟨h4, h5 trivial⟩
  · rintro ⟨S₁, S₂, h1, h1', h2⟩
    exact .binary _ _ _ _ _ _ h1 h1' fun x hx y hy => ⟨_, rfl, (h2 x hx y hy).1, fun _ => (h2 x hx y hy).2⟩))

theorem cov_neg : R.Cov V a.neg S ↔ ∃ S₁, R.Cov V a S₁ ∧ ∀ x ∈ S₁, R.blur (-x) ⊆ S := by un
theorem cov_sin : R.Cov V a.sin S ↔ ∃ S₁, R.Cov V a S₁ ∧ ∀ x ∈ S₁, R.blur (Real.sin x) ⊆ S := by un
theorem cov_cos : R.Cov V a.cos S ↔ ∃ S₁, R.Cov V a S₁ ∧ ∀ x ∈ S₁, R.blur (Real.cos x) ⊆ S := by un
theorem cov_exp : R.Cov V a.exp S ↔ ∃ S₁, R.Cov V a S₁ ∧ ∀ x ∈ S₁, R.blur (Real.exp x) ⊆ S := by un
theorem cov_ln : R.Cov V a.ln S ↔ ∃ S₁, R.Cov V a S₁ ∧ ∀ x ∈ S₁, 0 < x ∧ R.blur (Real.log x) ⊆ S := by
  constructor
  · intro h
    obtain ⟨S₁, h1, h2⟩ := h.unary_inv
    refine ⟨S₁, h1, fun x hx => ?_⟩
    obtain ⟨w, h3, h4⟩ := h2 x hx
    simp only [genOpLn, opValue] at h3
    split at h3
    · cases h3; exact ⟨by assumption, h4⟩
    · cases h3
  · rintro ⟨S₁, h1, h2⟩
    exact .unary _ _ _ _ h1 fun x hx => ⟨Real.log x, by simp [genOpLn, opValue, (h2 x hx).1], (h2 x hx).2⟩
theorem cov_add : R.Cov V (a.add b) S ↔ ∃ S₁ S₂, R.Cov V a S₁ ∧ R.Cov V b S₂ ∧
    ∀ x ∈ S₁, ∀ y ∈ S₂, R.blur (x + y) ⊆ S ∧ |x + y| ≤ R.big := by bi
theorem cov_sub : R.Cov V (a.sub b) S ↔ ∃ S₁ S₂, R.Cov V a S₁ ∧ R.Cov V b S₂ ∧
    ∀ x ∈ S₁, ∀ y ∈ S₂, R.blur (x - y) ⊆ S ∧ |x - y| ≤ R.big := by bi
theorem cov_mul : R.Cov V (a.mul b) S ↔ ∃ S₁ S₂, R.Cov V a S₁ ∧ R.Cov V b S₂ ∧
    ∀ x ∈ S₁, ∀ y ∈ S₂, R.blur (x * y) ⊆ S ∧ |x * y| ≤ R.big := by bi
theorem cov_div : R.Cov V (a.div b) S ↔ ∃ S₁ S₂, R.Cov V a S₁ ∧ R.Cov V b S₂ ∧
    ∀ x ∈ S₁, ∀ y ∈ S₂, y ≠ 0 ∧ R.blur (x / y) ⊆ S ∧ |x / y| ≤ R.big := by
  constructor
  · intro h
    obtain ⟨S₁, S₂, h1, h1', h2⟩ := h.binary_inv
    refine ⟨S₁, S₂, h1, h1', fun x hx y hy => ?_⟩
    obtain ⟨w, h3, h4, h5⟩ := h2 x hx y hy
    simp only [genOpDiv, opValue] at h3
    split at h3
    · cases h3
    · cases h3; exact ⟨by assumption, h4, h5 trivial⟩
  · rintro ⟨S₁, S₂, h1, h1', h2⟩
    exact .binary _ _ _ _ _ _ h1 h1' fun x hx y hy =>
      ⟨x / y, by simp [genOpDiv, opValue, (h2 x hx y hy).1], (h2 x hx y hy).2.1, fun _ => (h2 x hx y hy).2.2⟩
theorem cov_pow : R.Cov V (a.pow b) S ↔ ∃ S₁ S₂, R.Cov V a S₁ ∧ R.Cov V b S₂ ∧
    ∀ x ∈ S₁, ∀ y ∈ S₂, ∃ w, powValue x y = some w ∧ R.blur w ⊆ S := by
  constructor
  · intro h
    obtain ⟨S₁, S₂, h1, h1', h2⟩ := h.binary_inv
    refine ⟨S₁, S₂, h1, h1', fun x hx y hy => ?_⟩
    obtain ⟨w, h3, h4, h5⟩ := h2 x hx y hy
    exact ⟨w, h3, h4⟩
  · rintro ⟨S₁, S₂, h1, h1', h2⟩
    refine .binary _ _ _ _ _ _ h1 h1' fun x hx y hy => ?_
    obtain ⟨w, h3, h4⟩ := h2 x hx y hy
    exact ⟨w, h3, h4, fun h => h.elim⟩
end ops

theorem agg_cov {e e' : Expr F} (h : Agg .strict e e') (he : WF SmartNum.Valid e) (hs : RuleSafe .strict e)
    (hV : V.envs.Nonempty) (hw : R.Cov V e S) : R.Cov V e' S := by
  have NC := numClosed_valid (F := F) .strict
  have he' : WF SmartNum.Valid e' := h.wf NC he
  induction h generalizing S with
  | num n => exact hw
  | var v => exact hw
  | neg_num h1 hk ih =>
    obtain ⟨S₁, w1, hb⟩ := cov_neg.1 hw
    have w := WF.neg_iff.1 he
    have hx := h1.wf NC w
    exact cov_num.2 (neg_in (WF.num_iff.1 hx) (WF.num_iff.1 he') (cov_num.1 (ih w (everywhere_neg.1 hs).2 w1 hx)) hb hk)
  | neg_neg h1 ih =>
    obtain ⟨S₁, w1, hb⟩ := cov_neg.1 hw
    have w := WF.neg_iff.1 he
    obtain ⟨S₂, w2, hb2⟩ := cov_neg.1 (ih w (everywhere_neg.1 hs).2 w1 (h1.wf NC w))
    exact w2.mono fun v hv => by simpa using hb _ (hb2 v hv (mem_blur _)) (mem_blur _)
  | neg h1 _ _ ih =>
    obtain ⟨S₁, w1, hb⟩ := cov_neg.1 hw
    have w := WF.neg_iff.1 he
    exact cov_neg.2 ⟨S₁, ih w (everywhere_neg.1 hs).2 w1 (h1.wf NC w), hb⟩
  | add_num h1 h2 hz i j =>
    obtain ⟨S₁, S₂, w1, w2, hb⟩ := cov_add.1 hw
    have w := WF.add_iff.1 he
    have hs' := (everywhere_add.1 hs).2
    have hx := h1.wf NC w.1
    have hy := h2.wf NC w.2
    exact cov_num.2 (add_in (WF.num_iff.1 hx) (WF.num_iff.1 hy) (WF.num_iff.1 he') (cov_num.1 (i w.1 hs'.1 w1 hx))
      (cov_num.1 (j w.2 hs'.2 w2 hy)) hb hz)
  | add_zero_l h1 h2 h0 _ i j =>
    obtain ⟨S₁, S₂, w1, w2, hb⟩ := cov_add.1 hw
    have w := WF.add_iff.1 he
    have hs' := (everywhere_add.1 hs).2
    have hx := h1.wf NC w.1
    have i := (cov_num.1 (i w.1 hs'.1 w1 hx)).exact (WF.num_iff.1 hx) ((WF.num_iff.1 hx).zero_iff.1 h0)
    exact (j w.2 hs'.2 w2 he').mono fun y hy => by simpa using (hb _ i y hy).1 (mem_blur _)
  | add_zero_r h1 h2 h0 _ i j =>
    obtain ⟨S₁, S₂, w1, w2, hb⟩ := cov_add.1 hw
    have w := WF.add_iff.1 he
    have hs' := (everywhere_add.1 hs).2
    have hx := h2.wf NC w.2
    have j := (cov_num.1 (j w.2 hs'.2 w2 hx)).exact (WF.num_iff.1 hx) ((WF.num_iff.1 hx).zero_iff.1 h0)
    exact (i w.1 hs'.1 w1 he').mono fun y hy => by simpa using (hb y hy _ j).1 (mem_blur _)
  | add h1 h2 _ _ _ i j =>
    obtain ⟨S₁, S₂, w1, w2, hb⟩ := cov_add.1 hw
    have w := WF.add_iff.1 he
    have hs' := (everywhere_add.1 hs).2
    exact cov_add.2 ⟨S₁, S₂, i w.1 hs'.1 w1 (h1.wf NC w.1), j w.2 hs'.2 w2 (h2.wf NC w.2), hb⟩
  | sub_num h1 h2 hz i j =>
    obtain ⟨S₁, S₂, w1, w2, hb⟩ := cov_sub.1 hw
    have w := WF.sub_iff.1 he
    have hs' := (everywhere_sub.1 hs).2
    have hx := h1.wf NC w.1
    have hy := h2.wf NC w.2
    exact cov_num.2 (sub_in (WF.num_iff.1 hx) (WF.num_iff.1 hy) (WF.num_iff.1 he') (cov_num.1 (i w.1 hs'.1 w1 hx))
      (cov_num.1 (j w.2 hs'.2 w2 hy)) hb hz)
  | sub_zero_l h1 h2 h0 _ i j =>
    obtain ⟨S₁, S₂, w1, w2, hb⟩ := cov_sub.1 hw
    have w := WF.sub_iff.1 he
    have hs' := (everywhere_sub.1 hs).2
    have hx := h1.wf NC w.1
    have i := (cov_num.1 (i w.1 hs'.1 w1 hx)).exact (WF.num_iff.1 hx) ((WF.num_iff.1 hx).zero_iff.1 h0)
    exact cov_neg.2 ⟨S₂, j w.2 hs'.2 w2 (h2.wf NC w.2), fun y hy => by simpa using (hb _ i y hy).1⟩
  | sub_zero_r h1 h2 h0 _ i j =>
    obtain ⟨S₁, S₂, w1, w2, hb⟩ := cov_sub.1 hw
    have w := WF.sub_iff.1 he
    have hs' := (everywhere_sub.1 hs).2
    have hx := h2.wf NC w.2
    have j := (cov_num.1 (j w.2 hs'.2 w2 hx)).exact (WF.num_iff.1 hx) ((WF.num_iff.1 hx).zero_iff.1 h0)
    exact (i w.1 hs'.1 w1 he').mono fun y hy => by simpa using (hb y hy _ j).1 (mem_blur _)
  | sub h1 h2 _ _ _ i j =>
    obtain ⟨S₁, S₂, w1, w2, hb⟩ := cov_sub.1 hw
    have w := WF.sub_iff.1 he
    have hs' := (everywhere_sub.1 hs).2
    exact cov_sub.2 ⟨S₁, S₂, i w.1 hs'.1 w1 (h1.wf NC w.1), j w.2 hs'.2 w2 (h2.wf NC w.2), hb⟩
  | mul_num h1 h2 hz i j =>
    obtain ⟨S₁, S₂, w1, w2, hb⟩ := cov_mul.1 hw
    have w := WF.mul_iff.1 he
    have hs' := (everywhere_mul.1 hs).2
    have hx := h1.wf NC w.1
    have hy := h2.wf NC w.2
    exact cov_num.2 (mul_in (WF.num_iff.1 hx) (WF.num_iff.1 hy) (WF.num_iff.1 he') (cov_num.1 (i w.1 hs'.1 w1 hx))
      (cov_num.1 (j w.2 hs'.2 w2 hy)) hb hz)
  | mul_zero_l h1 h2 h0 _ i j =>
    obtain ⟨S₁, S₂, w1, w2, hb⟩ := cov_mul.1 hw
    have w := WF.mul_iff.1 he
    have hs' := (everywhere_mul.1 hs).2
    have hx := h1.wf NC w.1
    have i := (cov_num.1 (i w.1 hs'.1 w1 hx)).exact (WF.num_iff.1 hx) ((WF.num_iff.1 hx).zero_iff.1 h0)
    obtain ⟨y, hy⟩ := w2.nonempty hV
    exact cov_zero (by simpa using (hb _ i y hy).1)
  | mul_zero_r h1 h2 h0 _ i j =>
    obtain ⟨S₁, S₂, w1, w2, hb⟩ := cov_mul.1 hw
    have w := WF.mul_iff.1 he
    have hs' := (everywhere_mul.1 hs).2
    have hx := h2.wf NC w.2
    have j := (cov_num.1 (j w.2 hs'.2 w2 hx)).exact (WF.num_iff.1 hx) ((WF.num_iff.1 hx).zero_iff.1 h0)
    obtain ⟨y, hy⟩ := w1.nonempty hV
    exact cov_zero (by simpa using (hb y hy _ j).1)
  | mul_one_l h1 h2 h0 _ i j =>
    obtain ⟨S₁, S₂, w1, w2, hb⟩ := cov_mul.1 hw
    have w := WF.mul_iff.1 he
    have hs' := (everywhere_mul.1 hs).2
    have hx := h1.wf NC w.1
    have i := (cov_num.1 (i w.1 hs'.1 w1 hx)).exact (WF.num_iff.1 hx) ((WF.num_iff.1 hx).one_iff.1 h0)
    exact (j w.2 hs'.2 w2 he').mono fun y hy => by simpa using (hb _ i y hy).1 (mem_blur _)
  | mul_one_r h1 h2 h0 _ i j =>
    obtain ⟨S₁, S₂, w1, w2, hb⟩ := cov_mul.1 hw
    have w := WF.mul_iff.1 he
    have hs' := (everywhere_mul.1 hs).2
    have hx := h2.wf NC w.2
    have j := (cov_num.1 (j w.2 hs'.2 w2 hx)).exact (WF.num_iff.1 hx) ((WF.num_iff.1 hx).one_iff.1 h0)
    exact (i w.1 hs'.1 w1 he').mono fun y hy => by simpa using (hb y hy _ j).1 (mem_blur _)
  | mul h1 h2 _ _ _ _ _ i j =>
    obtain ⟨S₁, S₂, w1, w2, hb⟩ := cov_mul.1 hw
    have w := WF.mul_iff.1 he
    have hs' := (everywhere_mul.1 hs).2
    exact cov_mul.2 ⟨S₁, S₂, i w.1 hs'.1 w1 (h1.wf NC w.1), j w.2 hs'.2 w2 (h2.wf NC w.2), hb⟩
  | div_num h1 h2 hz i j =>
    obtain ⟨S₁, S₂, w1, w2, hb⟩ := cov_div.1 hw
    have w := WF.div_iff.1 he
    have hs' := (everywhere_div.1 hs).2
    have hx := h1.wf NC w.1
    have hy := h2.wf NC w.2
    exact cov_num.2 (div_in (WF.num_iff.1 hx) (WF.num_iff.1 hy) (WF.num_iff.1 he') (cov_num.1 (i w.1 hs'.1 w1 hx))
      (cov_num.1 (j w.2 hs'.2 w2 hy)) hb hz)
  | div_zero_l h1 h2 h0 _ i j =>
    obtain ⟨S₁, S₂, w1, w2, hb⟩ := cov_div.1 hw
    have w := WF.div_iff.1 he
    have hs' := (everywhere_div.1 hs).2
    have hx := h1.wf NC w.1
    have i := (cov_num.1 (i w.1 hs'.1 w1 hx)).exact (WF.num_iff.1 hx) ((WF.num_iff.1 hx).zero_iff.1 h0)
    obtain ⟨y, hy⟩ := w2.nonempty hV
    exact cov_zero (by simpa using (hb _ i y hy).2.1)
  | div h1 h2 _ _ i j =>
    obtain ⟨S₁, S₂, w1, w2, hb⟩ := cov_div.1 hw
    have w := WF.div_iff.1 he
    have hs' := (everywhere_div.1 hs).2
    exact cov_div.2 ⟨S₁, S₂, i w.1 hs'.1 w1 (h1.wf NC w.1), j w.2 hs'.2 w2 (h2.wf NC w.2), hb⟩
  | sin_num h1 h0 ih =>
    obtain ⟨S₁, w1, hb⟩ := cov_sin.1 hw
    have w := WF.sin_iff.1 he
    have hx := h1.wf NC w
    obtain ⟨v, hv', hv, -⟩ := cov_num.1 (ih w (everywhere_sin.1 hs).2 w1 hx)
    have hx := WF.num_iff.1 hx
    have := hb _ hv'
    rw [Bool.or_eq_true] at h0
    rcases h0 with h0 | h0
    · rw [real?_of_exact hx (hx.zero_iff.1 h0)] at hv; cases hv
      exact cov_zero (by simpa using this)
    · have ht : ‹SmartNum F›.tag = .pi := by simpa [SmartNum.isPi] using h0
      simp only [real?, ht, Option.some.injEq] at hv
      rw [← hv, Real.sin_pi] at this
      exact cov_zero this
  | sin h1 _ _ ih =>
    obtain ⟨S₁, w1, hb⟩ := cov_sin.1 hw
    have w := WF.sin_iff.1 he
    exact cov_sin.2 ⟨S₁, ih w (everywhere_sin.1 hs).2 w1 (h1.wf NC w), hb⟩
  | cos_num h1 h0 ih =>
    obtain ⟨S₁, w1, hb⟩ := cov_cos.1 hw
    have w := WF.cos_iff.1 he
    have hx := h1.wf NC w
    obtain ⟨v, hv', hv, -⟩ := cov_num.1 (ih w (everywhere_cos.1 hs).2 w1 hx)
    have hx := WF.num_iff.1 hx
    have hp := (everywhere_cos.1 hs).1.cos _ _ rfl (numAggregate_of_agg w.tree h1)
    rw [isPi_ofNum] at hp
    rw [hp, Bool.or_false] at h0
    rw [real?_of_exact hx (hx.zero_iff.1 h0)] at hv; cases hv
    exact cov_one (by simpa using hb _ hv')
  | cos h1 _ _ ih =>
    obtain ⟨S₁, w1, hb⟩ := cov_cos.1 hw
    have w := WF.cos_iff.1 he
    exact cov_cos.2 ⟨S₁, ih w (everywhere_cos.1 hs).2 w1 (h1.wf NC w), hb⟩
  | exp_zero h1 h0 ih =>
    obtain ⟨S₁, w1, hb⟩ := cov_exp.1 hw
    have w := WF.exp_iff.1 he
    have hx := h1.wf NC w
    have i := (cov_num.1 (ih w (everywhere_exp.1 hs).2 w1 hx)).exact (WF.num_iff.1 hx) ((WF.num_iff.1 hx).zero_iff.1 h0)
    exact cov_one (by simpa using hb _ i)
  | exp_one h1 h0 ih =>
    obtain ⟨S₁, w1, hb⟩ := cov_exp.1 hw
    have w := WF.exp_iff.1 he
    have hx := h1.wf NC w
    have i := (cov_num.1 (ih w (everywhere_exp.1 hs).2 w1 hx)).exact (WF.num_iff.1 hx) ((WF.num_iff.1 hx).one_iff.1 h0)
    exact cov_num.2 (inNum_of_real? SmartNum.valid_e (v := Real.exp 1) (by simp [real?, SmartNum.e]) (by simpa using hb _ i))
  | exp_ln h1 ih =>
    obtain ⟨S₁, w1, hb⟩ := cov_exp.1 hw
    have w := WF.exp_iff.1 he
    obtain ⟨S₂, w2, hb2⟩ := cov_ln.1 (ih w (everywhere_exp.1 hs).2 w1 (h1.wf NC w))
    refine w2.mono fun v hv => ?_
    obtain ⟨k1, k2⟩ := hb2 v hv
    have := hb _ (k2 (mem_blur _)) (mem_blur _)
    rwa [Real.exp_log k1] at this
  | exp h1 _ _ _ ih =>
    obtain ⟨S₁, w1, hb⟩ := cov_exp.1 hw
    have w := WF.exp_iff.1 he
    exact cov_exp.2 ⟨S₁, ih w (everywhere_exp.1 hs).2 w1 (h1.wf NC w), hb⟩
  | ln_e h1 h0 ih =>
    obtain ⟨S₁, w1, hb⟩ := cov_ln.1 hw
    have w := WF.ln_iff.1 he
    obtain ⟨v, hv', hv, -⟩ := cov_num.1 (ih w (everywhere_ln.1 hs).2 w1 (h1.wf NC w))
    have ht : ‹SmartNum F›.tag = .e := by simpa [SmartNum.isE] using h0
    simp only [real?, ht, Option.some.injEq] at hv
    subst hv
    exact cov_one (by simpa using (hb _ hv').2)
  | ln_one h1 h0 ih =>
    obtain ⟨S₁, w1, hb⟩ := cov_ln.1 hw
    have w := WF.ln_iff.1 he
    have hx := h1.wf NC w
    have i := (cov_num.1 (ih w (everywhere_ln.1 hs).2 w1 hx)).exact (WF.num_iff.1 hx) ((WF.num_iff.1 hx).one_iff.1 h0)
    exact cov_zero (by simpa using (hb _ i).2)
  | ln_exp h1 ih =>
    obtain ⟨S₁, w1, hb⟩ := cov_ln.1 hw
    have w := WF.ln_iff.1 he
    obtain ⟨S₂, w2, hb2⟩ := cov_exp.1 (ih w (everywhere_ln.1 hs).2 w1 (h1.wf NC w))
    refine w2.mono fun v hv => ?_
    simpa using (hb _ (hb2 v hv (mem_blur _))).2 (mem_blur _)
  | ln h1 _ _ _ ih =>
    obtain ⟨S₁, w1, hb⟩ := cov_ln.1 hw
    have w := WF.ln_iff.1 he
    exact cov_ln.2 ⟨S₁, ih w (everywhere_ln.1 hs).2 w1 (h1.wf NC w), hb⟩
  | pow_zero h1 h2 h0 i j =>
    have hp := (everywhere_pow.1 hs).1.pow _ _ _ rfl (numAggregate_of_agg (WF.pow_iff.1 he).1.tree h1)
    rw [isZero_ofNum, h0] at hp; cases hp.1
  | pow_one h1 h2 h0 i j =>
    have hp := (everywhere_pow.1 hs).1.pow _ _ _ rfl (numAggregate_of_agg (WF.pow_iff.1 he).1.tree h1)
    rw [isOne_ofNum, h0] at hp; cases hp.2.1
  | pow_ln h1 h2 i j =>
    have hp := (everywhere_pow.1 hs).1.pow _ _ _ rfl (numAggregate_of_agg (WF.pow_iff.1 he).1.tree h1)
    exact absurd rfl (hp.2.2 _)
  | pow h1 h2 _ _ _ i j =>
    obtain ⟨S₁, S₂, w1, w2, hb⟩ := cov_pow.1 hw
    have w := WF.pow_iff.1 he
    have hs' := (everywhere_pow.1 hs).2
    exact cov_pow.2 ⟨S₁, S₂, i w.1 hs'.1 w1 (h1.wf NC w.1), j w.2 hs'.2 w2 (h2.wf NC w.2), hb⟩

end Rounding
end SymRust
