import Verif.Spec.LimitSem
import Verif.Proofs.AggSound
import Verif.Spec.Toy
/-! # C41: arithmetic on limit classes -/

namespace SymRust
open Expr Filter Topology LimitExpression
variable {F : Type} {ν : SmartNum F → Option ℝ} {env : Env} {α : Type} {l : Filter α} {f g : α → ℝ}

theorem describes_bounded {z : LimitExpression F} (h : z.Describes ν env l f) :
    z = .infinity ∨ ∃ C, ∀ᶠ t in l, |f t| ≤ C := by
  cases z with
  | infinity => exact .inl rfl
  | boundedFluctuation => exact .inr h
  | infinitesimal =>
    refine .inr ⟨1, ?_⟩
    have : Tendsto (fun t => |f t|) l (𝓝 |(0 : ℝ)|) := Tendsto.abs h
    filter_upwards [this.eventually (gt_mem_nhds (show |(0 : ℝ)| < 1 by simp))] with t ht using ht.le
  | normal c =>
    obtain ⟨v, -, h⟩ := h
    refine .inr ⟨|v| + 1, ?_⟩
    filter_upwards [h.abs.eventually (gt_mem_nhds (lt_add_one |v|))] with t ht using ht.le

theorem infinity_add_bounded (hf : Tendsto (fun t => |f t|) l atTop) {C : ℝ} (hg : ∀ᶠ t in l, |g t| ≤ C) :
    Tendsto (fun t => |f t + g t|) l atTop := by
  refine tendsto_atTop_mono' l ?_ (tendsto_atTop_add_const_right l (-C) hf)
  filter_upwards [hg] with t ht
  have : |f t| ≤ |f t + g t| + |g t| := by
    have := abs_sub (f t + g t) (g t)
    simpa using this
  linarith

/-- C41: unary minus. -/
theorem C41_neg (z : LimitExpression F) (h : z.Describes ν env l f) : z.neg.Describes ν env l fun t => -f t := by
  cases z with
  | infinity => simpa [LimitExpression.neg, Describes] using h
  | boundedFluctuation => simpa [LimitExpression.neg, Describes] using h
  | infinitesimal => simpa [LimitExpression.neg, Describes] using Tendsto.neg h
  | normal c =>
    obtain ⟨v, hv, h⟩ := h
    exact ⟨-v, denote_neg.2 ⟨v, hv, rfl⟩, h.neg⟩

/-- C41: every answer of `+` is correct, for all functions and filters, without any side condition. -/
theorem C41_add (a b z : LimitExpression F) (ha : a.Describes ν env l f) (hb : b.Describes ν env l g)
    (h : a.add b = some z) : z.Describes ν env l fun t => f t + g t := by
  have bnd : ∀ {a b : LimitExpression F} {f g : α → ℝ}, a.Describes ν env l f → b.Describes ν env l g →
      a ≠ .infinity → b ≠ .infinity → ∃ C, ∀ᶠ t in l, |f t + g t| ≤ C := by
    intro a b f g ha hb na nb
    obtain ⟨C, hC⟩ := (describes_bounded ha).resolve_left na
    obtain ⟨D, hD⟩ := (describes_bounded hb).resolve_left nb
    refine ⟨C + D, ?_⟩
    filter_upwards [hC, hD] with t h1 h2 using (abs_add_le _ _).trans (add_le_add h1 h2)
  have bndr : ∀ {a b : LimitExpression F} {f g : α → ℝ}, a.Describes ν env l f → b.Describes ν env l g →
      a = .infinity → b ≠ .infinity → Tendsto (fun t => |f t + g t|) l atTop := by
    intro a b f g ha hb na nb
    obtain ⟨D, hD⟩ := (describes_bounded hb).resolve_left nb
    subst na
    exact infinity_add_bounded ha hD
  have bndl : ∀ {a b : LimitExpression F} {f g : α → ℝ}, a.Describes ν env l f → b.Describes ν env l g →
      a ≠ .infinity → b = .infinity → Tendsto (fun t => |f t + g t|) l atTop := by
    intro a b f g ha hb na nb
    simpa [add_comm] using bndr hb ha nb na
  cases a <;> cases b <;> cases h
  case infinitesimal.infinitesimal => simpa [Describes] using Tendsto.add ha hb
  case infinitesimal.normal r => obtain ⟨v, hv, hb⟩ := hb; exact ⟨v, hv, by simpa using Tendsto.add ha hb⟩
  case normal.infinitesimal r => obtain ⟨v, hv, ha⟩ := ha; exact ⟨v, hv, by simpa using Tendsto.add ha hb⟩
  case normal.normal r s =>
    obtain ⟨v, hv, ha⟩ := ha
    obtain ⟨w, hw, hb⟩ := hb
    exact ⟨v + w, denote_add.2 ⟨v, w, hv, hw, rfl⟩, ha.add hb⟩
  all_goals first
    | exact bnd ha hb (by simp) (by simp)
    | exact bndr ha hb rfl (by simp)
    | exact bndl ha hb (by simp) rfl

/-- C41: every answer of `-` is correct. -/
theorem C41_sub (a b z : LimitExpression F) (ha : a.Describes ν env l f) (hb : b.Describes ν env l g)
    (h : a.sub b = some z) : z.Describes ν env l fun t => f t - g t := by
  simpa [sub_eq_add_neg] using C41_add a b.neg z ha (C41_neg b hb) h

theorem small_mul_bounded (hf : Tendsto f l (𝓝 0)) {C : ℝ} (hg : ∀ᶠ t in l, |g t| ≤ C) :
    Tendsto (fun t => f t * g t) l (𝓝 0) := by
  refine squeeze_zero_norm' (a := fun t => |f t| * C) ?_ ?_
  · filter_upwards [hg] with t ht
    rw [norm_mul]
    exact mul_le_mul_of_nonneg_left ht (norm_nonneg _)
  · simpa using (Tendsto.abs hf).mul_const C

theorem infinity_mul_away (hf : Tendsto (fun t => |f t|) l atTop) {v : ℝ} (hv : v ≠ 0) (hg : Tendsto g l (𝓝 v)) :
    Tendsto (fun t => |f t * g t|) l atTop := by
  simp only [abs_mul]
  exact hf.atTop_mul_pos (abs_pos.2 hv) hg.abs

/-- C41: every answer of `*` is correct, if a `Normal` operand next to an `Infinity` has a nonzero value. -/
theorem C41_mul (a b z : LimitExpression F) (ha : a.Describes ν env l f) (hb : b.Describes ν env l g)
    (hna : b = .infinity → a.NonzeroNormal ν env) (hnb : a = .infinity → b.NonzeroNormal ν env)
    (h : a.mul b = some z) : z.Describes ν env l fun t => f t * g t := by
  have small : ∀ {a b : LimitExpression F} {f g : α → ℝ}, a.Describes ν env l f → b.Describes ν env l g →
      a = .infinitesimal → b ≠ .infinity → Tendsto (fun t => f t * g t) l (𝓝 0) := by
    intro a b f g ha hb na nb
    obtain ⟨D, hD⟩ := (describes_bounded hb).resolve_left nb
    subst na
    exact small_mul_bounded ha hD
  have bnd : ∀ {a b : LimitExpression F} {f g : α → ℝ}, a.Describes ν env l f → b.Describes ν env l g →
      a ≠ .infinity → b ≠ .infinity → ∃ C, ∀ᶠ t in l, |f t * g t| ≤ C := by
    intro a b f g ha hb na nb
    obtain ⟨C, hC⟩ := (describes_bounded ha).resolve_left na
    obtain ⟨D, hD⟩ := (describes_bounded hb).resolve_left nb
    refine ⟨C * D, ?_⟩
    filter_upwards [hC, hD] with t h1 h2
    rw [abs_mul]
    exact mul_le_mul h1 h2 (abs_nonneg _) ((abs_nonneg _).trans h1)
  cases a <;> cases b <;> cases h
  case infinity.infinity =>
    have : Tendsto (fun t => |f t| * |g t|) l atTop := Tendsto.atTop_mul_atTop₀ ha hb
    simpa [Describes, abs_mul] using this
  case infinity.normal r =>
    obtain ⟨v, hv, hb⟩ := hb
    obtain ⟨v', hv', hn⟩ := hnb rfl
    rw [hv] at hv'; cases hv'
    exact infinity_mul_away ha hn hb
  case normal.infinity r =>
    obtain ⟨v, hv, ha⟩ := ha
    obtain ⟨v', hv', hn⟩ := hna rfl
    rw [hv] at hv'; cases hv'
    have := infinity_mul_away hb hn ha
    simpa [Describes, mul_comm] using this
  case normal.normal r s =>
    obtain ⟨v, hv, ha⟩ := ha
    obtain ⟨w, hw, hb⟩ := hb
    exact ⟨v * w, denote_mul.2 ⟨v, w, hv, hw, rfl⟩, ha.mul hb⟩
  all_goals first
    | exact small ha hb rfl (by simp)
    | (have := small hb ha rfl (by simp); simpa [Describes, mul_comm] using this)
    | exact bnd ha hb (by simp) (by simp)

/-- C41: every answer of `/` is correct, if the divisor function is not 0 near the limit and `Normal` operands have
a nonzero value (the dividend only matters over an `Infinitesimal`). -/
theorem C41_div (a b z : LimitExpression F) (ha : a.Describes ν env l f) (hb : b.Describes ν env l g)
    (hg : ∀ᶠ t in l, g t ≠ 0) (hna : b = .infinitesimal → a.NonzeroNormal ν env)
    (hnb : a ≠ .infinity → b.NonzeroNormal ν env) (h : a.div b = some z) :
    z.Describes ν env l fun t => f t / g t := by
  have inv_inf : Tendsto (fun t => |g t|) l atTop → Tendsto (fun t => (g t)⁻¹) l (𝓝 0) := fun h => by
    rw [tendsto_zero_iff_abs_tendsto_zero]
    refine h.inv_tendsto_atTop.congr fun t => ?_
    simp [abs_inv]
  have over_inf : ∀ {a : LimitExpression F}, a.Describes ν env l f → a ≠ .infinity →
      Tendsto (fun t => |g t|) l atTop → Tendsto (fun t => f t / g t) l (𝓝 0) := by
    intro a ha na hb
    obtain ⟨C, hC⟩ := (describes_bounded ha).resolve_left na
    simpa [div_eq_inv_mul] using small_mul_bounded (inv_inf hb) hC
  have inv_small : Tendsto g l (𝓝 0) → Tendsto (fun t => |(g t)⁻¹|) l atTop := fun h => by
    have h0 : Tendsto (fun t => |g t|) l (𝓝[>] 0) :=
      tendsto_nhdsWithin_iff.2 ⟨by simpa using h.abs, by filter_upwards [hg] with t ht using abs_pos.2 ht⟩
    simpa [abs_inv, Function.comp_def] using tendsto_inv_nhdsGT_zero.comp h0
  cases a <;> cases b <;> simp only [LimitExpression.div] at h <;> try cases h
  case infinitesimal.infinity => exact over_inf ha (by simp) hb
  case boundedFluctuation.infinity => exact over_inf ha (by simp) hb
  case normal.infinity => exact over_inf ha (by simp) hb
  case infinitesimal.normal r =>
    split_ifs at h; cases h
    obtain ⟨v, hv, hb⟩ := hb
    obtain ⟨v', hv', hn⟩ := hnb (by simp)
    rw [hv] at hv'; cases hv'
    have := Tendsto.div ha hb hn
    rw [zero_div] at this
    exact this
  case infinity.infinitesimal =>
    have : Tendsto (fun t => |f t| * |(g t)⁻¹|) l atTop := Tendsto.atTop_mul_atTop₀ ha (inv_small hb)
    simpa [Describes, div_eq_mul_inv, abs_mul] using this
  case infinity.normal r =>
    obtain ⟨v, hv, hb⟩ := hb
    by_cases hv0 : v = 0
    · subst hv0
      have : Tendsto (fun t => |f t| * |(g t)⁻¹|) l atTop := Tendsto.atTop_mul_atTop₀ ha (inv_small hb)
      simpa [Describes, div_eq_mul_inv, abs_mul] using this
    · have := infinity_mul_away ha (inv_ne_zero hv0) (hb.inv₀ hv0)
      simpa [Describes, div_eq_mul_inv] using this
  case boundedFluctuation.normal r =>
    split_ifs at h; cases h
    obtain ⟨v, hv, hb⟩ := hb
    obtain ⟨v', hv', hn⟩ := hnb (by simp)
    rw [hv] at hv'; cases hv'
    obtain ⟨C, hC⟩ := ha
    refine ⟨C * (|v⁻¹| + 1), ?_⟩
    filter_upwards [hC, (hb.inv₀ hn).abs.eventually (gt_mem_nhds (lt_add_one |v⁻¹|))] with t h1 h2
    rw [div_eq_mul_inv, abs_mul]
    exact mul_le_mul h1 h2.le (abs_nonneg _) ((abs_nonneg _).trans h1)
  case normal.infinitesimal r =>
    split_ifs at h; cases h
    obtain ⟨v, hv, ha⟩ := ha
    obtain ⟨v', hv', hn⟩ := hna rfl
    rw [hv] at hv'; cases hv'
    have := infinity_mul_away (inv_small hb) hn ha
    simpa [Describes, div_eq_mul_inv, mul_comm] using this
  case normal.normal r s =>
    obtain ⟨v, hv, ha⟩ := ha
    obtain ⟨w, hw, hb⟩ := hb
    obtain ⟨w', hw', hn⟩ := hnb (by simp)
    rw [hw] at hw'; cases hw'
    exact ⟨v / w, denote_div.2 ⟨v, w, hv, hw, hn, rfl⟩, ha.div hb hn⟩

/-! ### when there is no answer, and why the side conditions are there -/

/-- C41: `+` gives no answer exactly for Infinitesimal + Infinity and Infinity + Infinity. -/
theorem C41_add_err (a b : LimitExpression F) :
    a.add b = none ↔ b = .infinity ∧ (a = .infinitesimal ∨ a = .infinity) := by
  cases a <;> cases b <;> simp [LimitExpression.add]

/-- C41: for Infinitesimal + Infinity there is a correct answer, which `+` gives in the other order. -/
theorem C41_add_err_spurious (hf : (infinitesimal : LimitExpression F).Describes ν env l f)
    (hg : (infinity : LimitExpression F).Describes ν env l g) :
    (infinitesimal : LimitExpression F).add .infinity = none ∧
    (infinity : LimitExpression F).add .infinitesimal = some .infinity ∧
    (infinity : LimitExpression F).Describes ν env l fun t => f t + g t := by
  refine ⟨rfl, rfl, ?_⟩
  have := C41_add .infinity .infinitesimal .infinity hg hf rfl
  simpa [Describes, add_comm] using this

/-- C41: for Infinity + Infinity no answer is possible: along the same filter the sum can tend to 0 and to
infinity. -/
theorem C41_add_err_needed (ν : SmartNum F → Option ℝ) (env : Env) : ∃ f g h : ℝ → ℝ,
    (infinity : LimitExpression F).Describes ν env atTop f ∧ (infinity : LimitExpression F).Describes ν env atTop g ∧
    (infinity : LimitExpression F).Describes ν env atTop h ∧
    (infinitesimal : LimitExpression F).Describes ν env atTop (fun t => f t + g t) ∧
    (infinity : LimitExpression F).Describes ν env atTop (fun t => f t + h t) := by
  refine ⟨id, fun t => -t, id, tendsto_abs_atTop_atTop, ?_, tendsto_abs_atTop_atTop, ?_, ?_⟩
  · simpa [Describes] using tendsto_abs_atTop_atTop (G := ℝ)
  · simp [Describes]
  · refine tendsto_abs_atTop_atTop.comp ?_
    exact tendsto_id.atTop_add_atTop tendsto_id

/-- C41: `*` gives no answer exactly for the products of Infinity with Infinitesimal or BoundedFluctuation. -/
theorem C41_mul_err (a b : LimitExpression F) : a.mul b = none ↔
    (a = .infinity ∧ (b = .infinitesimal ∨ b = .boundedFluctuation)) ∨
    (b = .infinity ∧ (a = .infinitesimal ∨ a = .boundedFluctuation)) := by
  cases a <;> cases b <;> simp [LimitExpression.mul]

/-- C41: `/` gives no answer exactly in these cases. -/
theorem C41_div_err (a b : LimitExpression F) : a.div b = none ↔
    b = .boundedFluctuation ∨ (a = .infinity ∧ b = .infinity) ∨
    (b = .infinitesimal ∧ (a = .infinitesimal ∨ a = .boundedFluctuation ∨ ∃ c, a = .normal c ∧ c.isZero = true)) ∨
    (∃ c, b = .normal c ∧ c.isZero = true ∧ (a = .infinitesimal ∨ a = .boundedFluctuation)) := by
  cases a <;> cases b <;> simp [LimitExpression.div]

theorem isZero_lit : (Expr.zero : Expr F).isZero = true := rfl

/-- C41: the side condition of `*` is needed: Infinity * Normal(0) is called Infinity, but t * 0 tends to 0. -/
theorem C41_mul_condition_needed (env : Env) : ∃ f g : ℝ → ℝ,
    (infinity : LimitExpression F).Describes SmartNum.exactReal env atTop f ∧
    (normal Expr.zero : LimitExpression F).Describes SmartNum.exactReal env atTop g ∧
    (infinity : LimitExpression F).mul (.normal Expr.zero) = some .infinity ∧
    ¬ (infinity : LimitExpression F).Describes SmartNum.exactReal env atTop fun t => f t * g t := by
  refine ⟨id, fun _ => 0, tendsto_abs_atTop_atTop, ⟨0, ?_, tendsto_const_nhds⟩, rfl, ?_⟩
  · rw [Expr.zero, Expr.ofI64, denote_ofNum]
    simp [SmartNum.exactReal, SmartNum.ofI64, SmartNum.ofVal, SmartNumVal.ofI64, SmartNumVal.isZero, SmartNumVal.isOne,
      SmartNum.exact?, SmartNumVal.exact?]
  · intro h
    have h2 : Tendsto (fun _ : ℝ => (0 : ℝ)) atTop atTop := by simpa [Describes] using h
    have := (h2.eventually_ge_atTop 1).exists
    norm_num at this

/-- C41: the side conditions of `/` are needed: Normal(c) / Infinitesimal is called Infinity also when the value of
`c` is 0 without `c` being the literal 0 (for example `sin(0)`), but 0 / t⁻¹ tends to 0. -/
theorem C41_div_condition_needed (env : Env) : ∃ f g : ℝ → ℝ,
    (normal Expr.zero.sin : LimitExpression F).Describes SmartNum.exactReal env atTop f ∧
    (infinitesimal : LimitExpression F).Describes SmartNum.exactReal env atTop g ∧ (∀ᶠ t in atTop, g t ≠ 0) ∧
    (normal Expr.zero.sin : LimitExpression F).div .infinitesimal = some .infinity ∧
    ¬ (infinity : LimitExpression F).Describes SmartNum.exactReal env atTop fun t => f t / g t := by
  refine ⟨fun _ => 0, fun t => t⁻¹, ⟨0, denote_sin.2 ⟨0, ?_, by simp⟩, tendsto_const_nhds⟩,
    tendsto_inv_atTop_zero, ?_, rfl, ?_⟩
  · rw [Expr.zero, Expr.ofI64, denote_ofNum]
    simp [SmartNum.exactReal, SmartNum.ofI64, SmartNum.ofVal, SmartNumVal.ofI64, SmartNumVal.isZero, SmartNumVal.isOne,
      SmartNum.exact?, SmartNumVal.exact?]
  · filter_upwards [eventually_gt_atTop 0] with t ht using inv_ne_zero ht.ne'
  · intro h
    have h2 : Tendsto (fun _ : ℝ => (0 : ℝ)) atTop atTop := by simpa [Describes] using h
    have := (h2.eventually_ge_atTop 1).exists
    norm_num at this

/-- Non-vacuous: (3 + Infinitesimal) * Infinity along t → ∞, with f = 3 + 1/t and g = t. -/
example (env : Env) : (infinity : LimitExpression F).Describes SmartNum.exactReal env atTop
    fun t : ℝ => (3 + t⁻¹) * t := by
  have h3 : denote SmartNum.exactReal env (Expr.ofI64 3 : Expr F) = some 3 := by
    rw [Expr.ofI64, denote_ofNum]
    simp [SmartNum.exactReal, SmartNum.ofI64, SmartNum.ofVal, SmartNumVal.ofI64, SmartNumVal.isZero, SmartNumVal.isOne,
      SmartNum.exact?, SmartNumVal.exact?, show (3 : Int64).toInt = 3 by decide]
  refine C41_mul (.normal (Expr.ofI64 3)) .infinity _ ?_ tendsto_abs_atTop_atTop (fun _ => ⟨3, h3, by norm_num⟩)
    (fun h => by cases h) rfl
  exact C41_add (.normal (Expr.ofI64 3)) .infinitesimal _ ⟨3, h3, tendsto_const_nhds⟩ tendsto_inv_atTop_zero rfl

end SymRust
