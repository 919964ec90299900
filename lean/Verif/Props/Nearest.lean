import Verif.Proofs.Float64Unique
import Verif.Props.Float64
/-! # Conversions to doubles and float arithmetic are correctly rounded: property C87 -/

namespace SymRust
open F64

/-- The specification determines the result: two correct roundings of one real number have the same value. -/
theorem C87_determined (f g : Float.Model) (x : ℝ) (hf : CorrectlyRounded f x) (hg : CorrectlyRounded g x) :
    value f = value g := hf.unique hg

theorem F64.ofI64_rounded (v : Int64) : CorrectlyRounded (FloatOps.ofI64 v : Float.Model) v.toInt := (ofInt64_near v).2

theorem F64.ofI64_exact {v : Int64} (h : |v.toInt| ≤ 2 ^ 53) : value (FloatOps.ofI64 v : Float.Model) = some (v.toInt : ℝ) := by
  obtain ⟨g, hg⟩ := exists_value_int h
  exact (ofI64_rounded v).exact hg

theorem F64.ofU64_exact {v : UInt64} (h : v.toNat ≤ 2 ^ 53) : value (FloatOps.ofU64 v : Float.Model) = some (v.toNat : ℝ) := by
  obtain ⟨g, hg⟩ := exists_value_nat h
  exact (ofUInt64_near v).2.exact hg

/-- C87: `to_f64` of an integer is its correct rounding, and the integer itself up to 2^53. -/
theorem C87_integer (x : SmartNum Float.Model) (v : Int64) (hx : x.toI64 = some v) :
    CorrectlyRounded x.toF64 v.toInt ∧ (|v.toInt| ≤ 2 ^ 53 → value x.toF64 = some (v.toInt : ℝ)) := by
  obtain ⟨val, tag⟩ := x
  cases val with
  | integer w => cases hx; exact ⟨ofI64_rounded v, ofI64_exact⟩
  | rational r => cases hx
  | real f => cases hx

/-- C87: `to_f64` of a fraction with nominator and denominator up to 2^53 (and of every integer) is the correct rounding
of its value. -/
theorem C87_to_f64 (m : Mode) (x : SmartNum Float.Model) (hx : SmartNum.Reachable m x) (q : ℚ) (hq : Fits x q) :
    CorrectlyRounded x.toF64 q := by
  have hv := hx.valid
  obtain ⟨hq, hr⟩ := hq
  cases hval : x.value with
  | real f => rw [SmartNum.exact?, hval] at hq; cases hq
  | integer i =>
    rw [SmartNum.exact?, hval, SmartNumVal.exact?] at hq
    cases hq
    have := ofI64_rounded i
    rw [SmartNum.toF64, hval]
    push_cast
    exact this
  | rational r =>
    obtain ⟨hn, hd⟩ := hr r hval
    rw [SmartNum.exact?, hval, SmartNumVal.exact?] at hq
    split at hq
    · cases hq
    rename_i hd0
    cases hq
    have hd0' : r.denominator.toNat ≠ 0 := fun h => hd0 (UInt64.toNat_inj.1 (by simpa using h))
    have hs : r.sign = 1 ∨ r.sign = -1 := by
      rcases hv.sign_val r hval with h | h
      · exact h
      · exact absurd h.2.2 hd0
    have hs' : r.sign.toInt = 1 ∨ r.sign.toInt = -1 := by
      rcases hs with h | h <;> rw [h] <;> decide
    rw [SmartNum.toF64, hval, SmartNumVal.toF64, RationalNum.toF64]
    have h1 : value (FloatOps.ofI64 r.sign : Float.Model) = some (r.sign.toInt : ℝ) :=
      ofI64_exact (by rcases hs' with h | h <;> rw [h] <;> norm_num)
    have h2 := ofU64_exact hn
    have h3 := ofU64_exact hd
    have hnr : (r.nominator.toNat : ℝ) ≤ 2 ^ 53 := by exact_mod_cast hn
    have hsr : |(r.sign.toInt : ℝ)| = 1 := by rcases hs' with h | h <;> rw [h] <;> norm_num
    have hab : |(r.sign.toInt : ℝ) * r.nominator.toNat| ≤ 2 ^ 53 := by
      rw [abs_mul, hsr, one_mul, Nat.abs_cast]; exact hnr
    have hl : (2 : ℝ) ^ 53 ≤ largest := le_trans (by norm_num) largest_ge
    have h4 : value (FloatOps.mul (FloatOps.ofI64 r.sign) (FloatOps.ofU64 r.nominator) : Float.Model) =
        some ((r.sign.toInt : ℝ) * r.nominator.toNat) := by
      obtain ⟨g, hg⟩ := exists_value_int (n := r.sign.toInt * r.nominator.toNat) (by exact_mod_cast hab)
      push_cast at hg
      exact (mul_near h1 h2 (hab.trans hl)).2.exact hg
    have hdr : (1 : ℝ) ≤ r.denominator.toNat := by exact_mod_cast Nat.pos_of_ne_zero hd0'
    have h5 := (div_near h4 h3 (by positivity) (by
      rw [abs_div, Nat.abs_cast]
      exact (div_le_self (abs_nonneg _) hdr).trans (hab.trans hl))).2
    rw [RationalNum.value]
    push_cast
    exact h5

/-- C87: `to_f64` of `n/d` as it was given to `new_rational`. -/
theorem C87_fraction (m : Mode) (s : Int64) (n d : UInt64) (x : SmartNum Float.Model)
    (hx : SmartNum.newRational m s n d = .ok (some x)) (hn : n.toNat ≤ 2 ^ 53) (hd : d.toNat ≤ 2 ^ 53) :
    CorrectlyRounded x.toF64 (s.toInt * n.toNat / d.toNat) := by
  have hv : x.value = .rational ⟨s, n, d⟩ ∧ d ≠ 0 := by
    unfold SmartNum.newRational SmartNumVal.newRational RationalNum.new at hx
    cases ha : i64Abs m s with
    | ok a =>
      rw [ha] at hx
      by_cases h : a = 1 ∧ d ≠ 0
      · simp [bind, Res.bind, h, pure] at hx
        exact ⟨by rw [← hx], h.2⟩
      · simp [bind, Res.bind, h, pure] at hx
    | panic => rw [ha] at hx; cases hx
  have := C87_to_f64 m x (.newRational s n d x hx) (RationalNum.value ⟨s, n, d⟩)
    ⟨by rw [SmartNum.exact?, hv.1, SmartNumVal.exact?, if_neg hv.2], fun r hr => by
      rw [hv.1] at hr; cases hr; exact ⟨hn, hd⟩⟩
  rw [RationalNum.value] at this
  push_cast at this
  exact this

/-- C87: comparing such numbers by `to_f64` never contradicts their exact order, and equal ones have equal floats (however
their fractions are written). -/
theorem C87_order (m : Mode) (x y : SmartNum Float.Model) (hx : SmartNum.Reachable m x) (hy : SmartNum.Reachable m y) (a b : ℚ)
    (ha : Fits x a) (hb : Fits y b) : ∃ f g, value x.toF64 = some f ∧ value y.toF64 = some g ∧
      (a < b → f ≤ g) ∧ (f < g → a < b) ∧ (a = b → f = g) := by
  have h1 := C87_to_f64 m x hx a ha
  have h2 := C87_to_f64 m y hy b hb
  obtain ⟨f, hf, -⟩ := id h1
  obtain ⟨g, hg, -⟩ := id h2
  have heq : a = b → f = g := by
    rintro rfl
    have := h1.unique h2
    rw [hf, hg] at this
    cases this; rfl
  refine ⟨f, g, hf, hg, fun h => h1.mono h2 hf hg (by exact_mod_cast h), fun h => ?_, heq⟩
  rcases lt_trichotomy a b with h3 | h3 | h3
  · exact h3
  · exact absurd (heq h3) h.ne
  · exact absurd (h2.mono h1 hg hf (by exact_mod_cast h3)) (not_le.2 h)

/-! ## Operators -/

theorem isF_of_isReal {x y : SmartNum Float.Model} (hf : x.value.isReal = true ∨ y.value.isReal = true) :
    x.value.isF ∨ y.value.isF := by
  have : ∀ v : SmartNumVal Float.Model, v.isReal = true → v.isF := fun v h => by
    cases v with
    | real f => trivial
    | integer i => cases h
    | rational r => cases h
  exact hf.imp (this _) (this _)

theorem F64.sign_exact {r : RationalNum} (hs : r.sign = 1 ∨ r.sign = -1) :
    (r.sign.toInt = 1 ∨ r.sign.toInt = -1) ∧ value (FloatOps.ofI64 r.sign : Float.Model) = some (r.sign.toInt : ℝ) := by
  have hs' : r.sign.toInt = 1 ∨ r.sign.toInt = -1 := by rcases hs with h | h <;> rw [h] <;> decide
  exact ⟨hs', ofI64_exact (by rcases hs' with h | h <;> rw [h] <;> norm_num)⟩

theorem F64.ofU64_pos {v : UInt64} (h : v ≠ 0) : ∃ w : ℝ, value (FloatOps.ofU64 v : Float.Model) = some w ∧ 0 < w := by
  have hv : v.toNat ≠ 0 := fun h' => h (UInt64.toNat_inj.1 (by simpa using h'))
  obtain ⟨w, hw, hw'⟩ := (ofUInt64_near v).1
  refine ⟨w, hw, ?_⟩
  have h1 : (1 : ℝ) ≤ v.toNat := by exact_mod_cast Nat.pos_of_ne_zero hv
  rw [Nat.abs_cast, abs_le] at hw'
  have : (2⁻¹ : ℝ) ^ 53 * v.toNat ≤ 1 / 2 * v.toNat := mul_le_mul_of_nonneg_right (by norm_num) (by linarith)
  linarith [hw'.1]

theorem F64.toF64_zero {x : SmartNum Float.Model} (hx : x.Valid) (hq : x.exact? = some 0) : value x.toF64 = some 0 := by
  cases hval : x.value with
  | real f => rw [SmartNum.exact?, hval] at hq; cases hq
  | integer i =>
    rw [SmartNum.exact?, hval, SmartNumVal.exact?] at hq
    simp only [Option.some.injEq, Int.cast_eq_zero] at hq
    have := ofI64_exact (v := i) (by rw [hq]; norm_num)
    rw [SmartNum.toF64, hval]
    rw [hq] at this
    exact this.trans (by simp)
  | rational r =>
    rw [SmartNum.exact?, hval, SmartNumVal.exact?] at hq
    split at hq
    · cases hq
    rename_i hd0
    have hd0' : (r.denominator.toNat : ℚ) ≠ 0 := fun h => hd0 (UInt64.toNat_inj.1 (by simpa using h))
    obtain ⟨hs, h1⟩ := sign_exact ((hx.sign_val r hval).resolve_right fun h => hd0 h.2.2)
    have hsq : (r.sign.toInt : ℚ) ≠ 0 := by rcases hs with h | h <;> rw [h] <;> norm_num
    simp only [Option.some.injEq, RationalNum.value, div_eq_zero_iff, mul_eq_zero, hsq, hd0', false_or, or_false] at hq
    have hn : r.nominator.toNat = 0 := by exact_mod_cast hq
    rw [SmartNum.toF64, hval, SmartNumVal.toF64, RationalNum.toF64]
    have h2 := ofU64_exact (v := r.nominator) (by omega)
    rw [hn] at h2
    have hl : (0 : ℝ) ≤ largest := le_trans (by norm_num) largest_ge
    have hc := (mul_near h1 h2 (by simpa using hl)).2
    have h4 := hc.exact (g := Float.Model.pack (.zero .positive)) (by rw [value_zero]; simp)
    obtain ⟨w, hw, hw0⟩ := ofU64_pos hd0
    have h5 := (div_near h4 hw hw0.ne' (by simpa using hl)).2
    have h6 := h5.exact (g := Float.Model.pack (.zero .positive)) (by rw [value_zero]; simp)
    exact h6.trans (by simp)

theorem F64.toF64_one {x : SmartNum Float.Model} (hx : x.Valid) (hq : x.exact? = some 1) : value x.toF64 = some 1 := by
  cases hval : x.value with
  | real f => rw [SmartNum.exact?, hval] at hq; cases hq
  | integer i =>
    rw [SmartNum.exact?, hval, SmartNumVal.exact?] at hq
    simp only [Option.some.injEq, Int.cast_eq_one] at hq
    have := ofI64_exact (v := i) (by rw [hq]; norm_num)
    rw [SmartNum.toF64, hval]
    rw [hq] at this
    exact this.trans (by simp)
  | rational r =>
    rw [SmartNum.exact?, hval, SmartNumVal.exact?] at hq
    split at hq
    · cases hq
    rename_i hd0
    have hd0' : r.denominator.toNat ≠ 0 := fun h => hd0 (UInt64.toNat_inj.1 (by simpa using h))
    have hdq : (0 : ℚ) < r.denominator.toNat := by exact_mod_cast Nat.pos_of_ne_zero hd0'
    obtain ⟨hs, h1⟩ := sign_exact ((hx.sign_val r hval).resolve_right fun h => hd0 h.2.2)
    simp only [Option.some.injEq, RationalNum.value, div_eq_one_iff_eq hdq.ne'] at hq
    have hs1 : r.sign.toInt = 1 := hs.resolve_right fun h => by
      rw [h] at hq
      have : (0 : ℚ) ≤ r.nominator.toNat := by positivity
      push_cast at hq
      linarith
    rw [hs1] at hq h1
    push_cast at hq h1
    rw [one_mul] at hq
    have hn : r.nominator = r.denominator := UInt64.toNat_inj.1 (by exact_mod_cast hq)
    rw [SmartNum.toF64, hval, SmartNumVal.toF64, RationalNum.toF64, hn]
    obtain ⟨w, hw, hw0⟩ := ofU64_pos hd0
    have hwl : |w| ≤ largest := by
      obtain ⟨w', hw', hb⟩ := (ofUInt64_near r.denominator).1
      cases hw'.symm.trans hw
      have hd := r.denominator.toNat_lt
      have hd : (r.denominator.toNat : ℝ) ≤ 2 ^ 64 := by exact_mod_cast hd.le
      rw [Nat.abs_cast, abs_le] at hb
      have h3 : (2⁻¹ : ℝ) ^ 53 * r.denominator.toNat ≤ 1 * r.denominator.toNat :=
        mul_le_mul_of_nonneg_right (by norm_num) (by positivity)
      rw [abs_of_pos hw0]
      refine le_trans ?_ largest_ge
      have : (2 : ℝ) ^ 64 + 2 ^ 64 ≤ 2 ^ 100 := by norm_num
      linarith [hb.2]
    have h4 := (mul_near h1 hw (by simpa using hwl)).2.exact (g := FloatOps.ofU64 r.denominator) (by rw [one_mul]; exact hw)
    rw [one_mul] at h4
    obtain ⟨g, hg⟩ := exists_value_nat (n := 1) (by norm_num)
    have h5 := (div_near h4 hw hw0.ne' (by
      rw [div_self hw0.ne', abs_one]; exact le_trans (by norm_num) largest_ge)).2
    rw [div_self hw0.ne'] at h5
    exact h5.exact (g := g) (by simpa using hg)

theorem F64.Ieee.of_value {f : Float.Model} {x : ℝ} (h : value f = some x) : Ieee f x := (rndExact_of_near h).ieee



/-- C87: if one operand is a float, `+` does not panic and answers what IEEE-754 prescribes for the exact sum
of the operands' floats: its correct rounding, or infinity if that is too large. -/
theorem C87_add (m : Mode) (x y : SmartNum Float.Model) (hx : SmartNum.Reachable m x) (hy : SmartNum.Reachable m y)
    (hf : x.value.isReal = true ∨ y.value.isReal = true) (a b : ℝ) (ha : value x.toF64 = some a) (hb : value y.toF64 = some b) :
    ∃ z, x.add m y = .ok z ∧ Ieee z.toF64 (a + b) := by
  have hF := isF_of_isReal hf
  unfold SmartNum.add
  split_ifs with h1 h2
  · have := (toF64_zero hx.valid (hx.valid.zero_iff.1 h1)).symm.trans ha
    cases this
    exact ⟨_, rfl, .of_value (by rw [zero_add]; exact hb)⟩
  · have := (toF64_zero hy.valid (hy.valid.zero_iff.1 h2)).symm.trans hb
    cases this
    exact ⟨_, rfl, .of_value (by rw [add_zero]; exact ha)⟩
  · rw [Rounding.add_float hF]
    exact ⟨_, rfl, (add_rnd ha hb).ieee⟩

/-- C87: the same for `-`. -/
theorem C87_sub (m : Mode) (x y : SmartNum Float.Model) (hx : SmartNum.Reachable m x) (hy : SmartNum.Reachable m y)
    (hf : x.value.isReal = true ∨ y.value.isReal = true) (a b : ℝ) (ha : value x.toF64 = some a) (hb : value y.toF64 = some b) :
    ∃ z, x.sub m y = .ok z ∧ Ieee z.toF64 (a - b) := by
  have hF := isF_of_isReal hf
  unfold SmartNum.sub
  split_ifs with h1 h2
  · have h3 := hx.valid.zero_iff.1 h1
    cases (toF64_zero hx.valid h3).symm.trans ha
    have hr : y.value.isReal = true := hf.resolve_left fun h => by
      rw [SmartNum.exact?] at h3
      cases hv : x.value with
      | real f => rw [hv] at h3; cases h3
      | integer i => rw [hv] at h; cases h
      | rational r => rw [hv] at h; cases h
    cases hv : y.value with
    | real g =>
      unfold SmartNum.neg
      rw [hv]
      rw [SmartNum.toF64, hv] at hb
      exact ⟨_, rfl, .of_value (by rw [zero_sub]; exact neg_value hb)⟩
    | integer i => rw [hv] at hr; cases hr
    | rational i => rw [hv] at hr; cases hr
  · have := (toF64_zero hy.valid (hy.valid.zero_iff.1 h2)).symm.trans hb
    cases this
    exact ⟨_, rfl, .of_value (by rw [sub_zero]; exact ha)⟩
  · rw [Rounding.sub_float hF]
    exact ⟨_, rfl, (sub_rnd ha hb).ieee⟩

theorem exact_of_isZero64 {x : SmartNum Float.Model} (h : x.value.isZero = true) : x.exact? = some 0 := by
  rw [SmartNum.exact?]
  cases hv : x.value with
  | real g => rw [hv] at h; cases h
  | integer i =>
    rw [hv] at h
    have : i = 0 := by simpa [SmartNumVal.isZero] using h
    rw [this]; simp [SmartNumVal.exact?]
  | rational r =>
    rw [hv] at h
    simp only [SmartNumVal.isZero, Bool.and_eq_true, beq_iff_eq, bne_iff_ne] at h
    rw [SmartNumVal.exact?, if_neg h.2, RationalNum.value, h.1]; simp

/-- C87: the same for `*`. -/
theorem C87_mul (m : Mode) (x y : SmartNum Float.Model) (hx : SmartNum.Reachable m x) (hy : SmartNum.Reachable m y)
    (hf : x.value.isReal = true ∨ y.value.isReal = true) (a b : ℝ) (ha : value x.toF64 = some a) (hb : value y.toF64 = some b) :
    ∃ z, x.mul m y = .ok z ∧ Ieee z.toF64 (a * b) := by
  have hF := isF_of_isReal hf
  have zero : value (SmartNum.wrapVal (.integer 0) : SmartNum Float.Model).toF64 = some 0 :=
    toF64_zero (SmartNum.Reachable.zero (m := m)).valid (by rfl)
  unfold SmartNum.mul
  split_ifs with h1 h2
  · cases (toF64_one hx.valid (hx.valid.one_iff.1 h1)).symm.trans ha
    exact ⟨_, rfl, .of_value (by rw [one_mul]; exact hb)⟩
  · cases (toF64_one hy.valid (hy.valid.one_iff.1 h2)).symm.trans hb
    exact ⟨_, rfl, .of_value (by rw [mul_one]; exact ha)⟩
  · cases hz : x.value.isZero || y.value.isZero with
    | true =>
      refine ⟨_, by unfold SmartNumVal.mul; rw [if_pos hz]; rfl, .of_value ?_⟩
      rw [zero]
      rcases (by simpa using hz : x.value.isZero = true ∨ y.value.isZero = true) with h3 | h3
      · cases (toF64_zero hx.valid (exact_of_isZero64 h3)).symm.trans ha
        rw [zero_mul]
      · cases (toF64_zero hy.valid (exact_of_isZero64 h3)).symm.trans hb
        rw [mul_zero]
    | false =>
      rw [Rounding.mul_float hF hz]
      exact ⟨_, rfl, (mul_rnd ha hb).ieee⟩

/-- C87: the same for `/` by a divisor whose float is not 0. -/
theorem C87_div (m : Mode) (x y : SmartNum Float.Model) (hx : SmartNum.Reachable m x)
    (hf : x.value.isReal = true ∨ y.value.isReal = true) (a b : ℝ) (ha : value x.toF64 = some a) (hb : value y.toF64 = some b)
    (h0 : b ≠ 0) : ∃ z, x.div m y = .ok z ∧ Ieee z.toF64 (a / b) := by
  have hF := isF_of_isReal hf
  unfold SmartNum.div
  cases hz : x.value.isZero with
  | true =>
    refine ⟨_, by unfold SmartNumVal.div; rw [if_pos hz]; rfl, .of_value ?_⟩
    cases (toF64_zero hx.valid (exact_of_isZero64 hz)).symm.trans ha
    rw [zero_div]
    exact toF64_zero (SmartNum.Reachable.zero (m := m)).valid (by rfl)
  | false =>
    rw [Rounding.div_float hF hz]
    exact ⟨_, rfl, (div_rnd ha hb h0).ieee⟩

/-- C87: negating a float is exact. -/
theorem C87_neg (m : Mode) (x : SmartNum Float.Model) (hf : x.value.isReal = true) (a : ℝ) (ha : value x.toF64 = some a) :
    ∃ z, x.neg m = .ok z ∧ value z.toF64 = some (-a) := by
  cases hv : x.value with
  | real g =>
    unfold SmartNum.neg
    rw [hv]
    rw [SmartNum.toF64, hv] at ha
    exact ⟨_, rfl, neg_value ha⟩
  | integer i => rw [hv] at hf; cases hf
  | rational i => rw [hv] at hf; cases hf

/-! ## `is_close` -/

/-- C87: `is_close` compares the correct rounding of the difference of the floats with `eps`. -/
theorem C87_is_close (x y : SmartNum Float.Model) (a b : ℝ) (ha : value x.toF64 = some a) (hb : value y.toF64 = some b)
    (h : |a - b| ≤ largest) (eps : Float.Model) (ε : ℝ) (he : value eps = some ε) :
    ∃ d w, CorrectlyRounded d (a - b) ∧ value d = some w ∧ (x.isClose y eps = true ↔ |w| < ε) := by
  obtain ⟨⟨w, hw, -⟩, hc⟩ := sub_near ha hb h
  exact ⟨_, w, hc, hw, lt_value (abs_value hw) he⟩

/-- C87: on integers up to 2^52 `is_close` is exact, for every finite `eps`. -/
theorem C87_is_close_integers (x y : SmartNum Float.Model) (i j : Int64) (hx : x.toI64 = some i) (hy : y.toI64 = some j)
    (hi : |i.toInt| ≤ 2 ^ 52) (hj : |j.toInt| ≤ 2 ^ 52) (eps : Float.Model) (ε : ℝ) (he : value eps = some ε) :
    x.isClose y eps = true ↔ |(i.toInt : ℝ) - j.toInt| < ε := by
  have ha := (C87_integer x i hx).2 (hi.trans (by norm_num))
  have hb := (C87_integer y j hy).2 (hj.trans (by norm_num))
  have hd : |i.toInt - j.toInt| ≤ 2 ^ 53 := (abs_sub _ _).trans (by linarith)
  have hdr : |(i.toInt : ℝ) - j.toInt| ≤ 2 ^ 53 := by exact_mod_cast hd
  obtain ⟨d, w, hc, hw, hi⟩ := C87_is_close x y _ _ ha hb (hdr.trans (le_trans (by norm_num) largest_ge)) eps ε he
  obtain ⟨g, hg⟩ := exists_value_int hd
  push_cast at hg
  cases (hc.exact hg).symm.trans hw
  exact hi

/-! ## The bounds are needed -/

theorem F64.value_bits {v : Float.Model} {s m e h} (hv : v.unpack = .finite s m e h) : value v = some (signValue s * (m * 2 ^ e)) := by
  rw [value, hv]; rfl

/-- C87: beyond 2^53 it fails.  `new_rational(1, 2^53 + 1, 3)` is the integer 3002399751580331, but its `to_f64` is
3002399751580330.5; and of two fractions the smaller one can have the larger float. -/
theorem C87_bound_needed :
    (∃ x : SmartNum Float.Model, SmartNum.newRational .debug 1 9007199254740993 3 = .ok (some x) ∧
      x.exact? = some 3002399751580331 ∧ value x.toF64 = some 3002399751580330.5 ∧ ¬ CorrectlyRounded x.toF64 3002399751580331) ∧
    (∃ x y : SmartNum Float.Model, SmartNum.newRational .debug 1 9007199254741103 25 = .ok (some x) ∧
      SmartNum.newRational .debug 1 14051230837396121 39 = .ok (some y) ∧
      (∃ a b : ℚ, x.exact? = some a ∧ y.exact? = some b ∧ a < b) ∧
      ∃ f g, value x.toF64 = some f ∧ value y.toF64 = some g ∧ g < f) := by
  constructor
  · have h1 : value (RationalNum.toF64 ⟨1, 9007199254740993, 3⟩ : Float.Model) = some 3002399751580330.5 := by
      rw [value_bits (s := .positive) (m := 6004799503160661) (e := -1) (h := by norm_num) (by rfl)]
      norm_num [signValue]
    have h2 : (⟨.rational ⟨1, 9007199254740993, 3⟩, .nothing⟩ : SmartNum Float.Model).exact? = some 3002399751580331 := by
      rw [SmartNum.exact?, SmartNumVal.exact?, if_neg (by decide), RationalNum.value]
      simp only [show (1 : Int64).toInt = 1 by decide, show (9007199254740993 : UInt64).toNat = 9007199254740993 by decide,
        show (3 : UInt64).toNat = 3 by decide]
      norm_num
    refine ⟨⟨.rational ⟨1, 9007199254740993, 3⟩, .nothing⟩, by rfl, h2, h1, fun hc => ?_⟩
    obtain ⟨g, hg⟩ := exists_value_nat (n := 3002399751580331) (by norm_num)
    have := (hc.exact (g := g) (by simpa using hg)).symm.trans h1
    norm_num at this
  · refine ⟨⟨.rational ⟨1, 9007199254741103, 25⟩, .nothing⟩, ⟨.rational ⟨1, 14051230837396121, 39⟩, .nothing⟩, by rfl, by rfl,
      ⟨9007199254741103 / 25, 14051230837396121 / 39, ?_, ?_, by norm_num⟩, ?_⟩
    · rw [SmartNum.exact?, SmartNumVal.exact?, if_neg (by decide), RationalNum.value]
      simp only [show (1 : Int64).toInt = 1 by decide, show (9007199254741103 : UInt64).toNat = 9007199254741103 by decide,
        show (25 : UInt64).toNat = 25 by decide]
      norm_num
    · rw [SmartNum.exact?, SmartNumVal.exact?, if_neg (by decide), RationalNum.value]
      simp only [show (1 : Int64).toInt = 1 by decide, show (14051230837396121 : UInt64).toNat = 14051230837396121 by decide,
        show (39 : UInt64).toNat = 39 by decide]
      norm_num
    · refine ⟨_, _, value_bits (s := .positive) (m := 5764607523034307) (e := -4) (h := by norm_num) (by rfl),
        value_bits (s := .positive) (m := 5764607523034306) (e := -4) (h := by norm_num) (by rfl), ?_⟩
      norm_num [signValue]

/-- Non-vacuous: `to_f64` of 1/3 is 0x3FD5555555555555, the correct rounding of 1/3, which is not 1/3. -/
theorem C87_instance : ∃ x : SmartNum Float.Model, SmartNum.newRational .debug 1 1 3 = .ok (some x) ∧ Fits x (1 / 3) ∧
    x.toF64 = Float.Model.ofBits 0x3FD5555555555555 ∧ CorrectlyRounded x.toF64 (1 / 3) ∧ value x.toF64 ≠ some (1 / 3) := by
  have hx : SmartNum.newRational .debug 1 1 3 = .ok (some (⟨.rational ⟨1, 1, 3⟩, .nothing⟩ : SmartNum Float.Model)) := by rfl
  refine ⟨⟨.rational ⟨1, 1, 3⟩, .nothing⟩, hx, ⟨?_, ?_⟩, by rfl, ?_, ?_⟩
  · rw [SmartNum.exact?, SmartNumVal.exact?, if_neg (by decide), RationalNum.value]
    simp only [show (1 : Int64).toInt = 1 by decide, show (1 : UInt64).toNat = 1 by decide, show (3 : UInt64).toNat = 3 by decide]
    norm_num
  · rintro r ⟨⟩
    exact ⟨by decide, by decide⟩
  · have := C87_fraction .debug 1 1 3 _ hx (by decide) (by decide)
    simpa [show (1 : Int64).toInt = 1 by decide, show (1 : UInt64).toNat = 1 by decide, show (3 : UInt64).toNat = 3 by decide] using this
  · have : value (⟨.rational ⟨1, 1, 3⟩, .nothing⟩ : SmartNum Float.Model).toF64 = some (6004799503160661 * 2 ^ (-54 : ℤ)) := by
      have := value_bits (v := (RationalNum.toF64 ⟨1, 1, 3⟩ : Float.Model)) (s := .positive) (m := 6004799503160661) (e := -54)
        (h := by norm_num) (by rfl)
      exact this.trans (by simp [signValue])
    rw [this]
    norm_num

end SymRust
