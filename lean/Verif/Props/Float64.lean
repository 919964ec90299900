import Verif.Proofs.Float64Sym
import Verif.Proofs.Float32
import Verif.Props.Rounding
import Verif.Props.Number
/-! # The float properties for `f64`: C13, C14, C16, C17, C18, C54, C55

The theorems with a law of floats as hypothesis, instantiated at IEEE-754 doubles (`Model/Float64.lean`), without
hypotheses. -/

namespace SymRust
open Expr Rounding F64

/-! ## C13 -/

/-- C13: a finite `f32` is stored with exactly its value; zeros, infinities and NaN stay what they are. -/
theorem C13_f32 (v : Float32.Model) : value (SmartNum.ofF32 v).toF64 = unpackedValue v.unpack ∧
    ((SmartNum.ofF32 v).toF64.isNaN = true ↔ v.unpack = .notANumber) ∧
    (∀ s, (SmartNum.ofF32 v).toF64.unpack = .infinity s ↔ v.unpack = .infinity s) ∧
    (∀ s, (SmartNum.ofF32 v).toF64.unpack = .zero s ↔ v.unpack = .zero s) := by
  obtain ⟨h1, h2, h3, h4⟩ := widen_value v
  refine ⟨h1, ?_, h3, h4⟩
  rw [← h2]
  show (ofF32 v).isNaN = true ↔ _
  unfold Float.Model.isNaN
  cases (ofF32 v).unpack <;> simp [Float.Model.UnpackedFloat.isNaN]

/-- Non-vacuous: 0.1 as an `f32` is 13421773 / 2^27, not 0.1. -/
example : value (SmartNum.ofF32 (Float32.Model.ofBits 0x3DCCCCCD)).toF64 = some (13421773 * 2 ^ (-27 : ℤ)) := by
  rw [(C13_f32 _).1, show (Float32.Model.ofBits 0x3DCCCCCD).unpack = .finite .positive 13421773 (-27) (by norm_num) from rfl]
  simp [unpackedValue, signValue]

/-! ## C14, C16, C18 -/

/-- C14: the sign of a finite non-zero float is its mathematical sign; that of NaN is 0; but +0.0 has sign 1 and -0.0 has
sign -1, and infinities have the sign of their bits. -/
theorem C14_f64 (x : SmartNum Float.Model) (f : Float.Model) (hx : x.value = .real f) :
    (∀ v, value f = some v → v ≠ 0 → x.sign.toInt = SignType.sign v) ∧ (f.isNaN = true → x.sign = 0) ∧
    (f = Float.Model.ofBits 0 ∨ f = Float.Model.ofBits 0x7FF0000000000000 → x.sign = 1) ∧
    (f = Float.Model.ofBits 0x8000000000000000 ∨ f = Float.Model.ofBits 0xFFF0000000000000 → x.sign = -1) := by
  unfold SmartNum.sign
  rw [hx]
  refine ⟨fun v hv h0 => ?_, fun hn => ?_, ?_, ?_⟩
  · show (signumI64 f).toInt = _
    unfold signumI64
    rcases unpack_of_value hv with ⟨s, h1, rfl⟩ | ⟨s, m, e, hm, h1, hc, he, rfl⟩
    · exact absurd rfl h0
    · have hp : (0 : ℝ) < m * 2 ^ e := mul_pos (by exact_mod_cast hm) (two_zpow_pos e)
      rw [h1]
      cases s
      · rw [sign_neg (by simpa [signValue] using hp)]; rfl
      · rw [sign_pos (by simpa [signValue] using hp)]; rfl
  · show signumI64 f = 0
    unfold signumI64
    unfold Float.Model.isNaN at hn
    cases hu : f.unpack <;> rw [hu] at hn <;> first | rfl | cases hn
  · rintro (rfl | rfl) <;> rfl
  · rintro (rfl | rfl) <;> rfl

theorem absSubSymm_f64 : AbsSubSymm Float.Model := fun a b c => by
  show Float.Model.lt (a.sub b).abs c = Float.Model.lt (b.sub a).abs c
  rw [sub_abs]

/-- C16: `is_close` is symmetric, for all numbers and tolerances, also NaN. -/
theorem C16_f64_symm (x y : SmartNum Float.Model) (eps : Float.Model) : x.isClose y eps = y.isClose x eps :=
  C16_isClose_symm absSubSymm_f64 x y eps

/-- C16: a number is close to itself exactly if its float is finite. -/
theorem C16_f64_refl (x : SmartNum Float.Model) (eps : Float.Model) (ε : ℝ) (he : value eps = some ε) (h0 : 0 < ε) :
    x.isClose x eps = true ↔ ∃ v, value x.toF64 = some v := by
  show Float.Model.lt (x.toF64.sub x.toF64).abs eps = true ↔ _
  generalize x.toF64 = f
  constructor
  · intro h
    have hself : f.unpack = .notANumber ∨ (∃ s, f.unpack = .infinity s) ∨ ∃ v, value f = some v := by
      unfold value
      cases f.unpack <;> simp [unpackedValue]
    rcases hself with h1 | ⟨s, h1⟩ | h1
    · rw [Float.Model.sub, h1] at h
      exact absurd h (by
        unfold Float.Model.lt Float.Model.abs
        rw [show Float.Model.UnpackedFloat.sub .binary64 .notANumber .notANumber = .notANumber from rfl,
          unpack_pack (f := .notANumber) trivial, Float.Model.UnpackedFloat.abs, unpack_pack (f := .notANumber) trivial]
        cases eps.unpack <;> simp [Float.Model.UnpackedFloat.lt, Float.Model.UnpackedFloat.compare])
    · rw [Float.Model.sub, h1] at h
      exact absurd h (by
        unfold Float.Model.lt Float.Model.abs
        rw [show Float.Model.UnpackedFloat.sub .binary64 (.infinity s) (.infinity s) = .notANumber by cases s <;> rfl,
          unpack_pack (f := .notANumber) trivial, Float.Model.UnpackedFloat.abs, unpack_pack (f := .notANumber) trivial]
        cases eps.unpack <;> simp [Float.Model.UnpackedFloat.lt, Float.Model.UnpackedFloat.compare])
    · exact h1
  · rintro ⟨v, hv⟩
    obtain ⟨z, hz, hz'⟩ := (sub_near hv hv (by
      rw [sub_self, abs_zero]; exact le_trans (by positivity) largest_ge)).1
    rw [sub_self, abs_zero, mul_zero, sub_zero] at hz'
    rw [abs_nonpos_iff] at hz'
    subst hz'
    rw [lt_value (abs_value hz) he, abs_zero]; exact h0

theorem floatComm_f64 : FloatComm Float.Model :=
  ⟨fun _ _ => congrArg Float.Model.pack (unpacked_add_comm _ _), fun _ _ => congrArg Float.Model.pack (unpacked_mul_comm _ _)⟩

/-- C18: `+` and `*` commute on all numbers, with or without floats, except that of two zeros (ones) the right one is
answered. -/
theorem C18_f64 (m : Mode) (x y : SmartNum Float.Model) :
    (¬ (x.isZero = true ∧ y.isZero = true) → x.add m y = y.add m x) ∧
    (¬ (x.isOne = true ∧ y.isOne = true) → x.mul m y = y.mul m x) :=
  ⟨C18_add_comm floatComm_f64 m x y, C18_mul_comm floatComm_f64 m x y⟩

/-! ## C17 -/

theorem decimal_text (n : ℕ) : decimal n = toString (n / 1000) ++ "." ++ toString (n / 100 % 10) ++ toString (n / 10 % 10) ++
    toString (n % 10) := by
  simp [decimal, threeDigits, String.append_assoc]

theorem decimal_digits (n : ℕ) : (n : ℝ) = 1000 * ((n / 1000 : ℕ) + ((n / 100 % 10 : ℕ) : ℝ) / 10 +
    ((n / 10 % 10 : ℕ) : ℝ) / 100 + ((n % 10 : ℕ) : ℝ) / 1000) := by
  have : n = 1000 * (n / 1000) + 100 * (n / 100 % 10) + 10 * (n / 10 % 10) + n % 10 := by omega
  have : (n : ℝ) = 1000 * (n / 1000 : ℕ) + 100 * (n / 100 % 10 : ℕ) + 10 * (n / 10 % 10 : ℕ) + (n % 10 : ℕ) := by
    exact_mod_cast this
  linarith

/-- C17: a finite float is shown as an optional minus sign, an integer, a point and three digits. They denote a number
within 0.0005 of it, with an even last digit if two are equally near; the minus sign is there if the float is negative
and not if it is positive, also if the digits are all 0. -/
theorem C17_f64 (x : SmartNum Float.Model) (f : Float.Model) (hx : x.value = .real f) (ht : x.tag = .nothing) (v : ℝ)
    (hv : value f = some v) : ∃ (minus : Bool) (k a b c : ℕ), a < 10 ∧ b < 10 ∧ c < 10 ∧
      x.display = .ok ((if minus then "-" else "") ++ (toString k ++ "." ++ toString a ++ toString b ++ toString c)) ∧
      |((k : ℝ) + a / 10 + b / 100 + c / 1000) - (if minus then -v else v)| ≤ 1 / 2000 ∧
      (|((k : ℝ) + a / 10 + b / 100 + c / 1000) - (if minus then -v else v)| = 1 / 2000 → c % 2 = 0) ∧
      (v < 0 → minus = true) ∧ (0 < v → minus = false) := by
  have hd : x.display = .ok (fmt3 f) := by
    unfold SmartNum.display; rw [ht, hx]; rfl
  have lt10 : ∀ n : ℕ, n % 10 < 10 := fun n => Nat.mod_lt _ (by norm_num)
  unfold fmt3 at hd
  rcases unpack_of_value hv with ⟨s, h1, rfl⟩ | ⟨s, m, e, hm, h1, hc, he, rfl⟩ <;> rw [h1] at hd <;> simp only [] at hd
  · cases s
    · exact ⟨true, 0, 0, 0, 0, by omega, by omega, by omega, by rw [hd]; rfl, by norm_num, by norm_num, by norm_num, by norm_num⟩
    · exact ⟨false, 0, 0, 0, 0, by omega, by omega, by omega, by rw [hd]; rfl, by norm_num, by norm_num, by norm_num, by norm_num⟩
  · have hp : (0 : ℝ) < m * 2 ^ e := mul_pos (by exact_mod_cast hm) (two_zpow_pos e)
    have hn := thousandths_near m e
    generalize (m : ℝ) * 2 ^ e = w at *
    generalize thousandths m e = n at *
    rw [decimal_text] at hd
    have key : ∀ v : ℝ, v = w →
        |((n / 1000 : ℕ) : ℝ) + ((n / 100 % 10 : ℕ) : ℝ) / 10 + ((n / 10 % 10 : ℕ) : ℝ) / 100 + ((n % 10 : ℕ) : ℝ) / 1000 - v| ≤ 1 / 2000 ∧
        (|((n / 1000 : ℕ) : ℝ) + ((n / 100 % 10 : ℕ) : ℝ) / 10 + ((n / 10 % 10 : ℕ) : ℝ) / 100 + ((n % 10 : ℕ) : ℝ) / 1000 - v| = 1 / 2000 →
          n % 10 % 2 = 0) := by
      rintro v rfl
      have h : (n : ℝ) - 1000 * v = 1000 * (((n / 1000 : ℕ) : ℝ) + ((n / 100 % 10 : ℕ) : ℝ) / 10 + ((n / 10 % 10 : ℕ) : ℝ) / 100 +
          ((n % 10 : ℕ) : ℝ) / 1000 - v) := by rw [mul_sub, ← decimal_digits n]
      rw [h, abs_mul, abs_of_pos (by norm_num : (0 : ℝ) < 1000)] at hn
      refine ⟨by linarith [hn.1], fun h => ?_⟩
      have := hn.2 (by rw [h]; norm_num)
      omega
    cases s
    · obtain ⟨k1, k2⟩ := key (- -w) (neg_neg w)
      refine ⟨true, _, _, _, _, lt10 _, lt10 _, lt10 _, hd, ?_, ?_, fun _ => rfl, fun h => ?_⟩
      · simpa [signValue] using k1
      · simpa [signValue] using k2
      · simp only [signValue] at h; linarith
    · obtain ⟨k1, k2⟩ := key w rfl
      refine ⟨false, _, _, _, _, lt10 _, lt10 _, lt10 _, hd, ?_, ?_, fun h => ?_, fun _ => rfl⟩
      · simpa [signValue] using k1
      · simpa [signValue] using k2
      · simp only [signValue] at h; linarith

/-- C17: floats without a value, and the two zeros. -/
theorem C17_f64_special (x : SmartNum Float.Model) (f : Float.Model) (hx : x.value = .real f) (ht : x.tag = .nothing) :
    (f = Float.Model.ofBits 0x7FF8000000000000 → x.display = .ok "NaN") ∧
    (f = Float.Model.ofBits 0x7FF0000000000000 → x.display = .ok "inf") ∧
    (f = Float.Model.ofBits 0xFFF0000000000000 → x.display = .ok "-inf") ∧
    (f = Float.Model.ofBits 0 → x.display = .ok "0.000") ∧
    (f = Float.Model.ofBits 0x8000000000000000 → x.display = .ok "-0.000") := by
  have hd : x.display = .ok (fmt3 f) := by
    unfold SmartNum.display; rw [ht, hx]; rfl
  rw [hd]
  refine ⟨?_, ?_, ?_, ?_, ?_⟩ <;> rintro rfl <;> rfl

/-- Non-vacuous: a negative float and a tie. -/
example : (SmartNum.ofF64 (Float.Model.ofBits 0xC0091EB851EB851F) : SmartNum Float.Model).display = .ok "-3.140" ∧
    (SmartNum.ofF64 (Float.Model.ofBits 0x3FB0000000000000) : SmartNum Float.Model).display = .ok "0.062" := ⟨by rfl, by rfl⟩

/-! ## C54 -/

/-- C54 for doubles: an arithmetic expression of `k` numbers and operations folds to a number whose float is within
`2^-49 * k * A` of the exact value. -/
theorem C54_f64 (m : Mode) (e e' : Expr Float.Model) (he : Built m e) (h : e.numAggregate .strict = .ok e') (r A : ℝ) (k : ℕ)
    (ha : F64.rounding.Arith e r A k) (hk : k ≤ 2 ^ 48) :
    ∃ n f, e' = ofNum n ∧ value n.toF64 = some f ∧ |f - r| ≤ 2⁻¹ ^ 49 * k * A := by
  have hkr : (k : ℝ) ≤ 2 ^ 48 := by exact_mod_cast hk
  obtain ⟨n, f, h1, h2, h3⟩ := C54_arithmetic F64.rounding m e e' he h r A k ha (by
    show (27 : ℝ) * 2⁻¹ ^ 53 * k ≤ 1
    have : (27 : ℝ) * 2⁻¹ ^ 53 * k ≤ 27 * 2⁻¹ ^ 53 * 2 ^ 48 := mul_le_mul_of_nonneg_left hkr (by positivity)
    exact this.trans (by norm_num))
  refine ⟨n, f, h1, h2, h3.trans ?_⟩
  have hA : 0 ≤ A := (abs_nonneg r).trans ha.abs_le.1
  have : (14 : ℝ) * 2⁻¹ ^ 53 ≤ 2⁻¹ ^ 49 := by norm_num
  exact mul_le_mul_of_nonneg_right (mul_le_mul_of_nonneg_right this (by positivity)) hA

/-- The general bound of C54 for doubles. -/
theorem C54_f64_error_bound (m : Mode) (e e' : Expr Float.Model) (he : Built m e) (hs : RuleSafe .strict e)
    (h : e.numAggregate .strict = .ok e') (env : Env) (r E : ℝ) (hw : F64.rounding.Within env e r E) :
    (∃ v, denote F64.rounding.real? env e' = some v ∧ |v - r| ≤ E) ∧
    ∀ n, e' = ofNum n → ∃ f, value n.toF64 = some f ∧ |f - r| ≤ E :=
  C54_error_bound F64.rounding m e e' he hs h env r E hw

/-- Non-vacuous: `(1/3 + pi) - 3` folds to a double within `2^-43` of its exact value. -/
theorem C54_example : let e : Expr Float.Model := (((ofI64 1).div (ofI64 3)).add Expr.pi).sub (ofI64 3)
    ∃ n f, e.numAggregate .strict = .ok (ofNum n) ∧ value n.toF64 = some f ∧ |f - (1 / 3 + Real.pi - 3)| ≤ 2⁻¹ ^ 43 := by
  intro e
  have run : e.numAggregate .strict = .ok (ofNum ⟨.real (FloatOps.sub (FloatOps.add (RationalNum.toF64 ⟨1, 1, 3⟩) FloatOps.pi)
      (FloatOps.ofI64 3)), .nothing⟩) := by krfl
  have range : ∀ A : ℝ, 1 ≤ A → A ≤ 100 → F64.rounding.InRange A := by
    intro A h1 h2
    refine ⟨?_, ?_⟩
    · show 2 * A ≤ largest
      exact le_trans (by norm_num; linarith) largest_ge
    · show (4 : ℝ) * 2⁻¹ ^ 1075 ≤ 2⁻¹ ^ 53 * A
      calc (4 : ℝ) * 2⁻¹ ^ 1075 = 2⁻¹ ^ 1073 := by rw [show 1075 = 1073 + 2 from rfl, pow_add]; ring
        _ ≤ 2⁻¹ ^ 53 := pow_le_pow_of_le_one (by norm_num) (by norm_num) (by norm_num)
        _ ≤ _ := le_mul_of_one_le_right (by positivity) h1
  have int : ∀ v : Int64, F64.rounding.real? (SmartNum.ofI64 v) = some (v.toInt : ℝ) := F64.rounding.real?_ofI64
  have i1 : F64.rounding.real? (SmartNum.ofI64 1) = some 1 := by
    rw [int, show (1 : Int64).toInt = 1 from by decide]; simp
  have i3 : F64.rounding.real? (SmartNum.ofI64 3) = some 3 := by
    rw [int, show (3 : Int64).toInt = 3 from by decide]; simp
  have h3 : |(3 : ℝ)| = 3 := abs_of_pos (by norm_num)
  have a1 : F64.rounding.Arith (ofI64 1) 1 1 1 := .num _ 1 1 i1 (by norm_num) (range _ (by norm_num) (by norm_num))
  have a3 : F64.rounding.Arith (ofI64 3) 3 |3| 1 :=
    .num _ 3 _ i3 le_rfl (range _ (by rw [h3]; norm_num) (by rw [h3]; norm_num))
  have ap : F64.rounding.Arith Expr.pi Real.pi 4 1 :=
    .num _ Real.pi 4 (by simp [real?, SmartNum.pi]) (by rw [abs_of_pos Real.pi_pos]; exact Real.pi_le_four)
      (range _ (by norm_num) (by norm_num))
  have ad : F64.rounding.Arith ((ofI64 1).div (ofI64 3)) (1 / 3) 1 4 :=
    .div _ _ 1 3 1 1 1 1 a1 a3 (by norm_num) (by rw [h3]; norm_num) (range _ (by norm_num) (by norm_num))
  have as' : F64.rounding.Arith (((ofI64 1).div (ofI64 3)).add Expr.pi) (1 / 3 + Real.pi) 5 6 :=
    .add _ _ _ _ 1 4 5 4 1 ad ap (by norm_num) (range _ (by norm_num) (by norm_num))
  have ae : F64.rounding.Arith e (1 / 3 + Real.pi - 3) 8 8 :=
    .sub _ _ _ _ 5 |3| 8 6 1 as' a3 (by rw [h3]; norm_num) (range _ (by norm_num) (by norm_num))
  have hb : Built .strict e :=
    .sub _ _ (.add _ _ (.div _ _ (.num _ (.ofI64 1)) (.num _ (.ofI64 3))) (.num _ .pi)) (.num _ (.ofI64 3))
  obtain ⟨n, f, h1, h2, h3⟩ := C54_f64 .strict e _ hb run _ 8 8 ae (by norm_num)
  exact ⟨n, f, by rw [run, h1], h2, h3.trans (by norm_num)⟩

/-! ## C55 -/

/-- C55 for doubles: `to_f64` of a number of value `v` is within `2^-50 |v| + 2^-1073` of `v`. -/
theorem C55_f64_to_f64 (m : Mode) (n : SmartNum Float.Model) (hn : SmartNum.Reachable m n) (v : ℝ)
    (hv : F64.rounding.real? n = some v) : ∃ f, value n.toF64 = some f ∧ |f - v| ≤ 2⁻¹ ^ 50 * |v| + 2⁻¹ ^ 1073 := by
  obtain ⟨f, h1, h2⟩ := C55_to_f64 F64.rounding m n hn v hv
  refine ⟨f, h1, h2.trans (le_of_eq ?_)⟩
  show 8 * 2⁻¹ ^ 53 * |v| + 4 * 2⁻¹ ^ 1075 = _
  rw [show 1075 = 1073 + 2 from rfl, pow_add (2⁻¹ : ℝ) 1073 2]
  generalize (2⁻¹ : ℝ) ^ 1073 = η
  norm_num
  ring

theorem margin_f64 {a b S : ℝ} (hS : |a| + |b| = S) (hle : S ≤ 2 ^ 1000) :
    |a - b| + (F64.rounding.widen a 0 + F64.rounding.widen b 0) ≤ F64.rounding.big ∧
      margin F64.rounding a b ≤ 2⁻¹ ^ 48 * S + 2⁻¹ ^ 1071 := by
  have hη : ∀ c : ℝ, c * 2⁻¹ ^ 1075 = c / 16 * 2⁻¹ ^ 1071 := fun c => by
    rw [show 1075 = 1071 + 4 from rfl, pow_add]; ring
  have hab : |a - b| ≤ S := hS ▸ abs_sub a b
  have h0 : 0 ≤ S := hS ▸ by positivity
  have hη1 : (2⁻¹ : ℝ) ^ 1071 ≤ 1 := pow_le_one₀ (by norm_num) (by norm_num)
  have hη0 : (0 : ℝ) ≤ 2⁻¹ ^ 1071 := by positivity
  have w : ∀ r D : ℝ, F64.rounding.widen r D = D + (8 * 2⁻¹ ^ 53 * (|r| + D) + 4 * 2⁻¹ ^ 1075) := fun _ _ => rfl
  unfold margin
  simp only [w, hη]
  generalize (2⁻¹ : ℝ) ^ 1071 = η at *
  have hu : (2⁻¹ : ℝ) ^ 53 = 1 / 9007199254740992 := by norm_num
  have hu' : (2⁻¹ : ℝ) ^ 48 = 1 / 281474976710656 := by norm_num
  rw [hu, hu']
  refine ⟨?_, by linarith⟩
  have h1 : (2 : ℝ) ^ 1000 + 2 ^ 1000 + 1 ≤ F64.rounding.big := by
    show _ ≤ largest
    unfold largest
    rw [show 1000 = 971 + 29 from rfl, pow_add]
    have : (1 : ℝ) ≤ 2 ^ 971 := one_le_pow₀ (by norm_num)
    generalize (2 : ℝ) ^ 971 = B at *
    norm_num
    linarith
  generalize (2 : ℝ) ^ 1000 = T at *
  have hT : 0 ≤ T := h0.trans hle
  have ha : |a| ≤ T := by linarith [abs_nonneg b]
  have hb : |b| ≤ T := by linarith [abs_nonneg a]
  linarith

/-- C55 for doubles: `is_close` is right unless the exact difference is within `2^-48 (|a| + |b|) + 2^-1071` of `eps`. -/
theorem C55_f64_is_close (m : Mode) (x y : SmartNum Float.Model) (hx : SmartNum.Reachable m x) (hy : SmartNum.Reachable m y)
    (a b : ℝ) (ha : F64.rounding.real? x = some a) (hb : F64.rounding.real? y = some b) (hle : |a| + |b| ≤ 2 ^ 1000)
    (eps : Float.Model) (ε : ℝ) (he : value eps = some ε) :
    (|a - b| + (2⁻¹ ^ 48 * (|a| + |b|) + 2⁻¹ ^ 1071) < ε → x.isClose y eps = true) ∧
    (ε ≤ |a - b| - (2⁻¹ ^ 48 * (|a| + |b|) + 2⁻¹ ^ 1071) → x.isClose y eps = false) := by
  obtain ⟨h1, h2⟩ := margin_f64 rfl hle
  obtain ⟨c1, c2⟩ := C55_is_close F64.rounding m x y hx hy a b ha hb h1 eps ε he
  exact ⟨fun h => c1 (lt_of_le_of_lt (by gcongr) h), fun h => c2 (h.trans (by gcongr))⟩

/-- C55 for doubles: the same for `near`. -/
theorem C55_f64_near (m : Mode) (x y : SmartNum Float.Model) (hx : SmartNum.Reachable m x) (hy : SmartNum.Reachable m y)
    (a b : ℝ) (ha : F64.rounding.real? x = some a) (hb : F64.rounding.real? y = some b) (hle : |a| + |b| ≤ 2 ^ 1000)
    (eps : Float.Model) (ε : ℝ) (he : value eps = some ε) (c : Bool) (h : (ofNum x).near .strict (ofNum y) eps = .ok c) :
    (|a - b| + (2⁻¹ ^ 48 * (|a| + |b|) + 2⁻¹ ^ 1071) < ε → c = true) ∧
    (ε ≤ |a - b| - (2⁻¹ ^ 48 * (|a| + |b|) + 2⁻¹ ^ 1071) → c = false) := by
  obtain ⟨h1, h2⟩ := margin_f64 rfl hle
  obtain ⟨c1, c2⟩ := C55_near F64.rounding m x y hx hy a b ha hb h1 eps ε he c h
  exact ⟨fun h => c1 (lt_of_le_of_lt (by gcongr) h), fun h => c2 (h.trans (by gcongr))⟩

/-- C55: a margin is needed.  2^53 and 2^53 + 1 differ by 1, and `near` says so, but `is_close` answers that they are
within 0.5 of each other. -/
theorem C55_margin_needed : let x : SmartNum Float.Model := SmartNum.ofI64 9007199254740992
    let y : SmartNum Float.Model := SmartNum.ofI64 9007199254740993
    let half := Float.Model.ofBits 0x3FE0000000000000
    value half = some (1 / 2) ∧ x.isClose y half = true ∧ (ofNum x).near .debug (ofNum y) half = .ok false := by
  refine ⟨?_, by rfl, by rfl⟩
  have : (Float.Model.ofBits 0x3FE0000000000000).unpack = .finite .positive 4503599627370496 (-53) (by norm_num) := by rfl
  rw [value, this]; norm_num [unpackedValue, signValue]

/-- Non-vacuous: 1/3 and 1/2 are within 1/2 of each other, but not within 1/10. -/
example : ∃ x y : SmartNum Float.Model, SmartNum.newRational .debug 1 1 3 = .ok (some x) ∧
    SmartNum.newRational .debug 1 1 2 = .ok (some y) ∧ x.isClose y (Float.Model.ofBits 0x3FE0000000000000) = true ∧
    x.isClose y (Float.Model.ofBits 0x3FB999999999999A) = false :=
  ⟨⟨.rational ⟨1, 1, 3⟩, .nothing⟩, ⟨.rational ⟨1, 1, 2⟩, .nothing⟩, by rfl, by rfl, by rfl, by rfl⟩

end SymRust
