import Verif.Proofs.NumberOps
import Verif.Spec.Toy
import Verif.Model.Expr
import Verif.Props.Rational
import Std.Data.String.ToInt
import Mathlib.Data.Sign.Basic
/-! # C09–C18: numbers -/

namespace SymRust
open SmartNum
variable {F : Type} [FloatOps F]

/-! ## C09 -/

/-- Every number obtainable through the API, in every build, satisfies the flag invariant. -/
theorem C09_flags (m : Mode) (x : SmartNum F) (h : x.Reachable m) : x.Valid := h.valid

omit [FloatOps F] in
/-- At most one flag at a time. -/
theorem C09_flags_exclusive (x : SmartNum F) :
    ([x.isZero, x.isOne, x.isPi, x.isE].filter id).length ≤ 1 := by
  unfold isZero isOne isPi isE
  cases x.tag <;> decide

/-- `1/3 + 2/3` is reachable and is flagged as one; `pi + 0` keeps its flag. -/
example : ∃ x : SmartNum Unit, x.Reachable .debug ∧ x.isOne = true :=
  ⟨one, .add ⟨.rational ⟨1, 1, 3⟩, .nothing⟩ ⟨.rational ⟨1, 2, 3⟩, .nothing⟩ _
    (.newRational 1 1 3 _ (by decide +kernel)) (.newRational 1 2 3 _ (by decide +kernel))
    (by decide +kernel), rfl⟩

/-! ## C10 -/

theorem C10_add_exact (x y z : SmartNum F) (hx : x.Valid) (hy : y.Valid) (p q : ℚ)
    (hp : x.exact? = some p) (hq : y.exact? = some q) (h : x.add .strict y = .ok z) :
    z.exact? = some (p + q) := add_exact hx hy hp hq h

theorem C10_sub_exact (x y z : SmartNum F) (hx : x.Valid) (hy : y.Valid) (p q : ℚ)
    (hp : x.exact? = some p) (hq : y.exact? = some q) (h : x.sub .strict y = .ok z) :
    z.exact? = some (p - q) := sub_exact hx hy hp hq h

theorem C10_mul_exact (m : Mode) (hm : m ≠ .release) (x y z : SmartNum F) (hx : x.Valid) (hy : y.Valid)
    (p q : ℚ) (hp : x.exact? = some p) (hq : y.exact? = some q) (h : x.mul m y = .ok z) :
    z.exact? = some (p * q) := mul_exact hm hx hy hp hq h

theorem C10_div_exact (m : Mode) (hm : m ≠ .release) (x y z : SmartNum F) (hx : x.Valid) (hy : y.Valid)
    (p q : ℚ) (hp : x.exact? = some p) (hq : y.exact? = some q) (h0 : q ≠ 0)
    (h : x.div m y = .ok z) : z.exact? = some (p / q) := div_exact hm hx hy hp hq h0 h

theorem C10_neg_exact (m : Mode) (hm : m ≠ .release) (x z : SmartNum F) (hx : x.Valid)
    (p : ℚ) (hp : x.exact? = some p) (h : x.neg m = .ok z) : z.exact? = some (-p) :=
  neg_exact hm hx hp h

theorem neg_nonFloat {m : Mode} {x z : SmartNum F} (hx : x.NonFloat) (h : x.neg m = .ok z) :
    z.NonFloat := by
  unfold SmartNum.neg at h
  simp only [Res.bind_eq_ok, Res.pure_eq, Res.ok.injEq] at h
  obtain ⟨v, hv, rfl⟩ := h
  exact nonFloat_wrapVal (SmartNumVal.neg_nonfloat ((nonFloat_iff x).mp hx) hv)

/-- Float-free operands never give a float, in any build (even when something wraps). -/
theorem C10_no_floats (m : Mode) (x y z : SmartNum F) (hx : x.NonFloat) (hy : y.NonFloat)
    (h : x.add m y = .ok z ∨ x.sub m y = .ok z ∨ x.mul m y = .ok z ∨ x.div m y = .ok z ∨
      x.neg m = .ok z) : z.NonFloat := by
  have fx := (nonFloat_iff x).mp hx
  have fy := (nonFloat_iff y).mp hy
  rcases h with h | h | h | h | h
  · unfold SmartNum.add at h
    split at h
    · cases h; exact hy
    split at h
    · cases h; exact hx
    simp only [Res.bind_eq_ok, Res.pure_eq, Res.ok.injEq] at h
    obtain ⟨v, hv, rfl⟩ := h
    exact nonFloat_wrapVal (SmartNumVal.add_nonfloat fx fy hv)
  · unfold SmartNum.sub at h
    split at h
    · exact neg_nonFloat hy h
    split at h
    · cases h; exact hx
    simp only [Res.bind_eq_ok, Res.pure_eq, Res.ok.injEq] at h
    obtain ⟨v, hv, rfl⟩ := h
    exact nonFloat_wrapVal (SmartNumVal.sub_nonfloat fx fy hv)
  · unfold SmartNum.mul at h
    split at h
    · cases h; exact hy
    split at h
    · cases h; exact hx
    simp only [Res.bind_eq_ok, Res.pure_eq, Res.ok.injEq] at h
    obtain ⟨v, hv, rfl⟩ := h
    exact nonFloat_wrapVal (SmartNumVal.mul_nonfloat fx fy hv)
  · unfold SmartNum.div at h
    simp only [Res.bind_eq_ok, Res.pure_eq, Res.ok.injEq] at h
    obtain ⟨v, hv, rfl⟩ := h
    exact nonFloat_wrapVal (SmartNumVal.div_nonfloat fx fy hv)
  · exact neg_nonFloat hx h

/-- `7 / 2` is the exact fraction, and adding `1/2` gives the exact value 4. -/
example : (ofI64 7 : SmartNum Unit).div .strict (ofI64 2) = .ok ⟨.rational ⟨1, 7, 2⟩, .nothing⟩ ∧
    (⟨.rational ⟨1, 7, 2⟩, .nothing⟩ : SmartNum Unit).add .strict ⟨.rational ⟨1, 1, 2⟩, .nothing⟩
      = .ok ⟨.rational ⟨1, 4, 1⟩, .nothing⟩ := by decide +kernel

example : (ofI64 7 : SmartNum Unit).exact? = some 7 ∧ (ofI64 7 : SmartNum Unit).Valid :=
  ⟨by simp [SmartNum.exact?, ofI64, SmartNumVal.ofI64, ofVal, SmartNumVal.exact?], valid_ofI64 7⟩

/-! ## C11 -/

theorem C11_zero_add (m : Mode) (z x : SmartNum F) (hz : z.isZero = true) : z.add m x = .ok x := by
  unfold SmartNum.add; rw [if_pos hz]

theorem C11_add_zero (m : Mode) (x z : SmartNum F) (hz : z.isZero = true) (hx : x.isZero = false) :
    x.add m z = .ok x := by
  unfold SmartNum.add; simp [hx, hz]

theorem C11_sub_zero (m : Mode) (x z : SmartNum F) (hz : z.isZero = true) (hx : x.isZero = false) :
    x.sub m z = .ok x := by
  unfold SmartNum.sub; simp [hx, hz]

theorem C11_one_mul (m : Mode) (o x : SmartNum F) (ho : o.isOne = true) : o.mul m x = .ok x := by
  unfold SmartNum.mul; rw [if_pos ho]

theorem C11_mul_one (m : Mode) (x o : SmartNum F) (ho : o.isOne = true) (hx : x.isOne = false) :
    x.mul m o = .ok x := by
  unfold SmartNum.mul; simp [hx, ho]

omit [FloatOps F] in
theorem wrap_int_zero : wrapVal (.integer 0 : SmartNumVal F) = SmartNum.zero := by
  simp [wrapVal, SmartNumVal.isZero]

theorem SmartNum.Valid.value_isZero {x : SmartNum F} (h : x.Valid) : x.value.isZero = x.isZero := by
  rw [Bool.eq_iff_iff, SmartNumVal.isZero_iff h.ok, h.zero_iff]; rfl

/-- For every `x` (NaN and infinities included) the product with an exact zero is an exact zero. -/
theorem C11_zero_mul (m : Mode) (z x : SmartNum F) (hv : z.Valid) (hz : z.isZero = true) :
    ∃ r, z.mul m x = .ok r ∧ r.isZero = true := by
  have h1 : z.isOne = false := by
    have := C09_flags_exclusive z; unfold isOne isZero at *; revert hz; cases z.tag <;> decide
  have h2 : z.value.mul m x.value = .ok (.integer 0) := by
    unfold SmartNumVal.mul; rw [hv.value_isZero, hz, Bool.true_or]; rfl
  unfold SmartNum.mul
  rw [h1, h2]
  simp only [Bool.false_eq_true, if_false, Res.ok_bind, Res.pure_eq, wrap_int_zero]
  split
  · exact ⟨z, rfl, hz⟩
  · exact ⟨_, rfl, rfl⟩

theorem C11_mul_zero (m : Mode) (x z : SmartNum F) (hv : z.Valid) (hz : z.isZero = true) :
    ∃ r, x.mul m z = .ok r ∧ r.isZero = true := by
  have h1 : z.isOne = false := by
    have := C09_flags_exclusive z; unfold isOne isZero at *; revert hz; cases z.tag <;> decide
  have h2 : x.value.mul m z.value = .ok (.integer 0) := by
    unfold SmartNumVal.mul; rw [hv.value_isZero, hz, Bool.or_true]; rfl
  unfold SmartNum.mul
  rw [h1, h2]
  simp only [Bool.false_eq_true, if_false, Res.ok_bind, Res.pure_eq, wrap_int_zero]
  split
  · exact ⟨z, rfl, hz⟩
  · exact ⟨_, rfl, rfl⟩

theorem C11_zero_div (m : Mode) (z x : SmartNum F) (hv : z.Valid) (hz : z.isZero = true) :
    z.div m x = .ok SmartNum.zero := by
  unfold SmartNum.div SmartNumVal.div
  simp [hv.value_isZero, hz, wrap_int_zero]

example : (SmartNum.pi : SmartNum Unit).add .debug SmartNum.zero = .ok SmartNum.pi ∧
    (SmartNum.zero : SmartNum Unit).mul .debug SmartNum.pi = .ok SmartNum.zero := by
  decide +kernel

/-! ## C12 -/

theorem C12_int_div_zero (m : Mode) (i : Int64) (hi : i ≠ 0) (hm : m = .release ∨ i ≠ i64Min) :
    ∃ (z : SmartNum F) (r : RationalNum), (SmartNum.ofI64 i : SmartNum F).div m SmartNum.zero = .ok z ∧
      z.value = .rational r ∧ r.denominator = 0 ∧ r.nominator ≠ 0 ∧
      z.isZero = false ∧ z.isOne = false := by
  obtain ⟨a, ha⟩ : ∃ a, i64Abs m i = .ok a := by
    rcases hm with h | h
    · subst h; exact ⟨_, RationalNum.i64Abs_release i⟩
    · exact ⟨_, checked_of_fits m _ ((abs_fits_iff i).mpr h)⟩
  have ha0 : castU64 a ≠ 0 := by
    rw [checked_ok ha]
    unfold castU64
    intro h
    have h2 : (if i < 0 then -i else i) = (0 : UInt64).toInt64 := by rw [← h]; simp
    split at h2
    · have h3 : i = - -i := by simp
      rw [h2] at h3; exact hi h3
    · exact hi h2
  obtain ⟨ri, hri, hn, hd, hs⟩ : ∃ r, RationalNum.ofI64 m i = .ok r ∧ r.nominator = castU64 a ∧
      r.denominator = 1 ∧ (r.sign = 1 ∨ r.sign = -1) := by
    refine ⟨⟨if i = 0 then 1 else i64Signum i, castU64 a, 1⟩, ?_, rfl, rfl, ?_⟩
    · unfold RationalNum.ofI64; rw [ha]; rfl
    · dsimp only; rw [if_neg hi]
      rcases RationalNum.signum_cases i with h | h | h
      · exact .inl h
      · exact .inr h
      · exact absurd h.2 hi
  have hr0 : RationalNum.ofI64 m 0 = .ok ⟨1, 0, 1⟩ := by
    cases m <;> decide
  have hs' : i64Mul m ri.sign 1 = .ok ri.sign := by
    rw [i64Mul_fits m (by have := Int64.inI64_toInt ri.sign; simpa using this)]; simp
  have hn' : u64Mul m ri.nominator 1 = .ok ri.nominator := by
    rw [u64Mul_fits m (by have := UInt64.inU64_toNat ri.nominator; simpa using this)]; simp
  have hd' : u64Mul m ri.denominator 0 = .ok 0 := by
    rw [u64Mul_fits m (by unfold InU64; simp)]; simp
  have hdiv : ri.div m ⟨1, 0, 1⟩ = .ok (RationalNum.mk ri.sign ri.nominator 0).reduce := by
    unfold RationalNum.div; simp [hs', hn', hd']
  generalize hred : (RationalNum.mk ri.sign ri.nominator 0).reduce = r at hdiv
  have hrd : r.denominator = 0 := by rw [← hred, RationalNum.reduce_denominator_eq_zero]
  have hrn : r.nominator ≠ 0 := by
    rw [← hred, Ne, RationalNum.reduce_nominator_eq_zero]; dsimp only; rw [hn]; exact ha0
  have hz : (SmartNumVal.rational r : SmartNumVal F).isZero = false := by
    simp [SmartNumVal.isZero, hrd]
  have ho : (SmartNumVal.rational r : SmartNumVal F).isOne = false := by
    simp [SmartNumVal.isOne, hrd]
  refine ⟨⟨.rational r, .nothing⟩, r, ?_, rfl, hrd, hrn, rfl, rfl⟩
  have hi' : (SmartNumVal.integer i : SmartNumVal F).isZero = false := by
    simp [SmartNumVal.isZero, hi]
  unfold SmartNum.div SmartNumVal.div
  show (do return wrapVal (← _) : Res (SmartNum F)) = _
  simp only [SmartNum.ofI64, ofVal, SmartNumVal.ofI64, hi', SmartNum.zero, hri, hr0, hdiv,
    Res.ok_bind, Res.pure_eq, Bool.false_eq_true, if_false, wrapVal, hz, ho]

theorem C12_zero_div_zero (m : Mode) :
    (SmartNum.zero : SmartNum F).div m SmartNum.zero = .ok SmartNum.zero :=
  C11_zero_div m _ _ valid_zero rfl

example : (SmartNum.ofI64 (-6) : SmartNum Unit).div .debug SmartNum.zero
    = .ok ⟨.rational ⟨-1, 1, 0⟩, .nothing⟩ := by decide +kernel

/-! ## C03, the public constructor -/

omit [FloatOps F] in
/-- C03: `SmartNum::new_rational(s, n, d)` is `Some` exactly if `s` is 1 or -1 and `d` is not 0, stores the arguments, and
is flagged zero exactly if `n = 0` and one exactly if `s = 1` and `n = d`. -/
theorem C03_new_rational (m : Mode) (s : Int64) (n d : UInt64) (h : m = .release ∨ s ≠ i64Min) :
    ((s = 1 ∨ s = -1) ∧ d ≠ 0 → ∃ x : SmartNum F, SmartNum.newRational m s n d = .ok (some x) ∧
      x.value = .rational ⟨s, n, d⟩ ∧ (x.isZero = true ↔ n = 0) ∧ (x.isOne = true ↔ s = 1 ∧ n = d) ∧
      x.isPi = false ∧ x.isE = false) ∧
    (¬ ((s = 1 ∨ s = -1) ∧ d ≠ 0) → (SmartNum.newRational m s n d : Res (Option (SmartNum F))) = .ok none) := by
  unfold SmartNum.newRational SmartNumVal.newRational
  rw [C03_new m s n d h]
  refine ⟨fun hc => ?_, fun hc => by rw [if_neg hc]; rfl⟩
  rw [if_pos hc]
  refine ⟨_, rfl, rfl, ?_⟩
  have hd := hc.2
  by_cases h0 : n = 0
  · simp [SmartNum.isZero, SmartNum.isOne, SmartNum.isPi, SmartNum.isE, SmartNumVal.isZero, h0, hd, Ne.symm hd]
  · by_cases h1 : s = 1 ∧ n = d
    · obtain ⟨rfl, rfl⟩ := h1
      simp [SmartNum.isZero, SmartNum.isOne, SmartNum.isPi, SmartNum.isE, SmartNumVal.isZero, SmartNumVal.isOne, h0]
    · have h2 : (s == 1 && n == d) = false := by simpa using h1
      simp [SmartNum.isZero, SmartNum.isOne, SmartNum.isPi, SmartNum.isE, SmartNumVal.isZero, SmartNumVal.isOne, h0, h1, h2]

omit [FloatOps F] in
/-- C03: its only panicking argument is the sign i64::MIN in an overflow-checking build. -/
theorem C03_new_rational_panics_iff (m : Mode) (s : Int64) (n d : UInt64) :
    (SmartNum.newRational m s n d : Res (Option (SmartNum F))) = .panic ↔ m ≠ .release ∧ s = i64Min := by
  rw [← C03_new_panics_iff m s n d]
  unfold SmartNum.newRational SmartNumVal.newRational
  cases RationalNum.new m s n d <;> simp

example : ∃ x : SmartNum Unit, SmartNum.newRational .debug (-1) 7 3 = .ok (some x) ∧ x.value = .rational ⟨-1, 7, 3⟩ :=
  ⟨_, rfl, rfl⟩

/-! ## C13 -/

omit [FloatOps F] in
theorem C13_i64_roundtrip (v : Int64) : (SmartNum.ofI64 v : SmartNum F).toI64 = some v := rfl

omit [FloatOps F] in
/-- The narrower integer types: the stored integer is the argument. -/
theorem C13_narrow (a : UInt8) (b : Int8) (c : UInt16) (d : Int16) (e : UInt32) (f : Int32) :
    (∃ i, (SmartNum.ofU8 a : SmartNum F).toI64 = some i ∧ i.toInt = a.toNat) ∧
    (∃ i, (SmartNum.ofI8 b : SmartNum F).toI64 = some i ∧ i.toInt = b.toInt) ∧
    (∃ i, (SmartNum.ofU16 c : SmartNum F).toI64 = some i ∧ i.toInt = c.toNat) ∧
    (∃ i, (SmartNum.ofI16 d : SmartNum F).toI64 = some i ∧ i.toInt = d.toInt) ∧
    (∃ i, (SmartNum.ofU32 e : SmartNum F).toI64 = some i ∧ i.toInt = e.toNat) ∧
    (∃ i, (SmartNum.ofI32 f : SmartNum F).toI64 = some i ∧ i.toInt = f.toInt) := by
  have nat : ∀ n : ℕ, n < 4294967296 → (Int64.ofNat n).toInt = n := fun n hn =>
    Int64.toInt_ofNat_of_lt (by omega)
  refine ⟨⟨_, rfl, nat _ ?_⟩, ⟨_, rfl, by simp⟩, ⟨_, rfl, nat _ ?_⟩, ⟨_, rfl, by simp⟩, ⟨_, rfl, nat _ ?_⟩, ⟨_, rfl, by simp⟩⟩
  · have := a.toNat_lt; omega
  · have := c.toNat_lt; omega
  · have := e.toNat_lt; omega

example : (SmartNum.ofI8 (-128) : SmartNum Unit).toI64 = some (-128) ∧
    (SmartNum.ofU32 4294967295 : SmartNum Unit).toI64 = some 4294967295 := by decide

/-- An `f64` is stored as it is, whatever it is (also 0.0, 1.0 and NaN): it is not flagged as a constant, and neither
`to_i64` nor `to_rational` answers. -/
theorem C13_f64 (m : Mode) (v : F) : (SmartNum.ofF64 v).toF64 = v ∧ (SmartNum.ofF64 v).toI64 = none ∧
    (SmartNum.ofF64 v).toRational m = .ok none ∧ (SmartNum.ofF64 v).isZero = false ∧ (SmartNum.ofF64 v).isOne = false ∧
    (SmartNum.ofF64 v).isPi = false ∧ (SmartNum.ofF64 v).isE = false := ⟨rfl, rfl, rfl, rfl, rfl, rfl, rfl⟩

omit [FloatOps F] in
/-- Builds (not the instrumented mode): a `u64` is kept iff it is below 2^63, else 2^64 is
subtracted. -/
theorem C13_u64 (m : Mode) (hm : m ≠ .strict) (v : UInt64) :
    ∃ (x : SmartNum F) (i : Int64), SmartNum.ofU64 m v = .ok x ∧ x.toI64 = some i ∧
      (v.toNat < 9223372036854775808 → i.toInt = v.toNat) ∧
      (9223372036854775808 ≤ v.toNat → i.toInt = v.toNat - 18446744073709551616) := by
  refine ⟨ofVal (.integer v.toInt64), v.toInt64, ?_, rfl, ?_, ?_⟩
  · unfold SmartNum.ofU64 SmartNumVal.ofU64 castI64
    cases m <;> first | rfl | exact absurd rfl hm
  · intro h; rw [toInt64_toInt]; apply bmod_eq_of_inI64; unfold InI64; omega
  · intro h
    have := v.toNat_lt
    rw [toInt64_toInt, Int.bmod_def]; omega

example : ∃ x : SmartNum Unit, SmartNum.ofU64 .debug 18446744073709551615 = .ok x ∧
    x.toI64 = some (-1) := ⟨ofVal (.integer (-1)), by decide +kernel, rfl⟩

/-! ## C14 -/

theorem C14_sign (x : SmartNum F) (hx : x.Valid) (q : ℚ) (hq : x.exact? = some q) (h0 : q ≠ 0) :
    x.sign.toInt = SignType.sign q := by
  unfold SmartNum.sign
  unfold SmartNum.exact? at hq
  cases hv : x.value with
  | real f => rw [hv] at hq; cases hq
  | integer v =>
    rw [hv] at hq
    have : (v.toInt : ℚ) = q := by simpa [SmartNumVal.exact?] using hq
    dsimp only
    rw [i64Signum_toInt, ← this]
    rcases lt_trichotomy v.toInt 0 with h | h | h
    · rw [Int.sign_eq_neg_one_of_neg h, sign_neg (by exact_mod_cast h)]; rfl
    · rw [h]; simp
    · rw [Int.sign_eq_one_of_pos h, sign_pos (by exact_mod_cast h)]; rfl
  | rational r =>
    rw [hv] at hq
    obtain ⟨hd, hval⟩ := SmartNumVal.exact_rational hq
    have hvalid := RationalNum.StoredOK.valid (hx.sign_val r hv) hd
    have hn : r.nominator ≠ 0 := fun h => h0 (by
      rw [← hval]; exact (RationalNum.value_eq_zero hvalid).mpr h)
    have hnp : (0 : ℚ) < r.nominator.toNat := by
      rw [Ne, u64_eq_zero_iff] at hn; exact_mod_cast Nat.pos_of_ne_zero hn
    have hdp : (0 : ℚ) < r.denominator.toNat := by
      rw [Ne, u64_eq_zero_iff] at hd; exact_mod_cast Nat.pos_of_ne_zero hd
    dsimp only
    rw [← hval]
    unfold RationalNum.value
    rcases hvalid.sign_toInt with h | h <;> rw [h]
    · rw [sign_pos (by push_cast; positivity)]; rfl
    · rw [sign_neg (by
        push_cast
        rw [neg_one_mul, neg_div]; exact neg_neg_of_pos (by positivity))]; rfl

/-- For a stored integer also at zero. -/
theorem C14_sign_int (x : SmartNum F) (i : Int64) (h : x.value = .integer i) :
    x.sign.toInt = i.toInt.sign := by
  unfold SmartNum.sign; rw [h]; exact i64Signum_toInt i

/-- A zero made by `new_rational` answers its stored sign, not 0. -/
theorem C14_sign_rational_zero (m : Mode) (s : Int64) (d : UInt64) (hd : d ≠ 0) (hs : s = 1 ∨ s = -1) :
    ∃ x : SmartNum F, SmartNum.newRational m s 0 d = .ok (some x) ∧ x.isZero = true ∧ x.sign = s := by
  have h : RationalNum.new m s 0 d = .ok (some ⟨s, 0, d⟩) := by
    rw [C03_new m s 0 d (.inr (by rcases hs with h | h <;> subst h <;> decide))]
    rw [if_pos ⟨hs, hd⟩]
  refine ⟨⟨.rational ⟨s, 0, d⟩, .zero⟩, ?_, rfl, rfl⟩
  unfold SmartNum.newRational SmartNumVal.newRational
  rw [h]
  simp [SmartNumVal.isZero, hd]

example : SmartNum.sign (⟨.rational ⟨-1, 3, 4⟩, .nothing⟩ : SmartNum Unit) = -1 := rfl

/-! ## C15 -/

omit [FloatOps F] in
/-- `to_rational` of a float-free number keeps the value (denominator 1 for integers). -/
theorem C15_toRational (m : Mode) (hm : m ≠ .release) (x : SmartNum F) (q : ℚ) (hq : x.exact? = some q)
    (r : Option RationalNum) (h : x.toRational m = .ok r) :
    ∃ r', r = some r' ∧ r'.value = q ∧ r'.denominator ≠ 0 ∧
      (∀ i, x.value = .integer i → r'.denominator = 1) := by
  unfold SmartNum.toRational at h
  unfold SmartNum.exact? at hq
  cases hv : x.value with
  | real f => rw [hv] at hq; cases hq
  | integer v =>
    rw [hv] at hq h
    have hq : (v.toInt : ℚ) = q := by simpa [SmartNumVal.exact?] using hq
    simp only [Res.bind_eq_ok, Res.pure_eq, Res.ok.injEq] at h
    obtain ⟨a, ha, rfl⟩ := h
    have e := RationalNum.ofI64_exact hm ha
    refine ⟨a, rfl, e.1.trans hq, e.2.1.2, fun _ _ => ?_⟩
    unfold RationalNum.ofI64 at ha
    simp only [Res.bind_eq_ok, Res.pure_eq, Res.ok.injEq] at ha
    obtain ⟨_, _, rfl⟩ := ha; rfl
  | rational r =>
    rw [hv] at hq h
    cases h
    obtain ⟨hd, hval⟩ := SmartNumVal.exact_rational hq
    exact ⟨r, rfl, hval, hd, fun i hi => by cases hi⟩

omit [FloatOps F] in
theorem C15_toRational_panics_iff (m : Mode) (x : SmartNum F) :
    x.toRational m = .panic ↔ m ≠ .release ∧ x.value = .integer i64Min := by
  unfold SmartNum.toRational
  cases hv : x.value with
  | real f => simp
  | rational r => simp
  | integer v =>
    unfold RationalNum.ofI64 i64Abs checked
    dsimp only
    by_cases h : v = i64Min
    · have := (abs_fits_iff v).not.mpr (by simpa using h)
      rw [if_neg this]
      cases m <;> simp [h]
    · have := (abs_fits_iff v).mpr h
      rw [if_pos this]
      simp [h]

omit [FloatOps F] in
theorem C15_toRational_none_iff (m : Mode) (x : SmartNum F) :
    x.toRational m = .ok none ↔ ¬ x.NonFloat := by
  rw [nonFloat_iff]
  unfold SmartNum.toRational
  cases hv : x.value with
  | real f => simp [SmartNumVal.isF]
  | rational r => simp [SmartNumVal.isF]
  | integer v =>
    simp only [SmartNumVal.isF, not_true_eq_false, not_false_eq_true, iff_false]
    intro h
    simp only [Res.bind_eq_ok, Res.pure_eq, Res.ok.injEq] at h
    obtain ⟨_, _, h⟩ := h; cases h

omit [FloatOps F] in
theorem C15_toI64_iff (x : SmartNum F) (i : Int64) : x.toI64 = some i ↔ x.value = .integer i := by
  unfold SmartNum.toI64 SmartNumVal.toI64
  cases x.value <;> simp

omit [FloatOps F] in
/-- The predicates on stored values: exactly one of is_int, is_rational and is_real holds.  is_int holds exactly if
`to_i64` answers, is_real exactly for floats; `to_rational` of the stored value answers exactly if is_rational holds. -/
theorem C15_kinds (x : SmartNum F) :
    ([x.value.isInt, x.value.isRational, x.value.isReal].count true = 1) ∧
    (x.value.isInt = true ↔ ∃ i, x.toI64 = some i) ∧ (x.value.isReal = true ↔ ¬ x.NonFloat) ∧
    (x.value.isRational = true ↔ ∃ r, x.value.toRational = some r) := by
  obtain ⟨v, t⟩ := x
  cases v <;> simp [SmartNumVal.isInt, SmartNumVal.isRational, SmartNumVal.isReal, SmartNum.toI64, SmartNumVal.toI64,
    SmartNum.NonFloat, SmartNumVal.toRational]

/-- No quotient answers `to_i64` unless it is 0 or 1: `6/2` does not. -/
theorem C15_quotient_toI64 (m : Mode) (x y z : SmartNum F) (h : x.div m y = .ok z) (i : Int64)
    (hi : z.toI64 = some i) : i = 0 ∨ i = 1 := by
  rw [C15_toI64_iff] at hi
  unfold SmartNum.div at h
  simp only [Res.bind_eq_ok, Res.pure_eq, Res.ok.injEq] at h
  obtain ⟨v, hv, rfl⟩ := h
  unfold wrapVal at hi
  split at hi
  · left; simpa [SmartNum.zero] using hi.symm
  split at hi
  · right; simpa [SmartNum.one] using hi.symm
  dsimp only at hi
  subst hi
  unfold SmartNumVal.div at hv
  split at hv
  · left; simpa using hv.symm
  cases hx : x.value <;> cases hy : y.value <;> rw [hx, hy] at hv <;> simp [Res.bind_eq_ok] at hv

example : ∃ z : SmartNum Unit, (SmartNum.ofI64 6 : SmartNum Unit).div .debug (SmartNum.ofI64 2) = .ok z ∧
    z.toI64 = none := ⟨⟨.rational ⟨1, 3, 1⟩, .nothing⟩, by decide +kernel, rfl⟩

/-! ## C16 -/

/-- The law of `f64` used for symmetry of closeness: `|x - y| = |y - x|` (true of IEEE-754, as
`x - y` and `y - x` differ only in sign, or are both NaN and then compare the same). -/
def AbsSubSymm (F : Type) [FloatOps F] : Prop :=
  ∀ a b c : F, FloatOps.lt (FloatOps.abs (FloatOps.sub a b)) c = FloatOps.lt (FloatOps.abs (FloatOps.sub b a)) c

theorem C16_isClose_symm (law : AbsSubSymm F) (x y : SmartNum F) (eps : F) :
    x.isClose y eps = y.isClose x eps := law _ _ _

theorem C16_near_err_iff (m : Mode) (a b : Expr F) (eps : F) :
    (∃ e, a.near m b eps = .err e) ↔ (a.isNum = false ∨ b.isNum = false) := by
  have key : ∀ a : Expr F, (a.isNum = false ∧ ∃ e, a.toSmartNum = .error e) ∨
      (a.isNum = true ∧ ∃ n, a.toSmartNum = .ok n) := by
    intro a
    unfold Expr.isNum Expr.toSmartNum
    cases a.root with
    | operator op => simp
    | operand o => cases o <;> simp [AstOperand.isNum, AstOperand.toSmartNum]
  unfold Expr.near
  rcases key a with ⟨h1, e1, h2⟩ | ⟨h1, n1, h2⟩
  · rw [h1, h2]; simp [Expr.liftExcept]
  · rw [h1, h2]
    rcases key b with ⟨h3, e3, h4⟩ | ⟨h3, n3, h4⟩
    · rw [h3, h4]; simp [Expr.liftExcept]
    · rw [h3, h4]
      simp only [Expr.liftExcept, Out.ok_bind]
      cases n1.sub m n3 <;> simp

/-- `x - x` of an exact number is the exact zero whenever it returns (overflow-checking build). -/
theorem sub_self_zero (m : Mode) (hm : m ≠ .release) (x z : SmartNum F) (hx : x.Valid) (q : ℚ)
    (hq : x.exact? = some q) (h : x.sub m x = .ok z) : z = SmartNum.zero := by
  have key : ∀ v : SmartNumVal F, v.exact? = some q → x.value = v → ∀ w,
      v.sub m v = .ok w → wrapVal w = SmartNum.zero := by
    intro v hv hxv w hw
    cases v with
    | real f => cases hv
    | integer i =>
      simp only [SmartNumVal.sub, Res.bind_eq_ok, Res.pure_eq, Res.ok.injEq] at hw
      obtain ⟨s, hs, rfl⟩ := hw
      rw [checked_ok hs]; simp [wrapVal, SmartNumVal.isZero]
    | rational r =>
      obtain ⟨hd, -⟩ := SmartNumVal.exact_rational hv
      simp only [SmartNumVal.sub, Res.bind_eq_ok, Res.pure_eq, Res.ok.injEq] at hw
      obtain ⟨c, hc, rfl⟩ := hw
      unfold RationalNum.sub at hc
      simp only [Res.bind_eq_ok, Res.pure_eq, Res.ok.injEq] at hc
      obtain ⟨p, hp, p', hp', a, ha, p2, hp2, p2', hp2', b, hb, s, hs, t, ht, d, hd', rfl⟩ := hc
      have hpp : p = p2 := by
        rw [checked_ok hp, checked_ok hp2, UInt64.mul_comm]
      have hab : a = b := by
        rw [checked_ok ha, checked_ok hb, castI64_ok hp', castI64_ok hp2', hpp]
      have hs0 : s = 0 := by rw [checked_ok hs, hab]; simp
      have hn : castU64 t = 0 := by
        rw [checked_ok ht, hs0]; decide
      have hd0 : d ≠ 0 := by
        rw [Ne, u64_eq_zero_iff] at hd ⊢
        rw [u64Mul_exact hm hd']; exact Nat.mul_ne_zero hd hd
      rw [hn]
      unfold wrapVal
      rw [if_pos]
      simp only [SmartNumVal.isZero, Bool.and_eq_true, beq_iff_eq, bne_iff_ne,
        RationalNum.reduce_nominator_eq_zero, Ne, RationalNum.reduce_denominator_eq_zero]
      exact ⟨trivial, hd0⟩
  unfold SmartNum.sub at h
  split at h
  · rename_i h0
    rw [hx.zero_iff, hq] at h0
    cases h0
    have h1 := C10_neg_exact m hm x z hx 0 hq h
    unfold SmartNum.neg at h
    simp only [Res.bind_eq_ok, Res.pure_eq, Res.ok.injEq] at h
    obtain ⟨v, hv, rfl⟩ := h
    have hvv := (valid_wrapVal (SmartNumVal.neg_ok hx.ok hv).pre).zero_iff.mpr (by simpa using h1)
    unfold wrapVal at hvv ⊢
    split
    · rfl
    · rename_i hnz
      rw [if_neg hnz] at hvv
      split at hvv <;> cases hvv
  simp only [Res.bind_eq_ok, Res.pure_eq, Res.ok.injEq] at h
  obtain ⟨v, hv, rfl⟩ := h
  exact key x.value hq rfl v hv

/-- Reflexivity of `near` on exact numbers, for every tolerance that exceeds `|0|`. -/
theorem C16_near_refl (m : Mode) (hm : m ≠ .release) (x : SmartNum F) (hx : x.Valid) (q : ℚ)
    (hq : x.exact? = some q) (eps : F)
    (heps : FloatOps.lt (FloatOps.abs (FloatOps.ofI64 0 : F)) eps = true) :
    (Expr.ofNum x).near m (Expr.ofNum x) eps = .ok true ∨
    (Expr.ofNum x).near m (Expr.ofNum x) eps = .panic := by
  have hn : (Expr.ofNum x).toSmartNum = .ok x := rfl
  unfold Expr.near
  rw [hn]
  simp only [Expr.liftExcept, Out.ok_bind]
  cases h : x.sub m x with
  | panic => right; rfl
  | ok z =>
    left
    rw [sub_self_zero m hm x z hx q hq h]
    simp only [Res.lift_ok, Out.ok_bind, Out.pure_eq]
    exact congrArg Out.ok heps

example : (Expr.ofI64 5 : Expr Unit).near .debug (Expr.ofI64 5) () = .ok true := by decide +kernel

/-! ## C17 -/

theorem C17_display_never_panics (x : SmartNum F) : ∃ s, x.display = .ok s := by
  unfold SmartNum.display
  split
  · rename_i h
    cases ht : x.tag <;> simp_all [ConstType.display]
  · exact ⟨_, rfl⟩

theorem C17_display_special (x : SmartNum F) :
    (x.isZero = true → x.display = .ok "0") ∧ (x.isOne = true → x.display = .ok "1") ∧
    (x.isPi = true → x.display = .ok "pi") ∧ (x.isE = true → x.display = .ok "e") ∧
    (SmartNum.pi : SmartNum F).display = .ok "pi" ∧ (SmartNum.e : SmartNum F).display = .ok "e" := by
  refine ⟨?_, ?_, ?_, ?_, rfl, rfl⟩ <;> unfold SmartNum.display
  · unfold isZero; cases x.tag <;> simp [ConstType.display]
  · unfold isOne; cases x.tag <;> simp [ConstType.display]
  · unfold isPi; cases x.tag <;> simp [ConstType.display]
  · unfold isE; cases x.tag <;> simp [ConstType.display]

/-- Every integer prints as its decimal numeral. -/
theorem C17_display_int (x : SmartNum F) (hx : x.Valid) (i : Int64) (h : x.value = .integer i) :
    x.display = .ok (toString i.toInt) := by
  have he : x.exact? = some (i.toInt : ℚ) := by unfold SmartNum.exact?; rw [h]; rfl
  unfold SmartNum.display
  cases ht : x.tag with
  | zero =>
    have h0 := hx.zero_iff.mp (by simp [isZero, ht])
    rw [he] at h0
    have : i.toInt = 0 := by exact_mod_cast Option.some.inj h0
    rw [this]; simp [ConstType.display]; rfl
  | one =>
    have h0 := hx.one_iff.mp (by simp [isOne, ht])
    rw [he] at h0
    have : i.toInt = 1 := by exact_mod_cast Option.some.inj h0
    rw [this]; simp [ConstType.display]; rfl
  | pi => have := hx.pi_val (by simp [isPi, ht]); rw [h] at this; cases this
  | e => have := hx.e_val (by simp [isE, ht]); rw [h] at this; cases this
  | nothing => simp [SmartNumVal.display, h]

theorem C17_int_display_injective (x y : SmartNum F) (hx : x.Valid) (hy : y.Valid) (i j : Int64)
    (hi : x.value = .integer i) (hj : y.value = .integer j) (h : x.display = y.display) : i = j := by
  rw [C17_display_int x hx i hi, C17_display_int y hy j hj] at h
  exact Int64.toInt_inj.mp (Int.repr_injective (Res.ok.inj h))

/-- A fraction that is not a special constant prints as sign, nominator, `/`, denominator. -/
theorem C17_display_rational (x : SmartNum F) (r : RationalNum) (h : x.value = .rational r)
    (ht : x.tag = .nothing) :
    x.display = .ok ((if r.sign = 1 then "" else "-") ++ toString r.nominator.toNat ++ "/" ++
      toString r.denominator.toNat) := by
  unfold SmartNum.display
  simp [ht, h, SmartNumVal.display, RationalNum.display]

example : (SmartNum.ofI64 (-12) : SmartNum Unit).display = .ok "-12" ∧
    (⟨.rational ⟨-1, 3, 4⟩, .nothing⟩ : SmartNum Unit).display = .ok "-3/4" := by decide +kernel

/-! ## C18 -/

/-- Commutativity of float addition and multiplication, the only float laws needed. -/
def FloatComm (F : Type) [FloatOps F] : Prop :=
  (∀ a b : F, FloatOps.add a b = FloatOps.add b a) ∧ (∀ a b : F, FloatOps.mul a b = FloatOps.mul b a)

theorem checked_congr {α : Type} {m : Mode} {p q : Prop} [Decidable p] [Decidable q] {a b : α}
    (h : p ↔ q) (h' : a = b) : checked m p a = checked m q b := by
  subst h'; unfold checked; simp only [h]

theorem i64Add_comm (m : Mode) (a b : Int64) : i64Add m a b = i64Add m b a :=
  checked_congr (by rw [Int.add_comm]) (Int64.add_comm a b)
theorem i64Mul_comm (m : Mode) (a b : Int64) : i64Mul m a b = i64Mul m b a :=
  checked_congr (by rw [Int.mul_comm]) (Int64.mul_comm a b)
theorem u64Mul_comm (m : Mode) (a b : UInt64) : u64Mul m a b = u64Mul m b a :=
  checked_congr (by rw [Nat.mul_comm]) (UInt64.mul_comm a b)

theorem Res.bind_comm {α β γ : Type} (x : Res α) (y : Res β) (f : α → β → Res γ) :
    (do let a ← x; let b ← y; f a b) = (do let b ← y; let a ← x; f a b) := by
  cases x <;> cases y <;> rfl

theorem Res.bind_assoc {α β γ : Type} (x : Res α) (f : α → Res β) (g : β → Res γ) :
    (x >>= f) >>= g = x >>= fun a => f a >>= g := by cases x <;> rfl

theorem ratAdd_comm (m : Mode) (a b : RationalNum) : a.add m b = b.add m a := by
  have key : ∀ a b : RationalNum, a.add m b =
      (do
        let x ← (do i64Mul m (← castI64 m (← u64Mul m a.nominator b.denominator)) a.sign)
        let y ← (do i64Mul m (← castI64 m (← u64Mul m a.denominator b.nominator)) b.sign)
        let s ← i64Add m x y
        let n ← i64Abs m s
        let d ← u64Mul m a.denominator b.denominator
        return (RationalNum.mk (i64Signum s) (castU64 n) d).reduce) := by
    intro a b; unfold RationalNum.add; simp only [Res.bind_assoc]
  rw [key a b, key b a, Res.bind_comm]
  simp only [u64Mul_comm m b.nominator, u64Mul_comm m b.denominator]
  congr 1; funext x; congr 1; funext y
  rw [i64Add_comm]

theorem ratMul_comm (m : Mode) (a b : RationalNum) : a.mul m b = b.mul m a := by
  unfold RationalNum.mul
  rw [i64Mul_comm m a.sign, u64Mul_comm m a.nominator, u64Mul_comm m a.denominator]

theorem valAdd_comm (law : FloatComm F) (m : Mode) (a b : SmartNumVal F) : a.add m b = b.add m a := by
  unfold SmartNumVal.add
  cases a <;> cases b <;> simp only
  · rw [i64Add_comm]
  · congr 1; funext x; rw [ratAdd_comm]
  · rw [law.1]
  · congr 1; funext x; rw [ratAdd_comm]
  · rw [ratAdd_comm]
  · rw [law.1]
  · rw [law.1]
  · rw [law.1]
  · rw [law.1]

theorem valMul_comm (law : FloatComm F) (m : Mode) (a b : SmartNumVal F) : a.mul m b = b.mul m a := by
  unfold SmartNumVal.mul
  rw [Bool.or_comm]
  split
  · rfl
  cases a <;> cases b <;> simp only
  · rw [i64Mul_comm]
  · congr 1; funext x; rw [ratMul_comm]
  · rw [law.2]
  · congr 1; funext x; rw [ratMul_comm]
  · rw [ratMul_comm]
  · rw [law.2]
  · rw [law.2]
  · rw [law.2]
  · rw [law.2]

/-- `x + y` and `y + x` are the same outcome in every build, except that the sum of two exact zeros is
the right one of the two (same value, possibly another representation). -/
theorem C18_add_comm (law : FloatComm F) (m : Mode) (x y : SmartNum F)
    (h : ¬ (x.isZero = true ∧ y.isZero = true)) : x.add m y = y.add m x := by
  unfold SmartNum.add
  cases hx : x.isZero <;> cases hy : y.isZero <;> simp [hx, hy] at h ⊢
  rw [valAdd_comm law]

theorem C18_mul_comm (law : FloatComm F) (m : Mode) (x y : SmartNum F)
    (h : ¬ (x.isOne = true ∧ y.isOne = true)) : x.mul m y = y.mul m x := by
  unfold SmartNum.mul
  cases hx : x.isOne <;> cases hy : y.isOne <;> simp [hx, hy] at h ⊢
  rw [valMul_comm law]

theorem C18_zero_zero (m : Mode) (x y : SmartNum F) (hx : x.isZero = true) (hy : y.isZero = true) :
    x.add m y = .ok y ∧ y.add m x = .ok x := ⟨C11_zero_add m x y hx, C11_zero_add m y x hy⟩

theorem C18_one_one (m : Mode) (x y : SmartNum F) (hx : x.isOne = true) (hy : y.isOne = true) :
    x.mul m y = .ok y ∧ y.mul m x = .ok x := ⟨C11_one_mul m x y hx, C11_one_mul m y x hy⟩

example : FloatComm Unit := ⟨fun _ _ => rfl, fun _ _ => rfl⟩

end SymRust
