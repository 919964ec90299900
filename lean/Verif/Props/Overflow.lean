import Verif.Spec.Overflow
import Verif.Props.Number
import Verif.Proofs.Kernel
import Mathlib.Tactic.LinearCombination
/-! # What overflow does to exact numbers: property C77 -/

namespace SymRust
variable {F : Type}
open SmartNum (wrapVal)

theorem wraps_bmod (z : ℤ) : WrapsTo z (z.bmod (2 ^ 64)) := by
  refine ⟨?_, ?_⟩
  · have h1 := Int.le_bmod (x := z) (m := 2 ^ 64) (by norm_num)
    have h2 := Int.bmod_lt (x := z) (m := 2 ^ 64) (by norm_num)
    unfold InI64; omega
  · have := Int.bmod_emod (x := z) (m := 2 ^ 64)
    have h2 : (z - z.bmod (2 ^ 64)) % (18446744073709551616 : ℤ) = 0 := by omega
    exact Int.dvd_of_emod_eq_zero h2

theorem WrapsTo.congr {z z' w : ℤ} (h : WrapsTo z w) (hd : (18446744073709551616 : ℤ) ∣ z' - z) : WrapsTo z' w := by
  refine ⟨h.1, ?_⟩
  have := Int.dvd_add hd h.2
  rwa [show z' - z + (z - w) = z' - w from by ring] at this

theorem WrapsTo.unique {z w w' : ℤ} (h : WrapsTo z w) (h' : WrapsTo z w') : w = w' := by
  obtain ⟨⟨h1, h2⟩, k, hk⟩ := h
  obtain ⟨⟨h3, h4⟩, l, hl⟩ := h'
  omega

theorem wraps_self {z : ℤ} (h : InI64 z) : WrapsTo z z := ⟨h, by simp⟩

theorem i64_bounds (a : Int64) : -9223372036854775808 ≤ a.toInt ∧ a.toInt ≤ 9223372036854775807 := Int64.inI64_toInt a

theorem checked_iff {α : Type} {m : Mode} (hm : m ≠ .release) {p : Prop} [Decidable p] {w c : α} :
    checked m p w = .ok c ↔ p ∧ c = w :=
  ⟨fun h => ⟨checked_ok_fits hm h, checked_ok h⟩, fun ⟨h, e⟩ => e ▸ checked_of_fits m w h⟩

/-- `a.abs() as u64` is the absolute value, also of `i64::MIN`. -/
theorem abs_cast_wrap (a : Int64) : (castU64 (if a < 0 then -a else a)).toNat = a.toInt.natAbs := by
  by_cases h : a = i64Min
  · subst h; decide
  · have h' := (abs_fits_iff a).2 h
    have e := absW_toInt h'
    have := castU64_toNat (a := if a < 0 then -a else a) (by rw [e]; omega)
    rw [e] at this
    exact_mod_cast this

theorem wraps_add (a b : Int64) : WrapsTo (a.toInt + b.toInt) (a + b).toInt := by
  rw [Int64.toInt_add]; exact wraps_bmod _
theorem wraps_sub (a b : Int64) : WrapsTo (a.toInt - b.toInt) (a - b).toInt := by
  rw [Int64.toInt_sub]; exact wraps_bmod _
theorem wraps_mul (a b : Int64) : WrapsTo (a.toInt * b.toInt) (a * b).toInt := by
  rw [Int64.toInt_mul]; exact wraps_bmod _
theorem wraps_neg (a : Int64) : WrapsTo (-a.toInt) (-a).toInt := by
  rw [Int64.toInt_neg]; exact wraps_bmod _

/-! ## integers -/

section
variable [FloatOps F]

theorem wrapVal_int (i : Int64) : (wrapVal (.integer i : SmartNumVal F)).toI64 = some i := by
  unfold wrapVal
  split
  · rename_i h; simp [SmartNumVal.isZero] at h; subst h; rfl
  · split
    · rename_i h; simp [SmartNumVal.isOne] at h; subst h; rfl
    · rfl

theorem int_isZero {x : SmartNum F} (hx : x.Valid) {i : Int64} (hi : x.value = .integer i) : x.isZero = true ↔ i = 0 := by
  rw [hx.zero_iff, SmartNum.exact?, hi, i64_eq_zero_iff]
  simp [SmartNumVal.exact?]
theorem int_isOne {x : SmartNum F} (hx : x.Valid) {i : Int64} (hi : x.value = .integer i) : x.isOne = true ↔ i = 1 := by
  rw [hx.one_iff, SmartNum.exact?, hi, i64_eq_one_iff]
  simp [SmartNumVal.exact?]

theorem intSpec_checked {e : ℤ} {w : Int64} (hw : WrapsTo e w.toInt) :
    IntSpec (fun m => do return wrapVal (.integer (← checked m (InI64 e) w)) : Mode → Res (SmartNum F)) e := by
  refine ⟨fun m hm => ?_, _, w, ?_, wrapVal_int w, hw⟩
  · simp only [Res.bind_eq_ok, checked_iff hm]
    constructor
    · rintro ⟨z, a, ⟨h, -⟩, -⟩; exact h
    · exact fun h => ⟨_, _, ⟨h, rfl⟩, rfl⟩
  · show (checked .release _ w >>= _) = _
    rw [checked_release]; rfl

theorem intSpec_const {z : SmartNum F} {k : Int64} (hz : z.toI64 = some k) {e : ℤ} (he : e = k.toInt) :
    IntSpec (fun _ => .ok z) e := by
  subst he
  exact ⟨fun m _ => ⟨fun _ => Int64.inI64_toInt k, fun _ => ⟨z, rfl⟩⟩, z, k, rfl, hz, wraps_self (Int64.inI64_toInt k)⟩

/-- C77, integers: `+`, `-`, `*` and unary `-` on integers `i` and `j`. -/
theorem C77_integers (x y : SmartNum F) (hx : x.Valid) (hy : y.Valid) (i j : Int64) (hi : x.toI64 = some i)
    (hj : y.toI64 = some j) :
    IntSpec (fun m => x.add m y) (i.toInt + j.toInt) ∧ IntSpec (fun m => x.sub m y) (i.toInt - j.toInt) ∧
    IntSpec (fun m => x.mul m y) (i.toInt * j.toInt) ∧ IntSpec (fun m => x.neg m) (-i.toInt) := by
  have hi' := (C15_toI64_iff x i).1 hi
  have hj' := (C15_toI64_iff y j).1 hj
  have hn : ∀ {x : SmartNum F} {i : Int64}, x.value = .integer i → IntSpec (fun m => x.neg m) (-i.toInt) := fun {x i} h => by
    have : (fun m => x.neg m) = fun m => do return wrapVal (.integer (← checked m (InI64 (-i.toInt)) (-i))) := by
      funext m
      simp only [SmartNum.neg, h, SmartNumVal.neg, i64Neg]
      cases checked m (InI64 (-i.toInt)) (-i) <;> rfl
    rw [this]; exact intSpec_checked (wraps_neg i)
  refine ⟨?_, ?_, ?_, hn hi'⟩
  · by_cases h0 : x.isZero = true
    · have : (fun m => x.add m y) = fun _ => .ok y := by funext m; simp [SmartNum.add, h0]
      rw [this]
      refine intSpec_const hj ?_
      rw [(int_isZero hx hi').1 h0]; simp
    by_cases h1 : y.isZero = true
    · have : (fun m => x.add m y) = fun _ => .ok x := by funext m; simp [SmartNum.add, h0, h1]
      rw [this]
      refine intSpec_const hi ?_
      rw [(int_isZero hy hj').1 h1]; simp
    have : (fun m => x.add m y) = fun m => do return wrapVal (.integer (← checked m (InI64 (i.toInt + j.toInt)) (i + j))) := by
      funext m
      simp only [SmartNum.add, h0, h1, hi', hj', SmartNumVal.add, i64Add]
      cases checked m (InI64 (i.toInt + j.toInt)) (i + j) <;> rfl
    rw [this]; exact intSpec_checked (wraps_add i j)
  · by_cases h0 : x.isZero = true
    · have : (fun m => x.sub m y) = fun m => y.neg m := by funext m; simp [SmartNum.sub, h0]
      rw [this, (int_isZero hx hi').1 h0]
      simpa using hn hj'
    by_cases h1 : y.isZero = true
    · have : (fun m => x.sub m y) = fun _ => .ok x := by funext m; simp [SmartNum.sub, h0, h1]
      rw [this]
      refine intSpec_const hi ?_
      rw [(int_isZero hy hj').1 h1]; simp
    have : (fun m => x.sub m y) = fun m => do return wrapVal (.integer (← checked m (InI64 (i.toInt - j.toInt)) (i - j))) := by
      funext m
      simp only [SmartNum.sub, h0, h1, hi', hj', SmartNumVal.sub, i64Sub]
      cases checked m (InI64 (i.toInt - j.toInt)) (i - j) <;> rfl
    rw [this]; exact intSpec_checked (wraps_sub i j)
  · by_cases h0 : x.isOne = true
    · have : (fun m => x.mul m y) = fun _ => .ok y := by funext m; simp [SmartNum.mul, h0]
      rw [this]
      refine intSpec_const hj ?_
      rw [(int_isOne hx hi').1 h0]; simp
    by_cases h1 : y.isOne = true
    · have : (fun m => x.mul m y) = fun _ => .ok x := by funext m; simp [SmartNum.mul, h0, h1]
      rw [this]
      refine intSpec_const hi ?_
      rw [(int_isOne hy hj').1 h1]; simp
    by_cases hz : i = 0 ∨ j = 0
    · have : (fun m => x.mul m y) = fun _ => .ok (wrapVal (.integer 0)) := by
        funext m
        have : ((SmartNumVal.integer i : SmartNumVal F).isZero || (SmartNumVal.integer j : SmartNumVal F).isZero) = true := by
          simpa [SmartNumVal.isZero] using hz
        simp only [SmartNum.mul, h0, h1, hi', hj', SmartNumVal.mul, this]
        rfl
      rw [this]
      refine intSpec_const (wrapVal_int 0) ?_
      rcases hz with rfl | rfl <;> simp
    have : (fun m => x.mul m y) = fun m => do return wrapVal (.integer (← checked m (InI64 (i.toInt * j.toInt)) (i * j))) := by
      funext m
      have : ((SmartNumVal.integer i : SmartNumVal F).isZero || (SmartNumVal.integer j : SmartNumVal F).isZero) = false := by
        simp only [SmartNumVal.isZero, Bool.or_eq_false_iff, beq_eq_false_iff_ne]; tauto
      simp only [SmartNum.mul, h0, h1, hi', hj', SmartNumVal.mul, i64Mul, this]
      cases checked m (InI64 (i.toInt * j.toInt)) (i * j) <;> rfl
    rw [this]; exact intSpec_checked (wraps_mul i j)

end

/-! ## fractions -/

namespace RationalNum

theorem stores_reduce (x : RationalNum) : x.reduce.Stores x.nominator.toNat x.denominator.toNat := by
  have : x.red = max 1 (Nat.gcd x.nominator.toNat x.denominator.toNat) := by
    unfold red; split <;> omega
  exact ⟨by rw [reduce_nominator, this], by rw [reduce_denominator, this]⟩

theorem mul_toNat (a b : UInt64) : (a * b).toNat = a.toNat * b.toNat % 18446744073709551616 := by
  rw [UInt64.toNat_mul]

theorem Signed.fits {a b : RationalNum} (ha : a.Signed) (hb : b.Signed) :
    InI64 (a.sign.toInt * b.sign.toInt) := by
  rcases ha with h | h | h <;> rcases hb with h' | h' | h' <;> rw [h, h'] <;> decide

theorem Signed.toInt {a : RationalNum} (ha : a.Signed) : a.sign.toInt = 1 ∨ a.sign.toInt = -1 ∨ a.sign.toInt = 0 := by
  rcases ha with h | h | h <;> rw [h] <;> decide

end RationalNum
open RationalNum in
/-- C77, products and quotients of fractions. -/
theorem C77_mul_div (a b : RationalNum) (ha : a.Signed) (hb : b.Signed) :
    (∃ c, a.mul .release b = .ok c ∧ c.sign = a.sign * b.sign ∧
      c.Stores (a.nominator.toNat * b.nominator.toNat % 2 ^ 64) (a.denominator.toNat * b.denominator.toNat % 2 ^ 64)) ∧
    (∃ c, a.div .release b = .ok c ∧ c.sign = a.sign * b.sign ∧
      c.Stores (a.nominator.toNat * b.denominator.toNat % 2 ^ 64) (a.denominator.toNat * b.nominator.toNat % 2 ^ 64)) ∧
    ∀ m ≠ .release,
      ((∃ c, a.mul m b = .ok c) ↔
        a.nominator.toNat * b.nominator.toNat < 2 ^ 64 ∧ a.denominator.toNat * b.denominator.toNat < 2 ^ 64) ∧
      ((∃ c, a.div m b = .ok c) ↔
        a.nominator.toNat * b.denominator.toNat < 2 ^ 64 ∧ a.denominator.toNat * b.nominator.toNat < 2 ^ 64) := by
  have hs := ha.fits hb
  have hU : ∀ n : ℕ, InU64 n ↔ n < 2 ^ 64 := fun n => by unfold InU64; omega
  refine ⟨⟨(RationalNum.mk (a.sign * b.sign) (a.nominator * b.nominator) (a.denominator * b.denominator)).reduce, ?_, rfl, ?_⟩,
    ⟨(RationalNum.mk (a.sign * b.sign) (a.nominator * b.denominator) (a.denominator * b.nominator)).reduce, ?_, rfl, ?_⟩,
    fun m hm => ⟨?_, ?_⟩⟩
  · unfold mul; rw [i64Mul_release, u64Mul_release, u64Mul_release]; rfl
  · have := stores_reduce (RationalNum.mk (a.sign * b.sign) (a.nominator * b.nominator) (a.denominator * b.denominator))
    rwa [mul_toNat, mul_toNat] at this
  · unfold div; rw [i64Mul_release, u64Mul_release, u64Mul_release]; rfl
  · have := stores_reduce (RationalNum.mk (a.sign * b.sign) (a.nominator * b.denominator) (a.denominator * b.nominator))
    rwa [mul_toNat, mul_toNat] at this
  · simp only [mul, i64Mul, u64Mul, Res.bind_eq_ok, checked_iff hm, hU]
    constructor
    · rintro ⟨_, _, -, _, ⟨h1, -⟩, _, ⟨h2, -⟩, -⟩; exact ⟨h1, h2⟩
    · rintro ⟨h1, h2⟩; exact ⟨_, _, ⟨hs, rfl⟩, _, ⟨h1, rfl⟩, _, ⟨h2, rfl⟩, rfl⟩
  · simp only [div, i64Mul, u64Mul, Res.bind_eq_ok, checked_iff hm, hU]
    constructor
    · rintro ⟨_, _, -, _, ⟨h1, -⟩, _, ⟨h2, -⟩, -⟩; exact ⟨h1, h2⟩
    · rintro ⟨h1, h2⟩; exact ⟨_, _, ⟨hs, rfl⟩, _, ⟨h1, rfl⟩, _, ⟨h2, rfl⟩, rfl⟩

namespace RationalNum

theorem ofI64_wrap (i : Int64) : ∃ r, ofI64 .release i = .ok r ∧ r.Valid ∧ r.denominator = 1 ∧
    r.nominator.toNat = i.toInt.natAbs ∧ r.value = i.toInt := by
  have hn := abs_cast_wrap i
  refine ⟨⟨if i = 0 then 1 else i64Signum i, castU64 (if i < 0 then -i else i), 1⟩, ?_, ⟨?_, by show (1 : UInt64) ≠ 0; decide⟩, rfl, hn, ?_⟩
  · unfold ofI64; rw [i64Abs_release]; rfl
  · dsimp only
    split
    · exact .inl rfl
    · rename_i h0
      rcases signum_cases i with h | h | h
      · exact .inl h
      · exact .inr h
      · exact absurd h.2 h0
  · unfold value
    dsimp only
    rw [hn]
    split
    · rename_i h0; subst h0; simp
    · rw [i64Signum_toInt]
      have := @sumValue i.toInt i.toInt 1 rfl
      simpa using this

theorem ofI64_iff {m : Mode} (hm : m ≠ .release) (i : Int64) : (∃ r, ofI64 m i = .ok r) ↔ i ≠ i64Min := by
  rw [← abs_fits_iff]
  simp only [ofI64, i64Abs, Res.bind_eq_ok, checked_iff hm]
  exact ⟨fun ⟨_, _, ⟨h, _⟩, _⟩ => h, fun h => ⟨_, _, ⟨h, rfl⟩, rfl⟩⟩

theorem cast_wraps (a b : UInt64) : WrapsTo ((a.toNat : ℤ) * b.toNat) (a * b).toInt64.toInt := by
  rw [toInt64_toInt, mul_toNat]
  refine (wraps_bmod _).congr ?_
  push_cast
  exact Int.dvd_self_sub_emod

theorem term_wraps (a b : UInt64) (s : Int64) :
    (18446744073709551616 : ℤ) ∣ (s.toInt * (a.toNat * b.toNat) - ((a * b).toInt64 * s).toInt) := by
  obtain ⟨-, k, hk⟩ := cast_wraps a b
  obtain ⟨-, l, hl⟩ := wraps_mul (a * b).toInt64 s
  exact ⟨s.toInt * k + l, by linear_combination s.toInt * hk + hl⟩

theorem finish_stores (S : Int64) (d : UInt64) :
    (RationalNum.mk (i64Signum S) (castU64 (if S < 0 then -S else S)) d).reduce.sign.toInt = S.toInt.sign ∧
    (RationalNum.mk (i64Signum S) (castU64 (if S < 0 then -S else S)) d).reduce.Stores S.toInt.natAbs d.toNat := by
  refine ⟨i64Signum_toInt S, ?_⟩
  have := stores_reduce (RationalNum.mk (i64Signum S) (castU64 (if S < 0 then -S else S)) d)
  rwa [abs_cast_wrap] at this

end RationalNum
open RationalNum in
/-- C77, sums and differences of fractions in a release build: modulo 2^64. -/
theorem C77_add_sub (a b : RationalNum) :
    (∃ c S, a.add .release b = .ok c ∧ c.sign.toInt = S.sign ∧
      WrapsTo (a.sign.toInt * (a.nominator.toNat * b.denominator.toNat) +
        b.sign.toInt * (a.denominator.toNat * b.nominator.toNat)) S ∧
      c.Stores S.natAbs (a.denominator.toNat * b.denominator.toNat % 2 ^ 64)) ∧
    (∃ c S, a.sub .release b = .ok c ∧ c.sign.toInt = S.sign ∧
      WrapsTo (a.sign.toInt * (a.nominator.toNat * b.denominator.toNat) -
        b.sign.toInt * (a.denominator.toNat * b.nominator.toNat)) S ∧
      c.Stores S.natAbs (a.denominator.toNat * b.denominator.toNat % 2 ^ 64)) := by
  obtain ⟨k, hk⟩ := term_wraps a.nominator b.denominator a.sign
  obtain ⟨l, hl⟩ := term_wraps a.denominator b.nominator b.sign
  constructor
  · obtain ⟨h1, h2⟩ := finish_stores ((a.nominator * b.denominator).toInt64 * a.sign +
      (a.denominator * b.nominator).toInt64 * b.sign) (a.denominator * b.denominator)
    rw [mul_toNat] at h2
    refine ⟨_, _, ?_, h1, (wraps_add _ _).congr ⟨k + l, ?_⟩, h2⟩
    · simp only [add, u64Mul_release, castI64_release, i64Mul_release, i64Add_release, i64Abs_release, Res.ok_bind, Res.pure_eq]
    · linear_combination hk + hl
  · obtain ⟨h1, h2⟩ := finish_stores ((a.nominator * b.denominator).toInt64 * a.sign -
      (a.denominator * b.nominator).toInt64 * b.sign) (a.denominator * b.denominator)
    rw [mul_toNat] at h2
    refine ⟨_, _, ?_, h1, (wraps_sub _ _).congr ⟨k - l, ?_⟩, h2⟩
    · simp only [sub, u64Mul_release, castI64_release, i64Mul_release, i64Sub_release, i64Abs_release, Res.ok_bind, Res.pure_eq]
    · linear_combination hk - hl

namespace RationalNum

end RationalNum
open RationalNum in
/-- Whether a sum or difference of fractions overflows: the cross products, cast to `i64`, are `A` and `B`. -/
theorem C77_add_sub_panics (a b : RationalNum) (A B : ℤ)
    (hA : WrapsTo (a.nominator.toNat * b.denominator.toNat) A) (hB : WrapsTo (a.denominator.toNat * b.nominator.toNat) B) :
    ((∃ c, a.add .debug b = .ok c) ↔ a.nominator.toNat * b.denominator.toNat < 2 ^ 64 ∧
      a.denominator.toNat * b.nominator.toNat < 2 ^ 64 ∧ a.denominator.toNat * b.denominator.toNat < 2 ^ 64 ∧
      InI64 (a.sign.toInt * A) ∧ InI64 (b.sign.toInt * B) ∧ |a.sign.toInt * A + b.sign.toInt * B| < 2 ^ 63) ∧
    ((∃ c, a.sub .debug b = .ok c) ↔ a.nominator.toNat * b.denominator.toNat < 2 ^ 64 ∧
      a.denominator.toNat * b.nominator.toNat < 2 ^ 64 ∧ a.denominator.toNat * b.denominator.toNat < 2 ^ 64 ∧
      InI64 (a.sign.toInt * A) ∧ InI64 (b.sign.toInt * B) ∧ |a.sign.toInt * A - b.sign.toInt * B| < 2 ^ 63) := by
  obtain rfl := hA.unique (cast_wraps a.nominator b.denominator)
  obtain rfl := hB.unique (cast_wraps a.denominator b.nominator)
  have hU : ∀ n : ℕ, InU64 n ↔ n < 2 ^ 64 := fun n => by unfold InU64; omega
  have hc : ∀ u : UInt64, castI64 .debug u = .ok u.toInt64 := fun _ => rfl
  have hm : Mode.debug ≠ .release := by simp
  have ev : ∀ {x s : Int64}, InI64 (x.toInt * s.toInt) → (x * s).toInt = s.toInt * x.toInt := fun {x s} h => by
    rw [Int64.toInt_mul, bmod_eq_of_inI64 h, mul_comm]
  constructor
  · simp only [add, i64Mul, u64Mul, i64Add, i64Abs, Res.bind_eq_ok, checked_iff hm, hU, hc, Res.ok.injEq]
    constructor
    · rintro ⟨_, _, ⟨h1, rfl⟩, _, rfl, _, ⟨h2, rfl⟩, _, ⟨h3, rfl⟩, _, rfl, _, ⟨h4, rfl⟩, _, ⟨h5, rfl⟩, _, ⟨h6, rfl⟩, _, ⟨h7, rfl⟩, -⟩
      rw [Int64.toInt_add, bmod_eq_of_inI64 h5, ev h2, ev h4] at h6
      rw [mul_comm] at h2 h4
      refine ⟨h1, h3, h7, h2, h4, ?_⟩
      unfold InI64 at h6
      rw [Int.abs_eq_natAbs]
      omega
    · rintro ⟨h1, h3, h7, h2, h4, h5⟩
      rw [abs_lt] at h5
      have h2' := h2
      have h4' := h4
      rw [mul_comm] at h2' h4'
      have e5 : InI64 (((a.nominator * b.denominator).toInt64 * a.sign).toInt + ((a.denominator * b.nominator).toInt64 * b.sign).toInt) := by
        rw [ev h2', ev h4']; unfold InI64; omega
      refine ⟨_, _, ⟨h1, rfl⟩, _, rfl, _, ⟨h2', rfl⟩, _, ⟨h3, rfl⟩, _, rfl, _, ⟨h4', rfl⟩, _, ⟨e5, rfl⟩, _, ⟨?_, rfl⟩, _, ⟨h7, rfl⟩, rfl⟩
      rw [Int64.toInt_add, bmod_eq_of_inI64 e5, ev h2', ev h4']; unfold InI64; omega
  · simp only [sub, i64Mul, u64Mul, i64Sub, i64Abs, Res.bind_eq_ok, checked_iff hm, hU, hc, Res.ok.injEq]
    constructor
    · rintro ⟨_, _, ⟨h1, rfl⟩, _, rfl, _, ⟨h2, rfl⟩, _, ⟨h3, rfl⟩, _, rfl, _, ⟨h4, rfl⟩, _, ⟨h5, rfl⟩, _, ⟨h6, rfl⟩, _, ⟨h7, rfl⟩, -⟩
      rw [Int64.toInt_sub, bmod_eq_of_inI64 h5, ev h2, ev h4] at h6
      rw [mul_comm] at h2 h4
      refine ⟨h1, h3, h7, h2, h4, ?_⟩
      unfold InI64 at h6
      rw [Int.abs_eq_natAbs]
      omega
    · rintro ⟨h1, h3, h7, h2, h4, h5⟩
      rw [abs_lt] at h5
      have h2' := h2
      have h4' := h4
      rw [mul_comm] at h2' h4'
      have e5 : InI64 (((a.nominator * b.denominator).toInt64 * a.sign).toInt - ((a.denominator * b.nominator).toInt64 * b.sign).toInt) := by
        rw [ev h2', ev h4']; unfold InI64; omega
      refine ⟨_, _, ⟨h1, rfl⟩, _, rfl, _, ⟨h2', rfl⟩, _, ⟨h3, rfl⟩, _, rfl, _, ⟨h4', rfl⟩, _, ⟨e5, rfl⟩, _, ⟨?_, rfl⟩, _, ⟨h7, rfl⟩, rfl⟩
      rw [Int64.toInt_sub, bmod_eq_of_inI64 e5, ev h2', ev h4']; unfold InI64; omega

namespace RationalNum

theorem key {p q d i j k : Prop} (_ : p) (_ : q) (_ : i) (_ : j) : ¬ (p ∧ q ∧ d ∧ i ∧ j ∧ k) ↔ ¬ d ∨ ¬ k := by tauto

end RationalNum
open RationalNum in
/-- The case of cross products that fit in an `i64`: `+` and `-` panic in a debug build exactly if the product `D` of the
denominators reaches 2^64 or the exact result, times `D`, reaches 2^63. -/
theorem C77_panics_iff (a b : RationalNum) (ha : a.Valid) (hb : b.Valid) (hc : CrossFits a b) :
    (a.add .debug b = .panic ↔ 2 ^ 64 ≤ a.denominator.toNat * b.denominator.toNat ∨
      2 ^ 63 ≤ |(a.value + b.value) * (a.denominator.toNat * b.denominator.toNat)|) ∧
    (a.sub .debug b = .panic ↔ 2 ^ 64 ≤ a.denominator.toNat * b.denominator.toNat ∨
      2 ^ 63 ≤ |(a.value - b.value) * (a.denominator.toNat * b.denominator.toNat)|) := by
  have hI : ∀ n : ℕ, n ≤ 9223372036854775807 → InI64 (n : ℤ) := fun n h => by unfold InI64; omega
  have hA : WrapsTo (a.nominator.toNat * b.denominator.toNat) ((a.nominator.toNat * b.denominator.toNat : ℕ) : ℤ) := by
    have := wraps_self (hI _ hc.1); push_cast at this ⊢; exact this
  have hB : WrapsTo (a.denominator.toNat * b.nominator.toNat) ((a.denominator.toNat * b.nominator.toNat : ℕ) : ℤ) := by
    have := wraps_self (hI _ hc.2); push_cast at this ⊢; exact this
  obtain ⟨h1, h2⟩ := C77_add_sub_panics a b _ _ hA hB
  have np : ∀ r : Res RationalNum, r = .panic ↔ ¬ ∃ c, r = .ok c := fun r => by cases r <;> simp
  obtain ⟨c1, c2⟩ := hc
  have hs : ∀ {s n : ℤ}, (s = 1 ∨ s = -1) → 0 ≤ n → n ≤ 9223372036854775807 → InI64 (s * n) := by
    rintro s n (rfl | rfl) h0 h1 <;> unfold InI64 <;> omega
  have i1 := hs ha.sign_toInt (by positivity) (by exact_mod_cast c1 : ((a.nominator.toNat * b.denominator.toNat : ℕ) : ℤ) ≤ 9223372036854775807)
  have i2 := hs hb.sign_toInt (by positivity) (by exact_mod_cast c2 : ((a.denominator.toNat * b.nominator.toNat : ℕ) : ℤ) ≤ 9223372036854775807)
  have d1 := den_cast_ne ha.2
  have d2 := den_cast_ne hb.2
  have e1 : (a.value + b.value) * (a.denominator.toNat * b.denominator.toNat) =
      ((a.sign.toInt * ((a.nominator.toNat * b.denominator.toNat : ℕ) : ℤ) +
        b.sign.toInt * ((a.denominator.toNat * b.nominator.toNat : ℕ) : ℤ) : ℤ) : ℚ) := by
    unfold value; push_cast; field_simp
  have e2 : (a.value - b.value) * (a.denominator.toNat * b.denominator.toNat) =
      ((a.sign.toInt * ((a.nominator.toNat * b.denominator.toNat : ℕ) : ℤ) -
        b.sign.toInt * ((a.denominator.toNat * b.nominator.toNat : ℕ) : ℤ) : ℤ) : ℚ) := by
    unfold value; push_cast; field_simp
  have cast : ∀ z : ℤ, (2 ^ 63 : ℚ) ≤ |(z : ℚ)| ↔ ¬ |z| < 2 ^ 63 := fun z => by
    rw [not_lt, ← Int.cast_abs, show (2 ^ 63 : ℚ) = ((2 ^ 63 : ℤ) : ℚ) from by push_cast; rfl, Int.cast_le]
  have hd : ∀ n : ℕ, 2 ^ 64 ≤ n ↔ ¬ n < 2 ^ 64 := fun n => not_lt.symm
  rw [np, np, h1, h2, e1, e2, cast, cast, hd]
  have l1 : a.nominator.toNat * b.denominator.toNat < 2 ^ 64 := by omega
  have l2 : a.denominator.toNat * b.nominator.toNat < 2 ^ 64 := by omega
  exact ⟨key l1 l2 i1 i2, key l1 l2 i1 i2⟩

namespace RationalNum

end RationalNum

section
variable [FloatOps F]

/-- C77, integers: a quotient of integers by a nonzero integer is exact in every build that returns one; in a release build there always is one, in an
overflow-checking build unless one of them is i64::MIN (and the dividend not 0). -/
theorem C77_integer_quotient (x y : SmartNum F) (hx : x.Valid) (i j : Int64) (hi : x.toI64 = some i)
    (hj : y.toI64 = some j) (h0 : j ≠ 0) :
    (∃ z, x.div .release y = .ok z) ∧
    (∀ m ≠ .release, (∃ z, x.div m y = .ok z) ↔ i = 0 ∨ (i ≠ i64Min ∧ j ≠ i64Min)) ∧
    ∀ m z, x.div m y = .ok z → z.exact? = some ((i.toInt : ℚ) / j.toInt) := by
  have hi' := (C15_toI64_iff x i).1 hi
  have hj' := (C15_toI64_iff y j).1 hj
  by_cases hz : i = 0
  · have h : ∀ m, x.div m y = .ok SmartNum.zero := fun m =>
      C11_zero_div m x y hx ((int_isZero hx hi').2 hz)
    refine ⟨⟨_, h _⟩, fun m _ => ⟨fun _ => .inl hz, fun _ => ⟨_, h m⟩⟩, fun m z hz' => ?_⟩
    rw [h m] at hz'; cases hz'
    subst hz
    simp [SmartNum.exact?, SmartNum.zero, SmartNumVal.exact?]
  have hv : (SmartNumVal.integer i : SmartNumVal F).isZero = false := by simpa [SmartNumVal.isZero] using hz
  obtain ⟨r, hr, vr, dr, nr, er⟩ := RationalNum.ofI64_wrap i
  obtain ⟨t, ht, vt, dt, nt, et⟩ := RationalNum.ofI64_wrap j
  have lt64 : ∀ k : Int64, k.toInt.natAbs < 2 ^ 64 := fun k => by have := i64_bounds k; omega
  have hdiv : ∀ m, ∃ c, r.div m t = .ok c := by
    intro m
    obtain ⟨-, ⟨c, hc, -⟩, h⟩ := C77_mul_div r t (vr.1.imp id .inl) (vt.1.imp id .inl)
    by_cases hm : m = .release
    · subst hm; exact ⟨c, hc⟩
    · refine (h m hm).2.2 ⟨?_, ?_⟩
      · rw [nr, dt]; simpa using lt64 i
      · rw [nt, dr]; simpa using lt64 j
  have hdm : ∀ m, x.div m y = (do
      let r ← RationalNum.ofI64 m i
      let t ← RationalNum.ofI64 m j
      let c ← r.div m t
      return wrapVal (.rational c)) := fun m => by
    simp only [SmartNum.div, hi', hj', SmartNumVal.div, hv, Bool.false_eq_true, if_false]
    cases RationalNum.ofI64 m i with
    | panic => rfl
    | ok r =>
      cases RationalNum.ofI64 m j with
      | panic => rfl
      | ok t => cases hc : r.div m t <;> simp [hc]
  have hrel : ∀ {m : Mode} {k : Int64} {r r' : RationalNum}, RationalNum.ofI64 m k = .ok r →
      RationalNum.ofI64 .release k = .ok r' → r = r' := fun {m k r r'} h h' => by
    have := RationalNum.ofI64_mono (Mode.le_release m) k r h
    rw [h'] at this; cases this; rfl
  obtain ⟨c, hc⟩ := hdiv .debug
  have hcm : ∀ {m c'}, r.div m t = .ok c' → c' = c := fun {m c'} h => by
    have h1 := RationalNum.div_mono (Mode.le_release m) r t c' h
    have h2 := RationalNum.div_mono (Mode.le_release .debug) r t c hc
    rw [h1] at h2; cases h2; rfl
  have tn : t.nominator ≠ 0 := by
    rw [Ne, u64_eq_zero_iff, nt]
    rw [Ne, i64_eq_zero_iff] at h0; omega
  obtain ⟨ec, -, dc, sc⟩ := RationalNum.div_exact (by simp) vr.2 vt tn hc
  have hex : (wrapVal (.rational c : SmartNumVal F)).exact? = some ((i.toInt : ℚ) / j.toInt) := by
    refine SmartNum.exact_wrapVal ?_ ?_
    · rintro _ ⟨⟩
      exact RationalNum.div_signOK vr.storedOK.signOK vt.storedOK hc
    · simp [SmartNumVal.exact?, dc, ec, er, et]
  refine ⟨?_, fun m hm => ?_, fun m z hz' => ?_⟩
  · obtain ⟨c', hc'⟩ := hdiv .release
    exact ⟨_, by rw [hdm, hr, ht, Res.ok_bind, Res.ok_bind, hc']; rfl⟩
  · rw [hdm, or_iff_right hz, ← RationalNum.ofI64_iff hm, ← RationalNum.ofI64_iff hm]
    constructor
    · rintro ⟨z, hz'⟩
      simp only [Res.bind_eq_ok] at hz'
      obtain ⟨r', h1, t', h2, -⟩ := hz'
      exact ⟨⟨_, h1⟩, ⟨_, h2⟩⟩
    · rintro ⟨⟨r', h1⟩, ⟨t', h2⟩⟩
      cases hrel h1 hr
      cases hrel h2 ht
      obtain ⟨c', hc'⟩ := hdiv m
      exact ⟨_, by rw [h1, h2, Res.ok_bind, Res.ok_bind, hc']; rfl⟩
  · rw [hdm] at hz'
    simp only [Res.bind_eq_ok] at hz'
    obtain ⟨r', h1, t', h2, c', h3, h4⟩ := hz'
    cases hrel h1 hr
    cases hrel h2 ht
    cases hcm h3
    cases h4
    exact hex


/-- C77, witnesses: in a release build 2^32 * 2^32 is 0 and 1/2^32 * 1/2^32 is 1/0, while a debug build panics; the
largest i64 plus 1 is the smallest; 1/3 + 1/2^63 panics in debug (and is wrong in release) although the exact sum is below 1. -/
theorem C77_wraps :
    (SmartNum.ofI64 4294967296 : SmartNum F).mul .release (SmartNum.ofI64 4294967296) = .ok SmartNum.zero ∧
    (SmartNum.ofI64 4294967296 : SmartNum F).mul .debug (SmartNum.ofI64 4294967296) = .panic ∧
    (SmartNum.ofI64 9223372036854775807 : SmartNum F).add .release SmartNum.one = .ok (SmartNum.ofI64 i64Min) ∧
    (SmartNum.ofI64 9223372036854775807 : SmartNum F).add .debug SmartNum.one = .panic ∧
    RationalNum.mul .release ⟨1, 1, 4294967296⟩ ⟨1, 1, 4294967296⟩ = .ok ⟨1, 1, 0⟩ ∧
    RationalNum.mul .debug ⟨1, 1, 4294967296⟩ ⟨1, 1, 4294967296⟩ = .panic ∧
    RationalNum.add .release ⟨1, 1, 3⟩ ⟨1, 1, 9223372036854775808⟩ = .ok ⟨-1, 9223372036854775805, 9223372036854775808⟩ ∧
    RationalNum.add .debug ⟨1, 1, 3⟩ ⟨1, 1, 9223372036854775808⟩ = .panic := by
  refine ⟨?_, ?_, ?_, ?_, ?_, ?_, ?_, ?_⟩ <;> krfl

example : (SmartNum.ofI64 (-7) : SmartNum F).Valid ∧ (SmartNum.ofI64 (-7) : SmartNum F).toI64 = some (-7) :=
  ⟨SmartNum.valid_ofI64 _, rfl⟩
example : (⟨-1, 3, 4⟩ : RationalNum).Signed ∧ (⟨-1, 3, 4⟩ : RationalNum).Valid ∧
    RationalNum.CrossFits ⟨-1, 3, 4⟩ ⟨1, 5, 6⟩ := by
  refine ⟨.inr (.inl rfl), ⟨.inr rfl, by decide⟩, ?_⟩
  unfold RationalNum.CrossFits; decide
example : WrapsTo (((4294967296 : UInt64).toNat : ℤ) * (2147483648 : UInt64).toNat) (-9223372036854775808) := by
  unfold WrapsTo InI64; decide

end
end SymRust
