import Verif.Proofs.Rational
/-! # C01–C06: rational numbers -/

namespace SymRust
open RationalNum

/-! ## C01 -/

theorem C01_eq_refl (x : RationalNum) : x.eq x = true := (eq_iff x x).mpr (.inl rfl)

theorem C01_eq_symm (x y : RationalNum) : x.eq y = y.eq x := by
  rw [Bool.eq_iff_iff, eq_iff, eq_iff]
  constructor <;> rintro (h | h)
  · exact .inl h.symm
  · exact .inr h.symm
  · exact .inl h.symm
  · exact .inr h.symm

theorem C01_eq_trans (x y z : RationalNum) (h1 : x.eq y = true) (h2 : y.eq z = true) :
    x.eq z = true := by
  rw [eq_iff] at *
  rcases h1 with h1 | h1 <;> rcases h2 with h2 | h2
  · exact .inl (h1.trans h2)
  · right
    refine ⟨?_, h2.2⟩
    rw [← reduce_nominator_eq_zero, h1, reduce_nominator_eq_zero]; exact h2.1
  · right
    refine ⟨h1.1, ?_⟩
    rw [← reduce_nominator_eq_zero, ← h2, reduce_nominator_eq_zero]; exact h1.2
  · exact .inr ⟨h1.1, h2.2⟩

example : RationalNum.eq ⟨1, 2, 4⟩ ⟨1, 3, 6⟩ = true ∧ RationalNum.eq ⟨1, 3, 6⟩ ⟨1, 1, 2⟩ = true := by
  decide +kernel

theorem C01_eq_iff_value (x y : RationalNum) (hx : x.Valid) (hy : y.Valid) :
    x.eq y = true ↔ x.value = y.value := by
  rw [eq_iff]
  constructor
  · rintro (h | h)
    · rw [← reduce_value x, ← reduce_value y, h]
    · rw [(value_eq_zero hx).mpr h.1, (value_eq_zero hy).mpr h.2]
  · intro h
    by_cases h0 : x.nominator = 0
    · exact .inr ⟨h0, (value_eq_zero hy).mp (h ▸ (value_eq_zero hx).mpr h0)⟩
    · exact .inl (reduce_eq_of_value_eq hx hy h0 h)

example : RationalNum.Valid ⟨-1, 6, 4⟩ ∧ RationalNum.Valid ⟨-1, 3, 2⟩ ∧
    RationalNum.eq ⟨-1, 6, 4⟩ ⟨-1, 3, 2⟩ = true ∧ RationalNum.eq ⟨1, 3, 2⟩ ⟨-1, 3, 2⟩ = false := by
  refine ⟨⟨.inr rfl, by decide⟩, ⟨.inr rfl, by decide⟩, by decide +kernel, by decide +kernel⟩

/-! ## C02 -/

/-- The divisor of `reduce` is never 0, so neither division panics. -/
theorem C02_reduce_never_panics (x : RationalNum) : x.reduceChecked = .ok x.reduce := by
  have h : ∀ d : UInt64, (if d = 0 then 1 else d) ≠ (0 : UInt64) := by
    intro d; split
    · decide
    · assumption
  unfold reduceChecked u64Div reduce
  simp only [if_neg (h _)]
  rfl

theorem C02_reduce_value (x : RationalNum) : x.reduce.value = x.value ∧ x.reduce.sign = x.sign :=
  ⟨reduce_value x, rfl⟩

theorem C02_reduce_lowest (x : RationalNum) (h : x.nominator ≠ 0 ∨ x.denominator ≠ 0) :
    x.reduce.LowestTerms := reduce_lowest x h

theorem C02_reduce_idem (x : RationalNum) : x.reduce.reduce = x.reduce := by
  by_cases h : x.nominator ≠ 0 ∨ x.denominator ≠ 0
  · exact reduce_of_lowest _ (reduce_lowest x h)
  · push Not at h
    have h1 : x.reduce = x := by
      refine ext_toNat rfl ?_ ?_
      · rw [reduce_nominator, h.1]; simp
      · rw [reduce_denominator, h.2]; simp
    rw [h1, h1]

theorem C02_reduce_canonical (x y : RationalNum) (hx : x.Valid) (hy : y.Valid)
    (h0 : x.value ≠ 0) (h : x.value = y.value) : x.reduce = y.reduce :=
  reduce_eq_of_value_eq hx hy (fun h1 => h0 ((value_eq_zero hx).mpr h1)) h

example : reduce ⟨1, 6, 4⟩ = ⟨1, 3, 2⟩ ∧ reduce ⟨-1, 0, 0⟩ = ⟨-1, 0, 0⟩ ∧
    reduce ⟨1, 0, 7⟩ = ⟨1, 0, 1⟩ := by decide +kernel

/-! ## C03 -/

/-- `i64::MIN` -/
def i64Min : Int64 := Int64.minValue

theorem abs_fits_iff (s : Int64) : InI64 s.toInt.natAbs ↔ s ≠ i64Min := by
  have h : i64Min.toInt = -9223372036854775808 := by decide
  have := Int64.inI64_toInt s
  rw [Ne, ← Int64.toInt_inj, h]
  unfold InI64 at *; omega

theorem C03_new (m : Mode) (s : Int64) (n d : UInt64) (h : m = .release ∨ s ≠ i64Min) :
    RationalNum.new m s n d =
      .ok (if (s = 1 ∨ s = -1) ∧ d ≠ 0 then some ⟨s, n, d⟩ else none) := by
  have ha : ∀ c, i64Abs m s = .ok c → (c = 1 ↔ (s = 1 ∨ s = -1)) := by
    intro c hc
    rw [checked_ok hc]
    by_cases hs : s = i64Min
    · subst hs; decide
    · have h2 := absW_toInt ((abs_fits_iff s).mpr hs)
      rw [i64_eq_one_iff, h2, i64_eq_one_iff, i64_eq_neg_one_iff]; omega
  obtain ⟨c, hc⟩ : ∃ c, i64Abs m s = .ok c := by
    rcases h with h | h
    · subst h; exact ⟨_, i64Abs_release s⟩
    · exact ⟨_, checked_of_fits m _ ((abs_fits_iff s).mpr h)⟩
  unfold RationalNum.new
  rw [hc]
  simp only [Res.ok_bind, ha c hc]
  split <;> rfl

theorem C03_new_panics_iff (m : Mode) (s : Int64) (n d : UInt64) :
    RationalNum.new m s n d = .panic ↔ m ≠ .release ∧ s = i64Min := by
  constructor
  · intro h
    by_contra hc
    rw [C03_new m s n d (by tauto)] at h
    cases h
  · rintro ⟨hm, rfl⟩
    have hf : ¬ InI64 i64Min.toInt.natAbs := by
      rw [abs_fits_iff]; simp
    unfold RationalNum.new i64Abs checked
    rw [if_neg hf]
    cases m <;> simp at hm ⊢

/-- Everything `new` accepts is valid, with the value `s * n / d`. -/
theorem C03_new_valid (m : Mode) (s : Int64) (n d : UInt64) (r : RationalNum)
    (h : RationalNum.new m s n d = .ok (some r)) :
    r.Valid ∧ r.value = (s.toInt : ℚ) * n.toNat / d.toNat := by
  have hm : m = .release ∨ s ≠ i64Min := by
    by_contra hc
    push Not at hc
    rw [(C03_new_panics_iff m s n d).mpr hc] at h; cases h
  rw [C03_new m s n d hm] at h
  split at h
  · rename_i hv; cases h; exact ⟨hv, rfl⟩
  · cases h

/-- `new_positive` and `new_negative` never panic, refuse exactly the denominator 0, and store `n/d` and `-n/d`. -/
theorem C03_new_positive_negative (m : Mode) (n d : UInt64) :
    RationalNum.newPositive m n d = .ok (if d ≠ 0 then some ⟨1, n, d⟩ else none) ∧
    RationalNum.newNegative m n d = .ok (if d ≠ 0 then some ⟨-1, n, d⟩ else none) ∧
    (∀ r, RationalNum.newPositive m n d = .ok (some r) → r.value = (n.toNat : ℚ) / d.toNat) ∧
    (∀ r, RationalNum.newNegative m n d = .ok (some r) → r.value = -((n.toNat : ℚ) / d.toNat)) := by
  refine ⟨?_, ?_, fun r h => ?_, fun r h => ?_⟩
  · rw [RationalNum.newPositive, C03_new m _ n d (.inr (by decide))]; simp
  · rw [RationalNum.newNegative, C03_new m _ n d (.inr (by decide))]; simp
  · rw [(C03_new_valid m 1 n d r h).2]; simp
  · rw [(C03_new_valid m (-1) n d r h).2, show (-1 : Int64).toInt = -1 from rfl]; push_cast; ring

example : RationalNum.newPositive .debug 7 3 = .ok (some ⟨1, 7, 3⟩) ∧
    RationalNum.newNegative .debug 7 3 = .ok (some ⟨-1, 7, 3⟩) ∧ RationalNum.newNegative .release 7 0 = .ok none := by
  decide

example : RationalNum.new .debug (-1) 7 3 = .ok (some ⟨-1, 7, 3⟩) ∧
    RationalNum.new .debug 2 7 3 = .ok none ∧ RationalNum.new .release i64Min 7 3 = .ok none ∧
    RationalNum.new .debug i64Min 7 3 = .panic := by decide

/-! ## C04 -/

theorem C04_add_exact (m : Mode) (hm : m ≠ .release) (a b c : RationalNum) (ha : a.Valid)
    (hb : b.Valid) (hc : CrossFits a b) (h : a.add m b = .ok c) :
    c.value = a.value + b.value ∧ c.LowestTerms ∧ c.denominator ≠ 0 := by
  have := add_exact hm (.inr hc) ha.2 hb.2 h
  exact ⟨this.1, this.2.1, this.2.2.1⟩

theorem C04_sub_exact (m : Mode) (hm : m ≠ .release) (a b c : RationalNum) (ha : a.Valid)
    (hb : b.Valid) (hc : CrossFits a b) (h : a.sub m b = .ok c) :
    c.value = a.value - b.value ∧ c.LowestTerms ∧ c.denominator ≠ 0 := by
  have := sub_exact hm (.inr hc) ha.2 hb.2 h
  exact ⟨this.1, this.2.1, this.2.2.1⟩

example : CrossFits ⟨1, 1, 6⟩ ⟨-1, 3, 4⟩ ∧
    add .debug ⟨1, 1, 6⟩ ⟨-1, 3, 4⟩ = .ok ⟨-1, 7, 12⟩ ∧
    sub .debug ⟨1, 1, 6⟩ ⟨-1, 3, 4⟩ = .ok ⟨1, 11, 12⟩ := by
  refine ⟨by unfold CrossFits; decide, by decide +kernel, by decide +kernel⟩

/-- Without the cast condition the claim fails for every pair `n/1 + 0/1` with `n > 2^63`: the
overflow-checking build returns a negative number instead of `n`. -/
theorem C04_cast_wraps (n : UInt64) (h : 9223372036854775808 < n.toNat) :
    ∃ c, add .debug ⟨1, n, 1⟩ ⟨1, 0, 1⟩ = .ok c ∧ c.value < 0 ∧
      (⟨1, n, 1⟩ : RationalNum).value + (⟨1, 0, 1⟩ : RationalNum).value = n.toNat := by
  have hlt := n.toNat_lt
  have hi : n.toInt64.toInt = n.toNat - 18446744073709551616 := by
    rw [toInt64_toInt, Int.bmod_def]; omega
  have e1 : u64Mul .debug n 1 = .ok n := by
    rw [u64Mul_fits .debug (by unfold InU64; simp; omega)]; simp
  have e2 : u64Mul .debug 1 0 = .ok 0 := by decide
  have e3 : u64Mul .debug 1 1 = .ok 1 := by decide
  have e4 : i64Mul .debug n.toInt64 1 = .ok n.toInt64 := by
    rw [i64Mul_fits .debug (by unfold InI64; simp; omega)]; simp
  have e5 : i64Mul .debug (0 : UInt64).toInt64 1 = .ok 0 := by decide
  have e6 : i64Add .debug n.toInt64 0 = .ok n.toInt64 := by
    rw [i64Add_fits .debug (by unfold InI64; simp; omega)]; simp
  obtain ⟨t, ht⟩ : ∃ t, i64Abs .debug n.toInt64 = .ok t :=
    ⟨_, checked_of_fits _ _ (by unfold InI64; omega)⟩
  have et := abs_cast (by simp) ht
  refine ⟨(RationalNum.mk (i64Signum n.toInt64) (castU64 t) 1).reduce, ?_, ?_, ?_⟩
  · unfold add
    simp only [e1, e2, e3, e4, e5, e6, ht, castI64, Res.ok_bind, Res.pure_eq]
  · rw [reduce_value]
    unfold value
    dsimp only
    rw [i64Signum_toInt, Int.sign_eq_neg_one_of_neg (by omega)]
    have : 0 < (castU64 t).toNat := by omega
    simpa using this
  · unfold value; simp

example : (9223372036854775808 : ℕ) < (9223372036854775809 : UInt64).toNat ∧
    add .debug ⟨1, 9223372036854775809, 1⟩ ⟨1, 0, 1⟩ = .ok ⟨-1, 9223372036854775807, 1⟩ := by
  decide +kernel

/-! ## C05 -/

theorem C05_mul_exact (m : Mode) (hm : m ≠ .release) (a b c : RationalNum) (ha : a.Valid)
    (hb : b.Valid) (h : a.mul m b = .ok c) :
    c.value = a.value * b.value ∧ c.LowestTerms ∧ c.Valid := by
  have := mul_exact hm ha.2 hb.2 h
  refine ⟨this.1, this.2.1, ?_, this.2.2.1⟩
  rw [i64_eq_one_iff, i64_eq_neg_one_iff, this.2.2.2]
  rcases ha.sign_toInt with h1 | h1 <;> rcases hb.sign_toInt with h2 | h2 <;> rw [h1, h2] <;> decide

theorem C05_div_exact (m : Mode) (hm : m ≠ .release) (a b c : RationalNum) (ha : a.Valid)
    (hb : b.Valid) (hb0 : b.value ≠ 0) (h : a.div m b = .ok c) :
    c.value = a.value / b.value ∧ c.LowestTerms ∧ c.Valid := by
  have := div_exact hm ha.2 hb (fun h0 => hb0 ((value_eq_zero hb).mpr h0)) h
  refine ⟨this.1, this.2.1, ?_, this.2.2.1⟩
  rw [i64_eq_one_iff, i64_eq_neg_one_iff, this.2.2.2]
  rcases ha.sign_toInt with h1 | h1 <;> rcases hb.sign_toInt with h2 | h2 <;> rw [h1, h2] <;> decide

theorem C05_neg_exact (m : Mode) (a : RationalNum) (ha : a.Valid) :
    ∃ c, a.neg m = .ok c ∧ c.value = -a.value ∧ c.Valid := by
  have hf : InI64 (-a.sign.toInt) := by
    unfold InI64; rcases ha.sign_toInt with h | h <;> rw [h] <;> decide
  have h : ∀ m, a.neg m = .ok { a with sign := -a.sign } := by
    intro m; unfold neg; rw [i64Neg_fits m hf]; rfl
  refine ⟨_, h m, (neg_exact (m := .debug) (by simp) (h .debug)).1, ?_, ha.2⟩
  dsimp only
  rcases ha.1 with h | h <;> rw [h] <;> decide

example : mul .debug ⟨-1, 2, 3⟩ ⟨1, 3, 4⟩ = .ok ⟨-1, 1, 2⟩ ∧
    div .debug ⟨-1, 2, 3⟩ ⟨1, 4, 3⟩ = .ok ⟨-1, 1, 2⟩ ∧
    neg .debug ⟨-1, 2, 3⟩ = .ok ⟨1, 2, 3⟩ ∧
    mul .debug ⟨1, 4294967296, 1⟩ ⟨1, 4294967296, 1⟩ = .panic := by decide +kernel

/-! ## C06 -/

theorem small_mul {a b : ℕ} (ha : a < 2147483648) (hb : b < 2147483648) :
    a * b ≤ 4611686014132420609 := by
  calc a * b ≤ 2147483647 * 2147483647 := Nat.mul_le_mul (by omega) (by omega)
    _ = _ := by norm_num

theorem C06_small_add (m : Mode) (a b : RationalNum) (ha : a.Valid) (hb : b.Valid)
    (sa : a.Small) (sb : b.Small) :
    ∃ c, a.add m b = .ok c ∧ c.value = a.value + b.value ∧ c.LowestTerms := by
  have b1 := small_mul sa.1 sb.2
  have b2 := small_mul sa.2 sb.1
  have b3 := small_mul sa.2 sb.2
  suffices h : ∃ c, a.add .strict b = .ok c by
    obtain ⟨c, hc⟩ := h
    have := add_exact (m := .strict) (by simp) (.inl rfl) ha.2 hb.2 hc
    exact ⟨c, add_mono (Mode.strict_le m) a b c hc, this.1, this.2.1⟩
  have e1 := u64Mul_fits .strict (a := a.nominator) (b := b.denominator) (by unfold InU64; omega)
  have e2 := u64Mul_fits .strict (a := a.denominator) (b := b.nominator) (by unfold InU64; omega)
  have e3 := u64Mul_fits .strict (a := a.denominator) (b := b.denominator) (by unfold InU64; omega)
  have n1 := u64Mul_exact (by simp) e1
  have n2 := u64Mul_exact (by simp) e2
  have c1 := castI64_fits .strict (a := a.nominator * b.denominator) (by omega)
  have c2 := castI64_fits .strict (a := a.denominator * b.nominator) (by omega)
  have i1 := castI64_exact c1 (.inl rfl)
  have i2 := castI64_exact c2 (.inl rfl)
  have m1 := i64Mul_fits .strict (a := (a.nominator * b.denominator).toInt64) (b := a.sign) (by
    rw [i1]; unfold InI64; rcases ha.sign_toInt with h | h <;> rw [h] <;> omega)
  have m2 := i64Mul_fits .strict (a := (a.denominator * b.nominator).toInt64) (b := b.sign) (by
    rw [i2]; unfold InI64; rcases hb.sign_toInt with h | h <;> rw [h] <;> omega)
  have x1 := i64Mul_exact (by simp) m1
  have x2 := i64Mul_exact (by simp) m2
  have r1 : -4611686014132420609 ≤ ((a.nominator * b.denominator).toInt64 * a.sign).toInt ∧
      ((a.nominator * b.denominator).toInt64 * a.sign).toInt ≤ 4611686014132420609 := by
    rw [x1, i1]; rcases ha.sign_toInt with h | h <;> rw [h] <;> omega
  have r2 : -4611686014132420609 ≤ ((a.denominator * b.nominator).toInt64 * b.sign).toInt ∧
      ((a.denominator * b.nominator).toInt64 * b.sign).toInt ≤ 4611686014132420609 := by
    rw [x2, i2]; rcases hb.sign_toInt with h | h <;> rw [h] <;> omega
  have s1 := i64Add_fits .strict (a := (a.nominator * b.denominator).toInt64 * a.sign)
    (b := (a.denominator * b.nominator).toInt64 * b.sign) (by unfold InI64; omega)
  have sx := i64Add_exact (by simp) s1
  obtain ⟨t, ht⟩ : ∃ t, i64Abs .strict ((a.nominator * b.denominator).toInt64 * a.sign +
      (a.denominator * b.nominator).toInt64 * b.sign) = .ok t :=
    ⟨_, checked_of_fits _ _ (by rw [sx]; unfold InI64; omega)⟩
  unfold add
  simp only [e1, e2, e3, c1, c2, m1, m2, s1, ht, Res.ok_bind, Res.pure_eq]
  exact ⟨_, rfl⟩

theorem C06_small_sub (m : Mode) (a b : RationalNum) (ha : a.Valid) (hb : b.Valid)
    (sa : a.Small) (sb : b.Small) :
    ∃ c, a.sub m b = .ok c ∧ c.value = a.value - b.value ∧ c.LowestTerms := by
  have b1 := small_mul sa.1 sb.2
  have b2 := small_mul sa.2 sb.1
  have b3 := small_mul sa.2 sb.2
  suffices h : ∃ c, a.sub .strict b = .ok c by
    obtain ⟨c, hc⟩ := h
    have := sub_exact (m := .strict) (by simp) (.inl rfl) ha.2 hb.2 hc
    exact ⟨c, sub_mono (Mode.strict_le m) a b c hc, this.1, this.2.1⟩
  have e1 := u64Mul_fits .strict (a := a.nominator) (b := b.denominator) (by unfold InU64; omega)
  have e2 := u64Mul_fits .strict (a := a.denominator) (b := b.nominator) (by unfold InU64; omega)
  have e3 := u64Mul_fits .strict (a := a.denominator) (b := b.denominator) (by unfold InU64; omega)
  have n1 := u64Mul_exact (by simp) e1
  have n2 := u64Mul_exact (by simp) e2
  have c1 := castI64_fits .strict (a := a.nominator * b.denominator) (by omega)
  have c2 := castI64_fits .strict (a := a.denominator * b.nominator) (by omega)
  have i1 := castI64_exact c1 (.inl rfl)
  have i2 := castI64_exact c2 (.inl rfl)
  have m1 := i64Mul_fits .strict (a := (a.nominator * b.denominator).toInt64) (b := a.sign) (by
    rw [i1]; unfold InI64; rcases ha.sign_toInt with h | h <;> rw [h] <;> omega)
  have m2 := i64Mul_fits .strict (a := (a.denominator * b.nominator).toInt64) (b := b.sign) (by
    rw [i2]; unfold InI64; rcases hb.sign_toInt with h | h <;> rw [h] <;> omega)
  have x1 := i64Mul_exact (by simp) m1
  have x2 := i64Mul_exact (by simp) m2
  have r1 : -4611686014132420609 ≤ ((a.nominator * b.denominator).toInt64 * a.sign).toInt ∧
      ((a.nominator * b.denominator).toInt64 * a.sign).toInt ≤ 4611686014132420609 := by
    rw [x1, i1]; rcases ha.sign_toInt with h | h <;> rw [h] <;> omega
  have r2 : -4611686014132420609 ≤ ((a.denominator * b.nominator).toInt64 * b.sign).toInt ∧
      ((a.denominator * b.nominator).toInt64 * b.sign).toInt ≤ 4611686014132420609 := by
    rw [x2, i2]; rcases hb.sign_toInt with h | h <;> rw [h] <;> omega
  have s1 := i64Sub_fits .strict (a := (a.nominator * b.denominator).toInt64 * a.sign)
    (b := (a.denominator * b.nominator).toInt64 * b.sign) (by unfold InI64; omega)
  have sx := i64Sub_exact (by simp) s1
  obtain ⟨t, ht⟩ : ∃ t, i64Abs .strict ((a.nominator * b.denominator).toInt64 * a.sign -
      (a.denominator * b.nominator).toInt64 * b.sign) = .ok t :=
    ⟨_, checked_of_fits _ _ (by rw [sx]; unfold InI64; omega)⟩
  unfold sub
  simp only [e1, e2, e3, c1, c2, m1, m2, s1, ht, Res.ok_bind, Res.pure_eq]
  exact ⟨_, rfl⟩

theorem C06_small_mul (m : Mode) (a b : RationalNum) (ha : a.Valid) (hb : b.Valid)
    (sa : a.Small) (sb : b.Small) :
    ∃ c, a.mul m b = .ok c ∧ c.value = a.value * b.value ∧ c.LowestTerms := by
  have b1 := small_mul sa.1 sb.1
  have b3 := small_mul sa.2 sb.2
  suffices h : ∃ c, a.mul .strict b = .ok c by
    obtain ⟨c, hc⟩ := h
    have := C05_mul_exact .strict (by simp) a b c ha hb hc
    exact ⟨c, mul_mono (Mode.strict_le m) a b c hc, this.1, this.2.1⟩
  have e1 := u64Mul_fits .strict (a := a.nominator) (b := b.nominator) (by unfold InU64; omega)
  have e3 := u64Mul_fits .strict (a := a.denominator) (b := b.denominator) (by unfold InU64; omega)
  have m1 := i64Mul_fits .strict (a := a.sign) (b := b.sign) (by
    unfold InI64
    rcases ha.sign_toInt with h | h <;> rcases hb.sign_toInt with h' | h' <;> rw [h, h'] <;> decide)
  unfold mul
  simp [e1, e3, m1]

theorem C06_small_div (m : Mode) (a b : RationalNum) (ha : a.Valid) (hb : b.Valid)
    (sa : a.Small) (sb : b.Small) (hb0 : b.value ≠ 0) :
    ∃ c, a.div m b = .ok c ∧ c.value = a.value / b.value ∧ c.LowestTerms := by
  have b1 := small_mul sa.1 sb.2
  have b3 := small_mul sa.2 sb.1
  suffices h : ∃ c, a.div .strict b = .ok c by
    obtain ⟨c, hc⟩ := h
    have := C05_div_exact .strict (by simp) a b c ha hb hb0 hc
    exact ⟨c, div_mono (Mode.strict_le m) a b c hc, this.1, this.2.1⟩
  have e1 := u64Mul_fits .strict (a := a.nominator) (b := b.denominator) (by unfold InU64; omega)
  have e3 := u64Mul_fits .strict (a := a.denominator) (b := b.nominator) (by unfold InU64; omega)
  have m1 := i64Mul_fits .strict (a := a.sign) (b := b.sign) (by
    unfold InI64
    rcases ha.sign_toInt with h | h <;> rcases hb.sign_toInt with h' | h' <;> rw [h, h'] <;> decide)
  unfold div
  simp [e1, e3, m1]

example : RationalNum.Small ⟨-1, 2147483647, 3⟩ ∧ RationalNum.Valid ⟨-1, 2147483647, 3⟩ ∧
    (⟨-1, 2147483647, 3⟩ : RationalNum).value ≠ 0 := by
  refine ⟨by unfold RationalNum.Small; decide, ⟨.inr rfl, by decide⟩, ?_⟩
  rw [Ne, value_eq_zero ⟨.inr rfl, by decide⟩]; decide

end SymRust
