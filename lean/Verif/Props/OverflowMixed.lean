import Verif.Props.Overflow
/-! # What overflow does to numbers of mixed representation: property C77 -/

namespace SymRust
variable {F : Type} [FloatOps F]
open SmartNum (wrapVal)

omit [FloatOps F] in
theorem Res.bind_bind {α β γ : Type} (r : Res α) (f : α → Res β) (g : β → Res γ) :
    (r >>= f) >>= g = r >>= fun a => f a >>= g := by cases r <;> rfl

/-- The fraction used when an operation meets an integer and a fraction. -/
def SmartNumVal.conv (m : Mode) : SmartNumVal F → Res RationalNum
  | .integer i => RationalNum.ofI64 m i
  | .rational r => .ok r
  | .real _ => .panic

omit [FloatOps F] in
theorem conv_ok {m : Mode} (hm : m ≠ .release) {x : SmartNum F} {s : ℤ} {n d : ℕ} (h : x.WrittenAs s n d)
    (hmin : x.value ≠ .integer i64Min) (hn : x.value ≠ .integer 0) :
    ∃ r, x.value.conv m = .ok r ∧ r.sign.toInt = s ∧ r.nominator.toNat = n ∧ r.denominator.toNat = d := by
  obtain ⟨hs, ⟨i, h1, h2, rfl⟩ | ⟨r, h1, h2⟩⟩ := h
  · rw [h1]
    have hi : i ≠ i64Min := fun h => hmin (by rw [h1, h])
    obtain ⟨r, hr⟩ := (RationalNum.ofI64_iff hm i).2 hi
    obtain ⟨r', h1', h2', h3', h4', h5'⟩ := RationalNum.ofI64_wrap i
    have := RationalNum.ofI64_mono (Mode.le_release m) i r hr
    rw [h1'] at this; cases this
    have hn : n ≠ 0 := by
      rintro rfl
      refine hn (by rw [h1]; congr 1; rw [i64_eq_zero_iff]; simpa using h2)
    have hn' : r.nominator.toNat = n := by
      rw [h4', h2]; rcases hs with rfl | rfl <;> simp
    refine ⟨r, hr, ?_, hn', by rw [h3']; rfl⟩
    have hv : (r.sign.toInt : ℚ) * n = s * n := by
      rw [RationalNum.value, hn', h3', h2] at h5'
      push_cast at h5'
      simpa using h5'
    have := mul_right_cancel₀ (Nat.cast_ne_zero.2 hn) hv
    exact_mod_cast this
  · rw [h1]; exact ⟨r, rfl, h2⟩

omit [FloatOps F] in
theorem conv_min {m : Mode} (hm : m ≠ .release) : (SmartNumVal.integer i64Min : SmartNumVal F).conv m = .panic := by
  have := (RationalNum.ofI64_iff hm i64Min).not.2 (by simp)
  show RationalNum.ofI64 m i64Min = .panic
  cases h : RationalNum.ofI64 m i64Min with
  | ok r => exact absurd ⟨r, h⟩ this
  | panic => rfl

section
variable (m : Mode) {x y : SmartNum F}
  (hf : x.value.isRational = true ∧ y.NonFloat ∨ x.NonFloat ∧ y.value.isRational = true)
include hf

theorem mixed_add (hx : x.isZero = false) (hy : y.isZero = false) : x.add m y = (do
    let a ← x.value.conv m
    let b ← y.value.conv m
    let c ← a.add m b
    return wrapVal (.rational c)) := by
  simp only [SmartNum.add, hx, hy, Bool.false_eq_true, if_false]
  unfold SmartNum.NonFloat at hf
  cases hxv : x.value <;> cases hyv : y.value <;> simp_all [SmartNumVal.isRational, SmartNumVal.add, SmartNumVal.conv, Res.bind_bind]
theorem mixed_sub (hx : x.isZero = false) (hy : y.isZero = false) : x.sub m y = (do
    let a ← x.value.conv m
    let b ← y.value.conv m
    let c ← a.sub m b
    return wrapVal (.rational c)) := by
  simp only [SmartNum.sub, hx, hy, Bool.false_eq_true, if_false]
  unfold SmartNum.NonFloat at hf
  cases hxv : x.value <;> cases hyv : y.value <;> simp_all [SmartNumVal.isRational, SmartNumVal.sub, SmartNumVal.conv, Res.bind_bind]
theorem mixed_mul (hx : x.isOne = false) (hy : y.isOne = false) (hx0 : x.value.isZero = false) (hy0 : y.value.isZero = false) :
    x.mul m y = (do
    let a ← x.value.conv m
    let b ← y.value.conv m
    let c ← a.mul m b
    return wrapVal (.rational c)) := by
  simp only [SmartNum.mul, SmartNumVal.mul, hx, hy, hx0, hy0, Bool.false_eq_true, if_false, Bool.or_self]
  unfold SmartNum.NonFloat at hf
  cases hxv : x.value <;> cases hyv : y.value <;> simp_all [SmartNumVal.isRational, SmartNumVal.conv, Res.bind_bind]
theorem mixed_div (hx0 : x.value.isZero = false) : x.div m y = (do
    let a ← x.value.conv m
    let b ← y.value.conv m
    let c ← a.div m b
    return wrapVal (.rational c)) := by
  simp only [SmartNum.div, SmartNumVal.div, hx0, Bool.false_eq_true, if_false]
  unfold SmartNum.NonFloat at hf
  cases hxv : x.value <;> cases hyv : y.value <;> simp_all [SmartNumVal.isRational, SmartNumVal.conv, Res.bind_bind]
end

theorem value_isZero {x : SmartNum F} (hv : x.Valid) (h : x.isZero = false) : x.value.isZero = false := by
  have := hv.zero_iff
  rw [h] at this
  cases hx : x.value with
  | integer i =>
    rw [SmartNum.exact?, hx] at this
    simp [SmartNumVal.exact?, SmartNumVal.isZero] at this ⊢
    intro h; subst h; exact this rfl
  | rational r =>
    rw [SmartNum.exact?, hx] at this
    simp [SmartNumVal.exact?] at this
    simp only [SmartNumVal.isZero, Bool.and_eq_false_iff, beq_eq_false_iff_ne, bne_eq_false_iff_eq]
    by_contra hc
    push Not at hc
    refine this hc.2 ?_
    rw [RationalNum.value, hc.1]; simp
  | real f => rfl

omit [FloatOps F] in
theorem ok_wrap_iff {α : Type} (r : Res α) (g : α → SmartNum F) : (∃ z, (do let c ← r; return g c) = .ok z) ↔ ∃ c, r = .ok c := by
  cases r <;> simp

theorem value_ne_zero {x : SmartNum F} (hv : x.Valid) (h : x.isZero = false) : x.value ≠ .integer 0 := by
  intro h'
  have := value_isZero hv h
  rw [h'] at this; simp [SmartNumVal.isZero] at this

/-- C77, an integer and a fraction, or two fractions: when an overflow-checking build returns.  The operands are written
s * n / d and s' * n' / d' (d = 1 for an integer), none is 0 (C11), and for * none is 1 (C11).  An integer i64::MIN next to a
fraction always panics. -/
theorem C77_mixed (x y : SmartNum F) (hx : x.Valid) (hy : y.Valid) (s s' : ℤ) (n d n' d' : ℕ)
    (wx : x.WrittenAs s n d) (wy : y.WrittenAs s' n' d') (hf : x.value.isRational = true ∨ y.value.isRational = true)
    (hx0 : x.isZero = false) (hy0 : y.isZero = false) :
    (x.value ≠ .integer i64Min → y.value ≠ .integer i64Min →
      (x.isOne = false → y.isOne = false → ((∃ z, x.mul .debug y = .ok z) ↔ n * n' < 2 ^ 64 ∧ d * d' < 2 ^ 64)) ∧
      ((∃ z, x.div .debug y = .ok z) ↔ n * d' < 2 ^ 64 ∧ d * n' < 2 ^ 64) ∧
      (n * d' < 2 ^ 63 → d * n' < 2 ^ 63 →
        ((∃ z, x.add .debug y = .ok z) ↔ d * d' < 2 ^ 64 ∧ |s * (n * d') + s' * (d * n')| < 2 ^ 63) ∧
        ((∃ z, x.sub .debug y = .ok z) ↔ d * d' < 2 ^ 64 ∧ |s * (n * d') - s' * (d * n')| < 2 ^ 63))) ∧
    (x.value = .integer i64Min ∨ y.value = .integer i64Min →
      (x.isOne = false → y.isOne = false → x.mul .debug y = .panic) ∧ x.div .debug y = .panic ∧ x.add .debug y = .panic ∧
      x.sub .debug y = .panic) := by
  have nx : x.NonFloat := fun f h => by
    obtain ⟨-, ⟨i, h1, -⟩ | ⟨r, h1, -⟩⟩ := wx <;> rw [h] at h1 <;> cases h1
  have ny : y.NonFloat := fun f h => by
    obtain ⟨-, ⟨i, h1, -⟩ | ⟨r, h1, -⟩⟩ := wy <;> rw [h] at h1 <;> cases h1
  have hf' : x.value.isRational = true ∧ y.NonFloat ∨ x.NonFloat ∧ y.value.isRational = true :=
    hf.imp (fun h => ⟨h, ny⟩) (fun h => ⟨nx, h⟩)
  have vx := value_isZero hx hx0
  have vy := value_isZero hy hy0
  have hm : Mode.debug ≠ .release := by simp
  constructor
  · intro mx my
    obtain ⟨a, ha, a1, rfl, rfl⟩ := conv_ok hm wx mx (value_ne_zero hx hx0)
    obtain ⟨b, hb, b1, rfl, rfl⟩ := conv_ok hm wy my (value_ne_zero hy hy0)
    have sg : ∀ {r : RationalNum} {s : ℤ}, r.sign.toInt = s → (s = 1 ∨ s = -1) → (r.sign = 1 ∨ r.sign = -1) := by
      rintro r s h (rfl | rfl)
      · exact .inl (Int64.toInt_inj.1 h)
      · exact .inr (Int64.toInt_inj.1 h)
    have sa := sg a1 wx.1
    have sb := sg b1 wy.1
    obtain ⟨-, -, hmd⟩ := C77_mul_div a b (sa.imp id .inl) (sb.imp id .inl)
    refine ⟨fun ox oy => ?_, ?_, fun c1 c2 => ?_⟩
    · rw [mixed_mul _ hf' ox oy vx vy, ha, hb, Res.ok_bind, Res.ok_bind, ok_wrap_iff]
      exact (hmd _ hm).1
    · rw [mixed_div _ hf' vx, ha, hb, Res.ok_bind, Res.ok_bind, ok_wrap_iff]
      exact (hmd _ hm).2
    · have hI : ∀ n : ℕ, n < 2 ^ 63 → InI64 (n : ℤ) := fun n h => by unfold InI64; omega
      have hA : WrapsTo (a.nominator.toNat * b.denominator.toNat) ((a.nominator.toNat * b.denominator.toNat : ℕ) : ℤ) := by
        have := wraps_self (hI _ c1); push_cast at this ⊢; exact this
      have hB : WrapsTo (a.denominator.toNat * b.nominator.toNat) ((a.denominator.toNat * b.nominator.toNat : ℕ) : ℤ) := by
        have := wraps_self (hI _ c2); push_cast at this ⊢; exact this
      obtain ⟨h1, h2⟩ := C77_add_sub_panics a b _ _ hA hB
      have hs : ∀ {s : ℤ} {n : ℕ}, (s = 1 ∨ s = -1) → n < 2 ^ 63 → InI64 (s * n) := by
        rintro s n (rfl | rfl) h1 <;> unfold InI64 <;> omega
      have i1 := hs wx.1 c1
      have i2 := hs wy.1 c2
      rw [a1, b1] at h1 h2
      push_cast at h1 h2 i1 i2
      have l1 : a.nominator.toNat * b.denominator.toNat < 2 ^ 64 := by omega
      have l2 : a.denominator.toNat * b.nominator.toNat < 2 ^ 64 := by omega
      rw [mixed_add _ hf' hx0 hy0, mixed_sub _ hf' hx0 hy0, ha, hb, Res.ok_bind, Res.ok_bind, Res.ok_bind, Res.ok_bind,
        ok_wrap_iff, ok_wrap_iff, h1, h2]
      exact ⟨⟨fun h => ⟨h.2.2.1, h.2.2.2.2.2⟩, fun h => ⟨l1, l2, h.1, i1, i2, h.2⟩⟩,
        ⟨fun h => ⟨h.2.2.1, h.2.2.2.2.2⟩, fun h => ⟨l1, l2, h.1, i1, i2, h.2⟩⟩⟩
  · intro h
    have hc : ∀ g : RationalNum → RationalNum → Res (SmartNum F),
        (do let a ← x.value.conv .debug; let b ← y.value.conv .debug; g a b) = .panic := by
      intro g
      rcases h with h | h
      · rw [h, conv_min hm]; rfl
      · rw [h, conv_min hm]; cases x.value.conv .debug <;> rfl
    exact ⟨fun ox oy => by rw [mixed_mul _ hf' ox oy vx vy]; exact hc _, by rw [mixed_div _ hf' vx]; exact hc _,
      by rw [mixed_add _ hf' hx0 hy0]; exact hc _, by rw [mixed_sub _ hf' hx0 hy0]; exact hc _⟩

/-! ## release builds -/

omit [FloatOps F] in
theorem conv_release {x : SmartNum F} {s : ℤ} {n d : ℕ} (h : x.WrittenAs s n d) (hn : x.value ≠ .integer 0) :
    ∃ r, x.value.conv .release = .ok r ∧ r.sign.toInt = s ∧ r.nominator.toNat = n ∧ r.denominator.toNat = d := by
  obtain ⟨hs, ⟨i, h1, h2, rfl⟩ | ⟨r, h1, h2⟩⟩ := h
  · rw [h1]
    obtain ⟨r, h1', h2', h3', h4', h5'⟩ := RationalNum.ofI64_wrap i
    have hn : n ≠ 0 := by
      rintro rfl
      refine hn (by rw [h1]; congr 1; rw [i64_eq_zero_iff]; simpa using h2)
    have hn' : r.nominator.toNat = n := by
      rw [h4', h2]; rcases hs with rfl | rfl <;> simp
    refine ⟨r, h1', ?_, hn', by rw [h3']; rfl⟩
    have hv : (r.sign.toInt : ℚ) * n = s * n := by
      rw [RationalNum.value, hn', h3', h2] at h5'
      push_cast at h5'
      simpa using h5'
    have := mul_right_cancel₀ (Nat.cast_ne_zero.2 hn) hv
    exact_mod_cast this
  · rw [h1]; exact ⟨r, rfl, h2⟩

omit [FloatOps F] in
theorem exact_stored {r : RationalNum} (hs : r.SignOK) {s : ℤ} {n d : ℕ} (h : r.Stores n d) (he : r.sign.toInt = s) :
    (wrapVal (.rational r : SmartNumVal F)).exact? = if d = 0 then none else some ((s : ℚ) * n / d) := by
  obtain ⟨h1, h2⟩ := h
  have hg : 0 < max 1 (Nat.gcd n d) := by omega
  split
  · rename_i hd
    have hr : r.denominator = 0 := by
      rw [u64_eq_zero_iff, h2, hd]; simp
    have : wrapVal (.rational r : SmartNumVal F) = ⟨.rational r, .nothing⟩ := by
      simp [wrapVal, SmartNumVal.isZero, SmartNumVal.isOne, hr]
    rw [this]; simp [SmartNum.exact?, SmartNumVal.exact?, hr]
  · rename_i hd
    have hgd : max 1 (Nat.gcd n d) = Nat.gcd n d := by
      have := Nat.gcd_pos_of_pos_right n (Nat.pos_of_ne_zero hd); omega
    rw [hgd] at h1 h2
    have hp := Nat.gcd_pos_of_pos_right n (Nat.pos_of_ne_zero hd)
    have hr : r.denominator ≠ 0 := by
      rw [Ne, u64_eq_zero_iff, h2]
      exact (Nat.div_pos (Nat.gcd_le_right n (Nat.pos_of_ne_zero hd)) hp).ne'
    refine SmartNum.exact_wrapVal ?_ ?_
    · rintro _ ⟨⟩; exact hs
    · simp only [SmartNumVal.exact?, hr, if_false, Option.some.injEq, RationalNum.value, he, h1, h2]
      rw [Nat.cast_div (Nat.gcd_dvd_left n d) (by exact_mod_cast hp.ne'),
        Nat.cast_div (Nat.gcd_dvd_right n d) (by exact_mod_cast hp.ne')]
      have : (Nat.gcd n d : ℚ) ≠ 0 := by exact_mod_cast hp.ne'
      field_simp

/-- C77, the same operations in a release build: they always return, and the result is the fraction whose nominator and
denominator are those of the usual rule modulo 2^64 (the signed nominator of a sum or difference in -2^63..2^63-1); it has
no value if the denominator is 0 modulo 2^64. -/
theorem C77_mixed_release (x y : SmartNum F) (hx : x.Valid) (hy : y.Valid) (s s' : ℤ) (n d n' d' : ℕ)
    (wx : x.WrittenAs s n d) (wy : y.WrittenAs s' n' d') (hf : x.value.isRational = true ∨ y.value.isRational = true)
    (hx0 : x.isZero = false) (hy0 : y.isZero = false) :
    (x.isOne = false → y.isOne = false → ∃ z, x.mul .release y = .ok z ∧
      z.exact? = if d * d' % 2 ^ 64 = 0 then none
        else some (((s * s' : ℤ) : ℚ) * ((n * n' % 2 ^ 64 : ℕ) : ℚ) / ((d * d' % 2 ^ 64 : ℕ) : ℚ))) ∧
    (∃ z, x.div .release y = .ok z ∧
      z.exact? = if d * n' % 2 ^ 64 = 0 then none
        else some (((s * s' : ℤ) : ℚ) * ((n * d' % 2 ^ 64 : ℕ) : ℚ) / ((d * n' % 2 ^ 64 : ℕ) : ℚ))) ∧
    (∃ z S, x.add .release y = .ok z ∧ WrapsTo (s * (n * d') + s' * (d * n')) S ∧
      z.exact? = if d * d' % 2 ^ 64 = 0 then none else some ((S : ℚ) / ((d * d' % 2 ^ 64 : ℕ) : ℚ))) ∧
    (∃ z S, x.sub .release y = .ok z ∧ WrapsTo (s * (n * d') - s' * (d * n')) S ∧
      z.exact? = if d * d' % 2 ^ 64 = 0 then none else some ((S : ℚ) / ((d * d' % 2 ^ 64 : ℕ) : ℚ))) := by
  have nx : x.NonFloat := fun f h => by
    obtain ⟨-, ⟨i, h1, -⟩ | ⟨r, h1, -⟩⟩ := wx <;> rw [h] at h1 <;> cases h1
  have ny : y.NonFloat := fun f h => by
    obtain ⟨-, ⟨i, h1, -⟩ | ⟨r, h1, -⟩⟩ := wy <;> rw [h] at h1 <;> cases h1
  have hf' : x.value.isRational = true ∧ y.NonFloat ∨ x.NonFloat ∧ y.value.isRational = true :=
    hf.imp (fun h => ⟨h, ny⟩) (fun h => ⟨nx, h⟩)
  have vx := value_isZero hx hx0
  have vy := value_isZero hy hy0
  obtain ⟨a, ha, a1, rfl, rfl⟩ := conv_release wx (value_ne_zero hx hx0)
  obtain ⟨b, hb, b1, rfl, rfl⟩ := conv_release wy (value_ne_zero hy hy0)
  have sg : ∀ {r : RationalNum} {s : ℤ}, r.sign.toInt = s → (s = 1 ∨ s = -1) → (r.sign = 1 ∨ r.sign = -1) := by
    rintro r s h (rfl | rfl)
    · exact .inl (Int64.toInt_inj.1 h)
    · exact .inr (Int64.toInt_inj.1 h)
  have sa := sg a1 wx.1
  have sb := sg b1 wy.1
  have soa : a.SignOK := RationalNum.StoredOK.signOK (.inl sa)
  have sob : b.StoredOK := .inl sb
  have hsm : (a.sign * b.sign).toInt = s * s' := by
    rw [← a1, ← b1]
    rcases sa with h | h <;> rcases sb with h' | h' <;> rw [h, h'] <;> decide
  obtain ⟨⟨c1, k1, k2, k3⟩, ⟨c2, l1, l2, l3⟩, -⟩ := C77_mul_div a b (sa.imp id .inl) (sb.imp id .inl)
  obtain ⟨⟨c3, S3, p1, p2, p3, p4⟩, ⟨c4, S4, q1, q2, q3, q4⟩⟩ := C77_add_sub a b
  rw [a1, b1] at p3 q3
  have hS : ∀ (S : ℤ), (S.sign : ℚ) * (S.natAbs : ℚ) = S := fun S => by
    have := Int.sign_mul_natAbs S
    rw [← Int.cast_natCast, ← Int.cast_mul, this]
  refine ⟨fun ox oy => ⟨wrapVal (.rational c1), ?_, ?_⟩, ⟨wrapVal (.rational c2), ?_, ?_⟩,
    ⟨wrapVal (.rational c3), S3, ?_, p3, ?_⟩, ⟨wrapVal (.rational c4), S4, ?_, q3, ?_⟩⟩
  · rw [mixed_mul _ hf' ox oy vx vy, ha, hb, Res.ok_bind, Res.ok_bind, k1]; rfl
  · exact exact_stored (RationalNum.mul_signOK soa sob.signOK k1) k3 (by rw [k2]; exact hsm)
  · rw [mixed_div _ hf' vx, ha, hb, Res.ok_bind, Res.ok_bind, l1]; rfl
  · exact exact_stored (RationalNum.div_signOK soa sob l1) l3 (by rw [l2]; exact hsm)
  · rw [mixed_add _ hf' hx0 hy0, ha, hb, Res.ok_bind, Res.ok_bind, p1]; rfl
  · rw [exact_stored (RationalNum.add_signOK p1) p4 p2, hS]
  · rw [mixed_sub _ hf' hx0 hy0, ha, hb, Res.ok_bind, Res.ok_bind, q1]; rfl
  · rw [exact_stored (RationalNum.sub_signOK q1) q4 q2, hS]

/-- Non-vacuous: 7 and -3/4. -/
example : ∃ y : SmartNum F, SmartNum.newRational .debug (-1) 3 4 = .ok (some y) ∧ y.Valid ∧ y.WrittenAs (-1) 3 4 ∧
    (SmartNum.ofI64 7 : SmartNum F).WrittenAs 1 7 1 ∧ y.value.isRational = true ∧ y.isZero = false ∧
    (SmartNum.ofI64 7 : SmartNum F).isZero = false :=
  ⟨⟨.rational ⟨-1, 3, 4⟩, .nothing⟩, by krfl, C09_flags .debug _ (.newRational (-1) 3 4 _ (by krfl)),
    ⟨.inr rfl, .inr ⟨_, rfl, by decide, rfl, rfl⟩⟩, ⟨.inl rfl, .inl ⟨7, rfl, by decide, rfl⟩⟩, rfl, rfl, by krfl⟩
end SymRust
