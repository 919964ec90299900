import Verif.Props.Overflow
import Verif.Proofs.Float64Ops
/-! # Division by zero: property C12, continued -/

namespace SymRust
variable {F : Type} [FloatOps F]
open SmartNum (wrapVal)

def SmartNumVal.Undef (v : SmartNumVal F) : Prop := ∃ r, v = .rational r ∧ r.denominator = 0

omit [FloatOps F] in
theorem undefined_iff (x : SmartNum F) : x.Undefined ↔ x.value.Undef := by
  unfold SmartNum.Undefined SmartNum.NonFloat SmartNum.exact? SmartNumVal.Undef
  rcases x.value with v | r | f
  · simp [SmartNumVal.exact?]
  · simp [SmartNumVal.exact?]
  · simp

omit [FloatOps F] in
theorem Undef.wrap {v : SmartNumVal F} (h : v.Undef) : wrapVal v = ⟨v, .nothing⟩ := by
  obtain ⟨r, rfl, hd⟩ := h
  simp [wrapVal, SmartNumVal.isZero, SmartNumVal.isOne, hd]

omit [FloatOps F] in
theorem Undef.undefined {v : SmartNumVal F} (h : v.Undef) : (wrapVal v).Undefined := by
  rw [undefined_iff, Undef.wrap h]; exact h

namespace RationalNum

theorem add_den {m : Mode} {a b c : RationalNum} (h : a.add m b = .ok c) (h0 : a.denominator = 0 ∨ b.denominator = 0) :
    c.denominator = 0 := by
  unfold add at h
  simp only [Res.bind_eq_ok, Res.pure_eq, Res.ok.injEq] at h
  obtain ⟨_, _, _, _, _, _, _, _, _, _, _, _, _, _, _, _, d, hd, rfl⟩ := h
  rw [reduce_denominator_eq_zero, checked_ok hd]
  rcases h0 with h | h <;> simp [h]

theorem sub_den {m : Mode} {a b c : RationalNum} (h : a.sub m b = .ok c) (h0 : a.denominator = 0 ∨ b.denominator = 0) :
    c.denominator = 0 := by
  unfold sub at h
  simp only [Res.bind_eq_ok, Res.pure_eq, Res.ok.injEq] at h
  obtain ⟨_, _, _, _, _, _, _, _, _, _, _, _, _, _, _, _, d, hd, rfl⟩ := h
  rw [reduce_denominator_eq_zero, checked_ok hd]
  rcases h0 with h | h <;> simp [h]

theorem mul_den {m : Mode} {a b c : RationalNum} (h : a.mul m b = .ok c) (h0 : a.denominator = 0 ∨ b.denominator = 0) :
    c.denominator = 0 := by
  unfold mul at h
  simp only [Res.bind_eq_ok, Res.pure_eq, Res.ok.injEq] at h
  obtain ⟨_, _, _, _, d, hd, rfl⟩ := h
  rw [reduce_denominator_eq_zero, checked_ok hd]
  rcases h0 with h | h <;> simp [h]

theorem div_den {m : Mode} {a b c : RationalNum} (h : a.div m b = .ok c) (h0 : a.denominator = 0) : c.denominator = 0 := by
  unfold div at h
  simp only [Res.bind_eq_ok, Res.pure_eq, Res.ok.injEq] at h
  obtain ⟨_, _, _, _, d, hd, rfl⟩ := h
  rw [reduce_denominator_eq_zero, checked_ok hd]
  simp [h0]

/-- A quotient by a fraction with denominator 0 has nominator 0. -/
theorem div_by_den {m : Mode} {a b c : RationalNum} (h : a.div m b = .ok c) (h0 : b.denominator = 0) :
    c.nominator = 0 ∧ (m ≠ .release → a.denominator ≠ 0 → b.nominator ≠ 0 → c.denominator ≠ 0) := by
  unfold div at h
  simp only [Res.bind_eq_ok, Res.pure_eq, Res.ok.injEq] at h
  obtain ⟨_, _, n, hn, d, hd, rfl⟩ := h
  refine ⟨by rw [reduce_nominator_eq_zero, checked_ok hn]; simp [h0], fun hm h1 h2 e => ?_⟩
  have hf := checked_ok_fits hm hd
  rw [reduce_denominator_eq_zero] at e
  dsimp only at e
  rw [checked_ok hd] at e
  have e' : (a.denominator * b.nominator).toNat = 0 := by rw [e]; rfl
  have hp : ∀ u : UInt64, u ≠ 0 → 0 < u.toNat := fun u hu =>
    Nat.pos_of_ne_zero fun h => hu (UInt64.toNat_inj.1 (by simpa using h))
  have := Nat.mul_pos (hp _ h1) (hp _ h2)
  unfold InU64 at hf
  rw [mul_toNat, Nat.mod_eq_of_lt (by omega)] at e'
  omega

end RationalNum

namespace SmartNumVal

omit [FloatOps F] in
theorem Undef.not_zero {v : SmartNumVal F} (h : v.Undef) : v.isZero = false := by
  obtain ⟨r, rfl, hd⟩ := h; simp [isZero, hd]

open RationalNum in
theorem add_undef {m : Mode} {a b c : SmartNumVal F} (h : a.add m b = .ok c) (ha : ¬ a.isF) (hb : ¬ b.isF)
    (h0 : a.Undef ∨ b.Undef) : c.Undef := by
  rcases a with i | r | f <;> rcases b with j | t | g <;> simp_all [isF, Undef, add, Res.bind_eq_ok]
  · obtain ⟨_, _, _, hc, rfl⟩ := h; exact ⟨_, rfl, add_den hc (.inr h0)⟩
  · obtain ⟨_, _, _, hc, rfl⟩ := h; exact ⟨_, rfl, add_den hc (.inl h0)⟩
  · obtain ⟨_, hc, rfl⟩ := h; exact ⟨_, rfl, add_den hc h0⟩

open RationalNum in
theorem sub_undef {m : Mode} {a b c : SmartNumVal F} (h : a.sub m b = .ok c) (ha : ¬ a.isF) (hb : ¬ b.isF)
    (h0 : a.Undef ∨ b.Undef) : c.Undef := by
  rcases a with i | r | f <;> rcases b with j | t | g <;> simp_all [isF, Undef, sub, Res.bind_eq_ok]
  · obtain ⟨_, _, _, hc, rfl⟩ := h; exact ⟨_, rfl, sub_den hc (.inr h0)⟩
  · obtain ⟨_, _, _, hc, rfl⟩ := h; exact ⟨_, rfl, sub_den hc (.inl h0)⟩
  · obtain ⟨_, hc, rfl⟩ := h; exact ⟨_, rfl, sub_den hc h0⟩

open RationalNum in
theorem mul_undef {m : Mode} {a b c : SmartNumVal F} (h : a.mul m b = .ok c) (ha : ¬ a.isF) (hb : ¬ b.isF)
    (h0 : a.Undef ∨ b.Undef) (za : a.isZero = false) (zb : b.isZero = false) : c.Undef := by
  unfold mul at h
  rw [za, zb] at h
  rcases a with i | r | f <;> rcases b with j | t | g <;> simp_all [isF, Undef, Res.bind_eq_ok]
  · obtain ⟨_, _, _, hc, rfl⟩ := h; exact ⟨_, rfl, mul_den hc (.inr h0)⟩
  · obtain ⟨_, _, _, hc, rfl⟩ := h; exact ⟨_, rfl, mul_den hc (.inl h0)⟩
  · obtain ⟨_, hc, rfl⟩ := h; exact ⟨_, rfl, mul_den hc h0⟩

open RationalNum in
theorem div_undef {m : Mode} {a b c : SmartNumVal F} (h : a.div m b = .ok c) (hb : ¬ b.isF) (h0 : a.Undef) : c.Undef := by
  unfold div at h
  rw [h0.not_zero] at h
  obtain ⟨r, rfl, hd⟩ := h0
  rcases b with j | t | g <;> simp_all [isF, Undef, Res.bind_eq_ok]
  · obtain ⟨_, _, _, hc, rfl⟩ := h; exact ⟨_, rfl, div_den hc hd⟩
  · obtain ⟨_, hc, rfl⟩ := h; exact ⟨_, rfl, div_den hc hd⟩

omit [FloatOps F] in
theorem neg_undef [FloatOps F] {m : Mode} {a c : SmartNumVal F} (h : a.neg m = .ok c) (h0 : a.Undef) : c.Undef := by
  obtain ⟨r, rfl, hd⟩ := h0
  simp only [neg, Res.bind_eq_ok, Res.pure_eq, Res.ok.injEq, RationalNum.neg] at h
  obtain ⟨_, ⟨_, _, rfl⟩, rfl⟩ := h
  exact ⟨_, rfl, hd⟩

open RationalNum in
/-- A quotient by a fraction with denominator 0. -/
theorem div_by_undef {m : Mode} {a c : SmartNumVal F} {t : RationalNum} (h : a.div m (.rational t) = .ok c) (ha : ¬ a.isF)
    (ht : t.denominator = 0) :
    (wrapVal c = SmartNum.zero ∨ c.Undef) ∧ (m ≠ .release → ¬ a.Undef → t.nominator ≠ 0 → wrapVal c = SmartNum.zero) := by
  have key : ∀ {r d : RationalNum}, r.div m t = .ok d →
      (wrapVal (.rational d : SmartNumVal F) = SmartNum.zero ∨ (SmartNumVal.rational d : SmartNumVal F).Undef) ∧
      (m ≠ .release → r.denominator ≠ 0 → t.nominator ≠ 0 → wrapVal (.rational d : SmartNumVal F) = SmartNum.zero) := by
    intro r d hd
    obtain ⟨h1, h2⟩ := div_by_den hd ht
    by_cases h3 : d.denominator = 0
    · exact ⟨.inr ⟨_, rfl, h3⟩, fun a b c => absurd h3 (h2 a b c)⟩
    · have : wrapVal (.rational d : SmartNumVal F) = SmartNum.zero := by simp [wrapVal, isZero, h1, h3]
      exact ⟨.inl this, fun _ _ _ => this⟩
  unfold div at h
  split at h
  · cases h; exact ⟨.inl rfl, fun _ _ _ => rfl⟩
  rcases a with i | r | f
  · simp only [Res.bind_eq_ok, Res.pure_eq, Res.ok.injEq] at h
    obtain ⟨u, hu, d, hd, rfl⟩ := h
    obtain ⟨k1, k2⟩ := key hd
    exact ⟨k1, fun hm _ hn => k2 hm (ofI64_valid hu).2 hn⟩
  · simp only [Res.bind_eq_ok, Res.pure_eq, Res.ok.injEq] at h
    obtain ⟨d, hd, rfl⟩ := h
    obtain ⟨k1, k2⟩ := key hd
    exact ⟨k1, fun hm hu hn => k2 hm (fun e => hu ⟨_, rfl, e⟩) hn⟩
  · exact absurd trivial ha

end SmartNumVal

/-- C12: a fraction, divided by the exact zero, is ±1/0; in an overflow-checking build i64::MIN / 0 is a panic. -/
theorem C12_div_zero (m : Mode) (x : SmartNum F) (hx : x.Valid) (q : ℚ) (hq : x.exact? = some q) (h0 : q ≠ 0)
    (hm : m = .release ∨ x.value ≠ .integer i64Min) :
    ∃ z r, x.div m SmartNum.zero = .ok z ∧ z.value = .rational r ∧ r.denominator = 0 ∧ r.nominator = 1 ∧
      (0 < q → r.sign = 1) ∧ (q < 0 → r.sign = -1) ∧
      z.display = .ok (if 0 < q then "1/0" else "-1/0") := by
  have hz : x.value.isZero = false := by
    rw [← Bool.not_eq_true, SmartNumVal.isZero_iff hx.ok]
    intro e; rw [SmartNum.exact?, e] at hq; cases hq; exact h0 rfl
  have hr0 : RationalNum.ofI64 m 0 = .ok ⟨1, 0, 1⟩ := by cases m <;> decide
  have key : ∀ r : RationalNum, r.Valid → r.value = q →
      r.div m ⟨1, 0, 1⟩ = .ok ⟨r.sign, 1, 0⟩ ∧ r.sign = if 0 < q then 1 else -1 := by
    intro r hv hr
    have hn : r.nominator ≠ 0 := fun e => h0 (by rw [← hr, RationalNum.value_eq_zero hv]; exact e)
    have hs' : i64Mul m r.sign 1 = .ok r.sign := by
      rw [i64Mul_fits m (by have := Int64.inI64_toInt r.sign; simpa using this)]; simp
    have hn' : u64Mul m r.nominator 1 = .ok r.nominator := by
      rw [u64Mul_fits m (by have := UInt64.inU64_toNat r.nominator; simpa using this)]; simp
    have hd' : u64Mul m r.denominator 0 = .ok 0 := by
      rw [u64Mul_fits m (by unfold InU64; simp)]; simp
    have hn0 : 0 < r.nominator.toNat :=
      Nat.pos_of_ne_zero fun h => hn (UInt64.toNat_inj.1 (by simpa using h))
    refine ⟨?_, ?_⟩
    · have : (RationalNum.mk r.sign r.nominator 0).reduce = ⟨r.sign, 1, 0⟩ := by
        obtain ⟨a, b⟩ := RationalNum.stores_reduce (RationalNum.mk r.sign r.nominator 0)
        refine RationalNum.ext_toNat rfl ?_ ?_
        · rw [a]
          show r.nominator.toNat / max 1 (Nat.gcd r.nominator.toNat 0) = 1
          rw [Nat.gcd_zero_right, max_eq_right hn0, Nat.div_self hn0]
        · rw [b]
          show 0 / _ = 0
          exact Nat.zero_div _
      unfold RationalNum.div; simp [hs', hn', hd', this]
    · have hdp : (0 : ℚ) < r.nominator.toNat / r.denominator.toNat := by
        have hd0 : 0 < r.denominator.toNat := Nat.pos_of_ne_zero fun h => hv.2 (UInt64.toNat_inj.1 (by simpa using h))
        positivity
      unfold RationalNum.value at hr
      rcases hv.1 with e | e
      · rw [e] at hr
        have : q = r.nominator.toNat / r.denominator.toNat := by rw [← hr, show (1 : Int64).toInt = 1 from rfl]; norm_num
        rw [e, if_pos (this ▸ hdp)]
      · rw [e] at hr
        have : q = -(r.nominator.toNat / r.denominator.toNat) := by rw [← hr, show (-1 : Int64).toInt = -1 from rfl]; push_cast; ring
        rw [e, if_neg (by rw [this]; linarith)]
  have fin : ∀ s : Int64, x.div m SmartNum.zero = .ok (wrapVal (.rational ⟨s, 1, 0⟩)) → s = (if 0 < q then 1 else -1) →
      ∃ z r, x.div m SmartNum.zero = .ok z ∧ z.value = .rational r ∧ r.denominator = 0 ∧ r.nominator = 1 ∧
      (0 < q → r.sign = 1) ∧ (q < 0 → r.sign = -1) ∧
      z.display = .ok (if 0 < q then "1/0" else "-1/0") := by
    intro s h hs
    rw [Undef.wrap ⟨_, rfl, rfl⟩] at h
    refine ⟨_, _, h, rfl, rfl, rfl, fun h => by rw [hs, if_pos h], fun h => by rw [hs, if_neg (by linarith)], ?_⟩
    rw [hs]
    split <;> rfl
  unfold SmartNum.exact? at hq
  rcases hxv : x.value with i | r | f
  · rw [hxv] at hq hz hm
    have hi : i ≠ 0 := by rintro rfl; simp [SmartNumVal.isZero] at hz
    obtain ⟨ri, hri, hv, hval⟩ : ∃ r, RationalNum.ofI64 m i = .ok r ∧ r.Valid ∧ r.value = i.toInt := by
      obtain ⟨r, h1, h2, -, -, h5⟩ := RationalNum.ofI64_wrap i
      by_cases hm' : m = .release
      · subst hm'; exact ⟨r, h1, h2, h5⟩
      · obtain ⟨r, h⟩ := (RationalNum.ofI64_iff hm' i).2 (by
          intro e; subst e; simp [hm'] at hm)
        exact ⟨r, h, RationalNum.ofI64_valid h, (RationalNum.ofI64_exact hm' h).1⟩
    obtain ⟨k1, k2⟩ := key ri hv (by rw [hval]; simpa [SmartNumVal.exact?] using hq)
    refine fin ri.sign ?_ k2
    unfold SmartNum.div SmartNumVal.div
    rw [hxv]
    simp only [hz, SmartNum.zero, hri, hr0, k1, Res.ok_bind, Res.pure_eq, Bool.false_eq_true, if_false]
  · rw [hxv] at hq hz
    have hv := hx.sign_val r hxv
    have hd : r.denominator ≠ 0 := by
      intro e; simp [SmartNumVal.exact?, e] at hq
    have hs : r.Valid := ⟨by rcases hv with h | h; exact h; exact absurd h.2.2 hd, hd⟩
    obtain ⟨k1, k2⟩ := key r hs (by simpa [SmartNumVal.exact?, hd] using hq)
    refine fin r.sign ?_ k2
    unfold SmartNum.div SmartNumVal.div
    rw [hxv]
    simp only [hz, SmartNum.zero, hr0, k1, Res.ok_bind, Res.pure_eq, Bool.false_eq_true, if_false]
  · rw [hxv] at hq; simp [SmartNumVal.exact?] at hq

/-- C12: a fraction with denominator 0 stays one under every operation with exact numbers, in every build, except that a product
with the exact zero is 0, and that a number divided by it can be 0. -/
theorem C12_propagates (m : Mode) (x y : SmartNum F) (hx : x.Valid) (hy : y.Valid) (hu : x.Undefined) (hf : y.NonFloat) :
    (∀ z, x.neg m = .ok z → z.Undefined) ∧
    (∀ z, x.add m y = .ok z → z.Undefined) ∧ (∀ z, y.add m x = .ok z → z.Undefined) ∧
    (∀ z, x.sub m y = .ok z → z.Undefined) ∧ (∀ z, y.sub m x = .ok z → z.Undefined) ∧
    (∀ z, x.div m y = .ok z → z.Undefined) ∧
    (y.isZero = true → x.mul m y = .ok SmartNum.zero ∧ y.mul m x = .ok SmartNum.zero ∧ y.div m x = .ok SmartNum.zero) ∧
    (y.isZero = false → (∀ z, x.mul m y = .ok z → z.Undefined) ∧ (∀ z, y.mul m x = .ok z → z.Undefined)) ∧
    (∀ z, y.div m x = .ok z → z = SmartNum.zero ∨ z.Undefined) := by
  have hx0 : x.isZero = false := by
    rw [← Bool.not_eq_true, hx.zero_iff, hu.2]; simp
  have hx1 : x.isOne = false := by
    rw [← Bool.not_eq_true, hx.one_iff, hu.2]; simp
  have hvu := (undefined_iff x).1 hu
  have hyf := (SmartNum.nonFloat_iff y).1 hf
  have hxf := (SmartNum.nonFloat_iff x).1 hu.1
  have hneg : ∀ z, x.neg m = .ok z → z.Undefined := by
    intro z h
    simp only [SmartNum.neg, Res.bind_eq_ok, Res.pure_eq, Res.ok.injEq] at h
    obtain ⟨v, h, rfl⟩ := h
    exact Undef.undefined (SmartNumVal.neg_undef h hvu)
  refine ⟨hneg, ?_, ?_, ?_, ?_, ?_, ?_, ?_, ?_⟩
  · intro z h
    unfold SmartNum.add at h
    rw [hx0] at h
    split at h
    · contradiction
    split at h
    · cases h; exact hu
    · simp only [Res.bind_eq_ok, Res.pure_eq, Res.ok.injEq] at h
      obtain ⟨v, h, rfl⟩ := h
      exact Undef.undefined (SmartNumVal.add_undef h hxf hyf (.inl hvu))
  · intro z h
    unfold SmartNum.add at h
    split at h
    · cases h; exact hu
    rw [hx0] at h
    split at h
    · contradiction
    · simp only [Res.bind_eq_ok, Res.pure_eq, Res.ok.injEq] at h
      obtain ⟨v, h, rfl⟩ := h
      exact Undef.undefined (SmartNumVal.add_undef h hyf hxf (.inr hvu))
  · intro z h
    unfold SmartNum.sub at h
    rw [hx0] at h
    split at h
    · contradiction
    split at h
    · cases h; exact hu
    · simp only [Res.bind_eq_ok, Res.pure_eq, Res.ok.injEq] at h
      obtain ⟨v, h, rfl⟩ := h
      exact Undef.undefined (SmartNumVal.sub_undef h hxf hyf (.inl hvu))
  · intro z h
    unfold SmartNum.sub at h
    split at h
    · exact hneg z h
    rw [hx0] at h
    split at h
    · contradiction
    · simp only [Res.bind_eq_ok, Res.pure_eq, Res.ok.injEq] at h
      obtain ⟨v, h, rfl⟩ := h
      exact Undef.undefined (SmartNumVal.sub_undef h hyf hxf (.inr hvu))
  · intro z h
    simp only [SmartNum.div, Res.bind_eq_ok, Res.pure_eq, Res.ok.injEq] at h
    obtain ⟨v, h, rfl⟩ := h
    exact Undef.undefined (SmartNumVal.div_undef h hyf hvu)
  · intro h
    have hv : y.value.isZero = true := by rw [hy.value_isZero]; exact h
    have h1 : y.isOne = false := by
      rw [← Bool.not_eq_true, hy.one_iff, hy.zero_iff.1 h]; simp
    refine ⟨?_, ?_, C11_zero_div m y x hy h⟩
    · simp [SmartNum.mul, hx1, h1, SmartNumVal.mul, hv, wrap_int_zero]
    · simp [SmartNum.mul, hx1, h1, SmartNumVal.mul, hv, wrap_int_zero]
  · intro h
    have hv : y.value.isZero = false := by rw [hy.value_isZero]; exact h
    refine ⟨fun z hz => ?_, fun z hz => ?_⟩
    · unfold SmartNum.mul at hz
      rw [hx1] at hz
      split at hz
      · contradiction
      split at hz
      · cases hz; exact hu
      · simp only [Res.bind_eq_ok, Res.pure_eq, Res.ok.injEq] at hz
        obtain ⟨v, hz, rfl⟩ := hz
        exact Undef.undefined (SmartNumVal.mul_undef hz hxf hyf (.inl hvu) hvu.not_zero hv)
    · unfold SmartNum.mul at hz
      rw [hx1] at hz
      split at hz
      · cases hz; exact hu
      split at hz
      · contradiction
      · simp only [Res.bind_eq_ok, Res.pure_eq, Res.ok.injEq] at hz
        obtain ⟨v, hz, rfl⟩ := hz
        exact Undef.undefined (SmartNumVal.mul_undef hz hyf hxf (.inr hvu) hv hvu.not_zero)
  · intro z h
    obtain ⟨t, ht, hd⟩ := hvu
    simp only [SmartNum.div, Res.bind_eq_ok, Res.pure_eq, Res.ok.injEq, ht] at h
    obtain ⟨v, h, rfl⟩ := h
    rcases (SmartNumVal.div_by_undef h hyf hd).1 with k | k
    · exact .inl k
    · exact .inr (Undef.undefined k)

/-- C12: a number with a value, divided by n/0 with n ≠ 0, is 0 in an overflow-checking build, if that does not panic. -/
theorem C12_by_undefined (m : Mode) (hm : m ≠ .release) (x y z : SmartNum F) (r : RationalNum) (hx : x.value = .rational r)
    (hd : r.denominator = 0) (hn : r.nominator ≠ 0) (q : ℚ) (hy : y.exact? = some q) (h : y.div m x = .ok z) :
    z = SmartNum.zero := by
  simp only [SmartNum.div, Res.bind_eq_ok, Res.pure_eq, Res.ok.injEq, hx] at h
  obtain ⟨v, h, rfl⟩ := h
  refine (SmartNumVal.div_by_undef h ?_ hd).2 hm ?_ hn
  · rw [← SmartNum.nonFloat_iff]; intro f hf; simp [SmartNum.exact?, hf, SmartNumVal.exact?] at hy
  · rw [← undefined_iff]; intro hu; rw [hu.2] at hy; cases hy

namespace F64
open Float.Model (UnpackedFloat)
open Float.Model.UnpackedFloat (Sign)

/-- A double divided by the float zero. -/
theorem div_zero {f : Float.Model} {v : ℝ} (hv : value f = some v) :
    (0 < v → f.div (Float.Model.ofInt64 0) = Float.Model.ofBits 0x7FF0000000000000) ∧
    (v < 0 → f.div (Float.Model.ofInt64 0) = Float.Model.ofBits 0xFFF0000000000000) ∧
    (v = 0 → f.div (Float.Model.ofInt64 0) = Float.Model.ofBits 0x7FF8000000000000) := by
  have hz : (Float.Model.ofInt64 0).unpack = .zero .positive := by rfl
  have hd : f.div (Float.Model.ofInt64 0) = Float.Model.pack (UnpackedFloat.div .binary64 f.unpack (.zero .positive)) := by
    rw [← hz]; rfl
  rw [hd]
  unfold value at hv
  rcases hu : f.unpack with _ | s | s | ⟨s, k, e, hk⟩
  · rw [hu] at hv; cases hv
  · rw [hu] at hv; cases hv
  · rw [hu] at hv; cases hv
    refine ⟨fun h => absurd h (lt_irrefl _), fun h => absurd h (lt_irrefl _), fun _ => rfl⟩
  · rw [hu] at hv
    simp only [unpackedValue, Option.some.injEq] at hv
    have hp : (0 : ℝ) < k * 2 ^ e := by have : (0 : ℝ) < k := by exact_mod_cast hk
                                        positivity
    cases s
    · simp only [signValue] at hv
      refine ⟨fun h => by linarith, fun _ => rfl, fun h => by linarith⟩
    · simp only [signValue] at hv
      refine ⟨fun _ => rfl, fun h => by linarith, fun h => by linarith⟩

end F64

open F64 in
/-- C12, doubles: a finite double divided by the exact zero is inf, -inf or NaN. -/
theorem C12_f64 (m : Mode) (x : SmartNum Float.Model) (f : Float.Model) (hx : x.value = .real f) (v : ℝ) (hv : value f = some v) :
    ∃ z, x.div m SmartNum.zero = .ok z ∧ z.display = .ok (if 0 < v then "inf" else if v < 0 then "-inf" else "NaN") := by
  have h : x.div m SmartNum.zero = .ok (wrapVal (.real (f.div (Float.Model.ofInt64 0)))) := by
    unfold SmartNum.div SmartNumVal.div
    rw [hx]; rfl
  refine ⟨_, h, ?_⟩
  obtain ⟨h1, h2, h3⟩ := div_zero hv
  rcases lt_trichotomy v 0 with k | k | k
  · rw [h2 k, if_neg (by linarith), if_pos k]; rfl
  · rw [h3 k, if_neg (by linarith), if_neg (by linarith)]; rfl
  · rw [h1 k, if_pos k]; rfl

/-- Non-vacuous: 1/0 = (3/5)/0; it plus 2, minus itself, times 0, and 2 divided by it. -/
theorem C12_example : let u : SmartNum Unit := ⟨.rational ⟨1, 1, 0⟩, .nothing⟩
    (∃ x : SmartNum Unit, SmartNum.newRational .debug 1 3 5 = .ok (some x) ∧ x.div .debug SmartNum.zero = .ok u) ∧
    u.Undefined ∧
    u.add .debug (.ofI64 2) = .ok u ∧ u.sub .debug u = .ok ⟨.rational ⟨0, 0, 0⟩, .nothing⟩ ∧
    u.mul .debug SmartNum.zero = .ok SmartNum.zero ∧ (SmartNum.ofI64 2).div .debug u = .ok SmartNum.zero := by
  refine ⟨⟨⟨.rational ⟨1, 3, 5⟩, .nothing⟩, by decide +kernel, by decide +kernel⟩, (undefined_iff _).2 ⟨_, rfl, rfl⟩, ?_⟩
  decide +kernel

end SymRust
