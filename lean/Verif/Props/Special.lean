import Verif.Props.Nearest
/-! # Infinities and NaN: property C88 -/

namespace SymRust
open F64
open Float.Model (UnpackedFloat)

namespace Special

/-- The results of the operators if one operand is a float: the float operation, or a short cut for an exact 0 or 1. -/
theorem add_cases {m : Mode} {x y : SmartNum Float.Model} (hx : x.Valid) (hy : y.Valid)
    (hf : x.value.isReal = true ∨ y.value.isReal = true) : ∃ z, x.add m y = .ok z ∧
      (z.toF64 = x.toF64.add y.toF64 ∨ (x.exact? = some 0 ∧ z = y) ∨ (y.exact? = some 0 ∧ z = x)) := by
  unfold SmartNum.add
  split_ifs with h1 h2
  · exact ⟨_, rfl, .inr (.inl ⟨hx.zero_iff.1 h1, rfl⟩)⟩
  · exact ⟨_, rfl, .inr (.inr ⟨hy.zero_iff.1 h2, rfl⟩)⟩
  · rw [Rounding.add_float (isF_of_isReal hf)]
    exact ⟨_, rfl, .inl rfl⟩

theorem real_of_zero {x y : SmartNum Float.Model} (hf : x.value.isReal = true ∨ y.value.isReal = true)
    (h : x.exact? = some 0) : ∃ g, y.value = .real g := by
  rw [SmartNum.exact?] at h
  rcases hf with hf | hf
  · cases hv : x.value with
    | real f => rw [hv] at h; cases h
    | integer i => rw [hv] at hf; cases hf
    | rational r => rw [hv] at hf; cases hf
  · cases hv : y.value with
    | real f => exact ⟨f, rfl⟩
    | integer i => rw [hv] at hf; cases hf
    | rational r => rw [hv] at hf; cases hf

theorem sub_cases {m : Mode} {x y : SmartNum Float.Model} (hx : x.Valid) (hy : y.Valid)
    (hf : x.value.isReal = true ∨ y.value.isReal = true) : ∃ z, x.sub m y = .ok z ∧
      (z.toF64 = x.toF64.sub y.toF64 ∨ (x.exact? = some 0 ∧ z.toF64 = y.toF64.neg) ∨ (y.exact? = some 0 ∧ z = x)) := by
  unfold SmartNum.sub
  split_ifs with h1 h2
  · have h3 := hx.zero_iff.1 h1
    obtain ⟨g, hg⟩ := real_of_zero hf h3
    unfold SmartNum.neg
    rw [hg]
    exact ⟨_, rfl, .inr (.inl ⟨h3, by rw [SmartNum.toF64, SmartNum.toF64, hg]; rfl⟩)⟩
  · exact ⟨_, rfl, .inr (.inr ⟨hy.zero_iff.1 h2, rfl⟩)⟩
  · rw [Rounding.sub_float (isF_of_isReal hf)]
    exact ⟨_, rfl, .inl rfl⟩

theorem ok_of_valid {x : SmartNum Float.Model} (hx : x.Valid) : x.value.isZero = true ↔ x.exact? = some 0 := by
  refine ⟨exact_of_isZero64, fun h => ?_⟩
  rw [SmartNum.exact?] at h
  cases hv : x.value with
  | real f => rw [hv] at h; cases h
  | integer i =>
    rw [hv] at h
    simp only [SmartNumVal.exact?, Option.some.injEq, Int.cast_eq_zero] at h
    have : i = 0 := by rw [← Int64.toInt_inj, h]; rfl
    rw [this]; rfl
  | rational r =>
    rw [hv, SmartNumVal.exact?] at h
    split at h
    · cases h
    rename_i hd
    have hs := (hx.sign_val r hv).resolve_right fun h => hd h.2.2
    have hv : r.Valid := ⟨hs, hd⟩
    simp only [Option.some.injEq] at h
    have hn := (RationalNum.value_eq_zero hv).1 h
    simp [SmartNumVal.isZero, hn, hd]

theorem mul_cases {m : Mode} {x y : SmartNum Float.Model} (hx : x.Valid) (hy : y.Valid)
    (hf : x.value.isReal = true ∨ y.value.isReal = true) : ∃ z, x.mul m y = .ok z ∧
      (((x.exact? = some 0 ∨ y.exact? = some 0) ∧ z.exact? = some 0) ∨
        (¬ (x.exact? = some 0 ∨ y.exact? = some 0) ∧ (z.toF64 = x.toF64.mul y.toF64 ∨ (x.exact? = some 1 ∧ z = y) ∨
          (y.exact? = some 1 ∧ z = x)))) := by
  have no : ∀ {q : ℚ} {x : SmartNum Float.Model}, x.exact? = some q → q ≠ 0 → ¬ x.exact? = some 0 := fun h h0 h' => by
    rw [h] at h'; cases h'; exact h0 rfl
  unfold SmartNum.mul
  split_ifs with h1 h2
  · have h3 := hx.one_iff.1 h1
    refine ⟨_, rfl, ?_⟩
    by_cases h4 : y.exact? = some 0
    · exact .inl ⟨.inr h4, h4⟩
    · exact .inr ⟨not_or.2 ⟨no h3 (by norm_num), h4⟩, .inr (.inl ⟨h3, rfl⟩)⟩
  · have h3 := hy.one_iff.1 h2
    refine ⟨_, rfl, ?_⟩
    by_cases h4 : x.exact? = some 0
    · exact .inl ⟨.inl h4, h4⟩
    · exact .inr ⟨not_or.2 ⟨h4, no h3 (by norm_num)⟩, .inr (.inr ⟨h3, rfl⟩)⟩
  · cases hz : x.value.isZero || y.value.isZero with
    | true =>
      refine ⟨_, by unfold SmartNumVal.mul; rw [if_pos hz]; rfl, .inl ⟨?_, by rfl⟩⟩
      exact (by simpa using hz : x.value.isZero = true ∨ y.value.isZero = true).imp exact_of_isZero64 exact_of_isZero64
    | false =>
      rw [Rounding.mul_float (isF_of_isReal hf) hz]
      refine ⟨_, rfl, .inr ⟨fun h => ?_, .inl rfl⟩⟩
      rw [Bool.or_eq_false_iff] at hz
      rcases h with h | h
      · rw [(ok_of_valid hx).2 h] at hz; cases hz.1
      · rw [(ok_of_valid hy).2 h] at hz; cases hz.2

theorem div_cases {m : Mode} {x y : SmartNum Float.Model} (hx : x.Valid)
    (hf : x.value.isReal = true ∨ y.value.isReal = true) : ∃ z, x.div m y = .ok z ∧
      ((x.exact? = some 0 ∧ z.exact? = some 0) ∨ (¬ x.exact? = some 0 ∧ z.toF64 = x.toF64.div y.toF64)) := by
  unfold SmartNum.div
  cases hz : x.value.isZero with
  | true =>
    exact ⟨_, by unfold SmartNumVal.div; rw [if_pos hz]; rfl, .inl ⟨exact_of_isZero64 hz, by rfl⟩⟩
  | false =>
    rw [Rounding.div_float (isF_of_isReal hf) hz]
    exact ⟨_, rfl, .inr ⟨fun h => Bool.noConfusion (hz.symm.trans ((ok_of_valid hx).2 h)), rfl⟩⟩

theorem isNaN_iff {f : Float.Model} : f.isNaN = true ↔ f.unpack = .notANumber := by
  unfold Float.Model.isNaN
  cases f.unpack <;> simp [UnpackedFloat.isNaN]

theorem pack_nan : (Float.Model.pack .notANumber).unpack = .notANumber := unpack_pack (f := .notANumber) trivial
theorem pack_inf (s) : (Float.Model.pack (.infinity s)).unpack = .infinity s := unpack_pack (f := .infinity s) trivial
theorem pack_zero (s) : (Float.Model.pack (.zero s)).unpack = .zero s := unpack_pack (f := .zero s) trivial

theorem not_special {f : Float.Model} {x : ℝ} (h : value f = some x) : f.unpack ≠ .notANumber ∧ ∀ s, f.unpack ≠ .infinity s := by
  unfold value at h
  refine ⟨fun h1 => ?_, fun s h1 => ?_⟩ <;> rw [h1] at h <;> cases h

end Special
open Special

/-- C88: with a NaN, `+` and `-` give NaN; so do `*` and `/`, unless a factor or the dividend is an exact 0, which
gives the exact 0 (not NaN as in IEEE-754). -/
theorem C88_nan (m : Mode) (x y : SmartNum Float.Model) (hx : SmartNum.Reachable m x) (hy : SmartNum.Reachable m y)
    (hf : x.value.isReal = true ∨ y.value.isReal = true) (hn : x.toF64.isNaN = true ∨ y.toF64.isNaN = true) :
    (∃ z, x.add m y = .ok z ∧ z.toF64.isNaN = true) ∧ (∃ z, x.sub m y = .ok z ∧ z.toF64.isNaN = true) ∧
    (∃ z, x.mul m y = .ok z ∧ if x.exact? = some 0 ∨ y.exact? = some 0 then z.exact? = some 0 else z.toF64.isNaN = true) ∧
    (∃ z, x.div m y = .ok z ∧ if x.exact? = some 0 then z.exact? = some 0 else z.toF64.isNaN = true) := by
  simp only [isNaN_iff] at hn ⊢
  have hx := hx.valid
  have hy := hy.valid
  have zx : x.exact? = some 0 → y.toF64.unpack = .notANumber := fun h =>
    hn.resolve_left (not_special (toF64_zero hx h)).1
  have zy : y.exact? = some 0 → x.toF64.unpack = .notANumber := fun h =>
    hn.resolve_right (not_special (toF64_zero hy h)).1
  have ox : x.exact? = some 1 → y.toF64.unpack = .notANumber := fun h =>
    hn.resolve_left (not_special (toF64_one hx h)).1
  have oy : y.exact? = some 1 → x.toF64.unpack = .notANumber := fun h =>
    hn.resolve_right (not_special (toF64_one hy h)).1
  refine ⟨?_, ?_, ?_, ?_⟩
  · obtain ⟨z, hz, h⟩ := add_cases (m := m) hx hy hf
    refine ⟨z, hz, ?_⟩
    rcases h with h | ⟨h, rfl⟩ | ⟨h, rfl⟩
    · rw [h, Float.Model.add]
      rcases hn with hn | hn <;> rw [hn]
      · rw [show UnpackedFloat.add .binary64 .notANumber y.toF64.unpack = .notANumber from rfl]; exact pack_nan
      · rw [show UnpackedFloat.add .binary64 x.toF64.unpack .notANumber = .notANumber by cases x.toF64.unpack <;> rfl]; exact pack_nan
    · exact zx h
    · exact zy h
  · obtain ⟨z, hz, h⟩ := sub_cases (m := m) hx hy hf
    refine ⟨z, hz, ?_⟩
    rcases h with h | ⟨h, h'⟩ | ⟨h, rfl⟩
    · rw [h, Float.Model.sub]
      rcases hn with hn | hn <;> rw [hn]
      · rw [show UnpackedFloat.sub .binary64 .notANumber y.toF64.unpack = .notANumber from rfl]; exact pack_nan
      · rw [show UnpackedFloat.sub .binary64 x.toF64.unpack .notANumber = .notANumber by cases x.toF64.unpack <;> rfl]; exact pack_nan
    · rw [h', Float.Model.neg, zx h]; exact pack_nan
    · exact zy h
  · obtain ⟨z, hz, h⟩ := mul_cases (m := m) hx hy hf
    refine ⟨z, hz, ?_⟩
    rcases h with ⟨h, h'⟩ | ⟨h, h'⟩
    · rw [if_pos h]; exact h'
    · rw [if_neg h]
      rcases h' with h' | ⟨h', rfl⟩ | ⟨h', rfl⟩
      · rw [h', Float.Model.mul]
        rcases hn with hn | hn <;> rw [hn]
        · rw [show UnpackedFloat.mul .binary64 .notANumber y.toF64.unpack = .notANumber from rfl]; exact pack_nan
        · rw [show UnpackedFloat.mul .binary64 x.toF64.unpack .notANumber = .notANumber by cases x.toF64.unpack <;> rfl]; exact pack_nan
      · exact ox h'
      · exact oy h'
  · obtain ⟨z, hz, h⟩ := div_cases (m := m) hx hf
    refine ⟨z, hz, ?_⟩
    rcases h with ⟨h, h'⟩ | ⟨h, h'⟩
    · rw [if_pos h]; exact h'
    · rw [if_neg h, h', Float.Model.div]
      rcases hn with hn | hn <;> rw [hn]
      · rw [show UnpackedFloat.div .binary64 .notANumber y.toF64.unpack = .notANumber from rfl]; exact pack_nan
      · rw [show UnpackedFloat.div .binary64 x.toF64.unpack .notANumber = .notANumber by cases x.toF64.unpack <;> rfl]; exact pack_nan

/-- C88: adding a finite number to an infinite one, or subtracting it, leaves the infinity; subtracted, the infinity changes
its sign. -/
theorem C88_infinity_finite (m : Mode) (x y : SmartNum Float.Model) (hx : SmartNum.Reachable m x) (hy : SmartNum.Reachable m y)
    (hf : x.value.isReal = true ∨ y.value.isReal = true) (s : UnpackedFloat.Sign) (hi : x.toF64.unpack = .infinity s) (b : ℝ)
    (hb : value y.toF64 = some b) :
    (∃ z, x.add m y = .ok z ∧ z.toF64.unpack = .infinity s) ∧ (∃ z, y.add m x = .ok z ∧ z.toF64.unpack = .infinity s) ∧
    (∃ z, x.sub m y = .ok z ∧ z.toF64.unpack = .infinity s) ∧ (∃ z, y.sub m x = .ok z ∧ z.toF64.unpack = .infinity (-s)) := by
  have hx := hx.valid
  have hy := hy.valid
  have nx : ¬ x.exact? = some 0 := fun h => (not_special (toF64_zero hx h)).2 s hi
  refine ⟨?_, ?_, ?_, ?_⟩
  · obtain ⟨z, hz, h⟩ := add_cases (m := m) hx hy hf
    refine ⟨z, hz, ?_⟩
    rcases h with h | ⟨h, rfl⟩ | ⟨h, rfl⟩
    · rw [h, Float.Model.add, hi]
      rcases unpack_of_value hb with ⟨s', h1, rfl⟩ | ⟨s', m', e', hm', h1, hc, he, rfl⟩ <;> rw [h1] <;> exact pack_inf _
    · exact absurd h nx
    · exact hi
  · obtain ⟨z, hz, h⟩ := add_cases (m := m) hy hx hf.symm
    refine ⟨z, hz, ?_⟩
    rcases h with h | ⟨h, rfl⟩ | ⟨h, rfl⟩
    · rw [h, Float.Model.add, hi]
      rcases unpack_of_value hb with ⟨s', h1, rfl⟩ | ⟨s', m', e', hm', h1, hc, he, rfl⟩ <;> rw [h1] <;> exact pack_inf _
    · exact hi
    · exact absurd h nx
  · obtain ⟨z, hz, h⟩ := sub_cases (m := m) hx hy hf
    refine ⟨z, hz, ?_⟩
    rcases h with h | ⟨h, h'⟩ | ⟨h, rfl⟩
    · rw [h, Float.Model.sub, hi]
      rcases unpack_of_value hb with ⟨s', h1, rfl⟩ | ⟨s', m', e', hm', h1, hc, he, rfl⟩ <;> rw [h1] <;> exact pack_inf _
    · exact absurd h nx
    · exact hi
  · obtain ⟨z, hz, h⟩ := sub_cases (m := m) hy hx hf.symm
    refine ⟨z, hz, ?_⟩
    rcases h with h | ⟨h, h'⟩ | ⟨h, rfl⟩
    · rw [h, Float.Model.sub, hi]
      rcases unpack_of_value hb with ⟨s', h1, rfl⟩ | ⟨s', m', e', hm', h1, hc, he, rfl⟩ <;> rw [h1] <;> exact pack_inf _
    · rw [h', Float.Model.neg, hi]; exact pack_inf _
    · exact absurd h nx

/-- C88: two infinities. -/
theorem C88_infinities (m : Mode) (x y : SmartNum Float.Model) (hx : SmartNum.Reachable m x) (hy : SmartNum.Reachable m y)
    (hf : x.value.isReal = true ∨ y.value.isReal = true) (s s' : UnpackedFloat.Sign) (hi : x.toF64.unpack = .infinity s)
    (hj : y.toF64.unpack = .infinity s') :
    (∃ z, x.add m y = .ok z ∧ (s = s' → z.toF64.unpack = .infinity s) ∧ (s ≠ s' → z.toF64.isNaN = true)) ∧
    (∃ z, x.sub m y = .ok z ∧ (s = s' → z.toF64.isNaN = true) ∧ (s ≠ s' → z.toF64.unpack = .infinity s)) ∧
    (∃ z, x.mul m y = .ok z ∧ z.toF64.unpack = .infinity (s * s')) ∧
    (∃ z, x.div m y = .ok z ∧ z.toF64.isNaN = true) := by
  simp only [isNaN_iff]
  have hx := hx.valid
  have hy := hy.valid
  have nx : ¬ x.exact? = some 0 := fun h => (not_special (toF64_zero hx h)).2 s hi
  have ny : ¬ y.exact? = some 0 := fun h => (not_special (toF64_zero hy h)).2 s' hj
  have ox : ¬ x.exact? = some 1 := fun h => (not_special (toF64_one hx h)).2 s hi
  have oy : ¬ y.exact? = some 1 := fun h => (not_special (toF64_one hy h)).2 s' hj
  refine ⟨?_, ?_, ?_, ?_⟩
  · obtain ⟨z, hz, h⟩ := add_cases (m := m) hx hy hf
    refine ⟨z, hz, ?_⟩
    rcases h with h | ⟨h, -⟩ | ⟨h, -⟩
    · rw [h, Float.Model.add, hi, hj]
      cases s <;> cases s'
      · exact ⟨fun _ => pack_inf _, fun h => absurd rfl h⟩
      · exact ⟨fun h => (by cases h), fun _ => pack_nan⟩
      · exact ⟨fun h => (by cases h), fun _ => pack_nan⟩
      · exact ⟨fun _ => pack_inf _, fun h => absurd rfl h⟩
    · exact absurd h nx
    · exact absurd h ny
  · obtain ⟨z, hz, h⟩ := sub_cases (m := m) hx hy hf
    refine ⟨z, hz, ?_⟩
    rcases h with h | ⟨h, -⟩ | ⟨h, -⟩
    · rw [h, Float.Model.sub, hi, hj]
      cases s <;> cases s'
      · exact ⟨fun _ => pack_nan, fun h => absurd rfl h⟩
      · exact ⟨fun h => (by cases h), fun _ => pack_inf _⟩
      · exact ⟨fun h => (by cases h), fun _ => pack_inf _⟩
      · exact ⟨fun _ => pack_nan, fun h => absurd rfl h⟩
    · exact absurd h nx
    · exact absurd h ny
  · obtain ⟨z, hz, h⟩ := mul_cases (m := m) hx hy hf
    refine ⟨z, hz, ?_⟩
    rcases h with ⟨h, -⟩ | ⟨-, h | ⟨h, -⟩ | ⟨h, -⟩⟩
    · rcases h with h | h
      · exact absurd h nx
      · exact absurd h ny
    · rw [h, Float.Model.mul, hi, hj]; exact pack_inf _
    · exact absurd h ox
    · exact absurd h oy
  · obtain ⟨z, hz, h⟩ := div_cases (m := m) hx hf
    refine ⟨z, hz, ?_⟩
    rcases h with ⟨h, -⟩ | ⟨-, h⟩
    · exact absurd h nx
    · rw [h, Float.Model.div, hi, hj]; exact pack_nan

/-- C88: infinity times or divided by a finite number that is not 0 is an infinity with the product of the signs; a finite
number divided by infinity is 0. -/
theorem C88_infinity_product (m : Mode) (x y : SmartNum Float.Model) (hx : SmartNum.Reachable m x) (hy : SmartNum.Reachable m y)
    (hf : x.value.isReal = true ∨ y.value.isReal = true) (s : UnpackedFloat.Sign) (hi : x.toF64.unpack = .infinity s) (b : ℝ)
    (hb : value y.toF64 = some b) :
    (b ≠ 0 → (∃ z, x.mul m y = .ok z ∧ z.toF64.unpack = .infinity (if 0 < b then s else -s)) ∧
      (∃ z, y.mul m x = .ok z ∧ z.toF64.unpack = .infinity (if 0 < b then s else -s)) ∧
      (∃ z, x.div m y = .ok z ∧ z.toF64.unpack = .infinity (if 0 < b then s else -s))) ∧
    (∃ z, y.div m x = .ok z ∧ value z.toF64 = some 0) := by
  have hx := hx.valid
  have hy := hy.valid
  have nx : ¬ x.exact? = some 0 := fun h => (not_special (toF64_zero hx h)).2 s hi
  have ox : ¬ x.exact? = some 1 := fun h => (not_special (toF64_one hx h)).2 s hi
  constructor
  · intro hb0
    have ny : ¬ y.exact? = some 0 := fun h => by
      cases (toF64_zero hy h).symm.trans hb; exact hb0 rfl
    have oy : y.exact? = some 1 → 0 < b := fun h => by
      cases (toF64_one hy h).symm.trans hb; norm_num
    obtain ⟨s', m', e', hm', h1, hs⟩ : ∃ s' m' e' hm', y.toF64.unpack = .finite s' m' e' hm' ∧
        (∀ t : UnpackedFloat.Sign, (if 0 < b then t else -t) = t * s' ∧ (if 0 < b then t else -t) = s' * t ∧
          (if 0 < b then t else -t) = t / s') := by
      rcases unpack_of_value hb with ⟨s', h1, rfl⟩ | ⟨s', m', e', hm', h1, hc, he, rfl⟩
      · exact absurd rfl hb0
      · refine ⟨s', m', e', hm', h1, fun t => ?_⟩
        have hp : (0 : ℝ) < m' * 2 ^ e' := mul_pos (by exact_mod_cast hm') (two_zpow_pos e')
        cases s'
        · rw [if_neg (by simp only [signValue]; linarith)]; cases t <;> exact ⟨rfl, rfl, rfl⟩
        · rw [if_pos (by simp only [signValue]; linarith)]; cases t <;> exact ⟨rfl, rfl, rfl⟩
    refine ⟨?_, ?_, ?_⟩
    · obtain ⟨z, hz, h⟩ := mul_cases (m := m) hx hy hf
      refine ⟨z, hz, ?_⟩
      rcases h with ⟨h, -⟩ | ⟨-, h | ⟨h, -⟩ | ⟨h, rfl⟩⟩
      · rcases h with h | h
        · exact absurd h nx
        · exact absurd h ny
      · rw [h, Float.Model.mul, hi, h1, (hs s).1]; exact pack_inf _
      · exact absurd h ox
      · rw [if_pos (oy h)]; exact hi
    · obtain ⟨z, hz, h⟩ := mul_cases (m := m) hy hx hf.symm
      refine ⟨z, hz, ?_⟩
      rcases h with ⟨h, -⟩ | ⟨-, h | ⟨h, rfl⟩ | ⟨h, -⟩⟩
      · rcases h with h | h
        · exact absurd h ny
        · exact absurd h nx
      · rw [h, Float.Model.mul, hi, h1, (hs s).2.1]; exact pack_inf _
      · rw [if_pos (oy h)]; exact hi
      · exact absurd h ox
    · obtain ⟨z, hz, h⟩ := div_cases (m := m) hx hf
      refine ⟨z, hz, ?_⟩
      rcases h with ⟨h, -⟩ | ⟨-, h⟩
      · exact absurd h nx
      · rw [h, Float.Model.div, hi, h1, (hs s).2.2]; exact pack_inf _
  · obtain ⟨z, hz, h⟩ := div_cases (m := m) hy hf.symm
    refine ⟨z, hz, ?_⟩
    rcases h with ⟨-, h⟩ | ⟨-, h⟩
    · have hzero : z.Valid := SmartNum.valid_div hy hx hz
      exact toF64_zero hzero h
    · rw [h, Float.Model.div, hi]
      rcases unpack_of_value hb with ⟨s', h1, rfl⟩ | ⟨s', m', e', hm', h1, hc, he, rfl⟩ <;> rw [h1] <;>
        exact pack_value (f := .zero _) trivial

/-- C88: dividing by a float that is 0.  A number that is not 0 gives infinity, with the product of the signs (so `-0.0`
counts as negative); a float 0 gives NaN; but the exact 0 gives the exact 0. -/
theorem C88_div_float_zero (m : Mode) (x y : SmartNum Float.Model) (hx : SmartNum.Reachable m x) (s : UnpackedFloat.Sign)
    (hy : y.value.isReal = true) (h0 : y.toF64.unpack = .zero s) (a : ℝ) (ha : value x.toF64 = some a) :
    (a ≠ 0 → ∃ z, x.div m y = .ok z ∧ z.toF64.unpack = .infinity (if 0 < a then s else -s)) ∧
    (a = 0 → x.value.isReal = true → ∃ z, x.div m y = .ok z ∧ z.toF64.isNaN = true) ∧
    (x.exact? = some 0 → ∃ z, x.div m y = .ok z ∧ z.exact? = some 0) := by
  have hx := hx.valid
  obtain ⟨z, hz, h⟩ := div_cases (m := m) hx (.inr hy)
  refine ⟨fun h1 => ⟨z, hz, ?_⟩, fun h1 h2 => ⟨z, hz, ?_⟩, fun h1 => ⟨z, hz, ?_⟩⟩
  · rcases h with ⟨h, -⟩ | ⟨-, h⟩
    · cases (toF64_zero hx h).symm.trans ha; exact absurd rfl h1
    · rw [h, Float.Model.div, h0]
      rcases unpack_of_value ha with ⟨s', h2, rfl⟩ | ⟨s', m', e', hm', h2, hc, he, rfl⟩
      · exact absurd rfl h1
      · have hp : (0 : ℝ) < m' * 2 ^ e' := mul_pos (by exact_mod_cast hm') (two_zpow_pos e')
        have hs : (if 0 < signValue s' * (m' * 2 ^ e') then s else -s) = s' / s := by
          cases s'
          · rw [if_neg (by simp only [signValue]; linarith)]; cases s <;> rfl
          · rw [if_pos (by simp only [signValue]; linarith)]; cases s <;> rfl
        rw [h2, hs]; exact pack_inf _
  · subst h1
    rw [isNaN_iff]
    rcases h with ⟨h, -⟩ | ⟨-, h⟩
    · rw [SmartNum.exact?] at h
      cases hv : x.value with
      | real f => rw [hv] at h; cases h
      | integer i => rw [hv] at h2; cases h2
      | rational r => rw [hv] at h2; cases h2
    · rw [h, Float.Model.div, h0]
      rcases unpack_of_value ha with ⟨s', h2, -⟩ | ⟨s', m', e', hm', h2, hc, he, h3⟩
      · rw [h2]; exact pack_nan
      · have hp : (0 : ℝ) < m' * 2 ^ e' := mul_pos (by exact_mod_cast hm') (two_zpow_pos e')
        cases s' <;> simp only [signValue] at h3 <;> linarith
  · rcases h with ⟨-, h⟩ | ⟨h, -⟩
    · exact h
    · exact absurd h1 h

/-- C88: infinity times 0: the exact 0 wins, a float 0 gives NaN. -/
theorem C88_infinity_zero (m : Mode) (x y : SmartNum Float.Model) (hx : SmartNum.Reachable m x) (hy : SmartNum.Reachable m y)
    (hf : x.value.isReal = true ∨ y.value.isReal = true) (s : UnpackedFloat.Sign) (hi : x.toF64.unpack = .infinity s) :
    (y.exact? = some 0 → ∃ z, x.mul m y = .ok z ∧ z.exact? = some 0) ∧
    (y.value.isReal = true → value y.toF64 = some 0 → ∃ z, x.mul m y = .ok z ∧ z.toF64.isNaN = true) := by
  have hx := hx.valid
  have hy := hy.valid
  have nx : ¬ x.exact? = some 0 := fun h => (not_special (toF64_zero hx h)).2 s hi
  obtain ⟨z, hz, h⟩ := mul_cases (m := m) hx hy hf
  refine ⟨fun h1 => ⟨z, hz, ?_⟩, fun h1 h2 => ⟨z, hz, ?_⟩⟩
  · rcases h with ⟨-, h⟩ | ⟨h, -⟩
    · exact h
    · exact absurd (.inr h1) h
  · obtain ⟨g, hg⟩ : ∃ g, y.value = .real g := by
      cases hv : y.value with
      | real f => exact ⟨f, rfl⟩
      | integer i => rw [hv] at h1; cases h1
      | rational r => rw [hv] at h1; cases h1
    have ny : ∀ q, ¬ y.exact? = some q := fun q h => by rw [SmartNum.exact?, hg] at h; cases h
    rw [isNaN_iff]
    rcases h with ⟨h, -⟩ | ⟨-, h | ⟨h, -⟩ | ⟨h, -⟩⟩
    · rcases h with h | h
      · exact absurd h nx
      · exact absurd h (ny 0)
    · rw [h, Float.Model.mul, hi]
      rcases unpack_of_value h2 with ⟨s', h3, -⟩ | ⟨s', m', e', hm', h3, hc, he, h4⟩
      · rw [h3]; exact pack_nan
      · have hp : (0 : ℝ) < m' * 2 ^ e' := mul_pos (by exact_mod_cast hm') (two_zpow_pos e')
        cases s' <;> simp only [signValue] at h4 <;> linarith
    · exact absurd h fun h => (not_special (toF64_one hx h)).2 s hi
    · exact absurd h (ny 1)

/-- C88: only finite numbers are close to anything, whatever `eps` is. -/
theorem C88_is_close (x y : SmartNum Float.Model) (eps : Float.Model) (h : x.isClose y eps = true) :
    (∃ a, value x.toF64 = some a) ∧ ∃ b, value y.toF64 = some b := by
  have h : Float.Model.lt (x.toF64.sub y.toF64).abs eps = true := h
  generalize x.toF64 = f at *
  generalize y.toF64 = g at *
  have nan : ∀ d : Float.Model, d.unpack = .notANumber → ¬ Float.Model.lt d.abs eps = true := fun d hd => by
    unfold Float.Model.lt Float.Model.abs
    rw [hd, UnpackedFloat.abs, pack_nan]
    cases eps.unpack <;> simp [UnpackedFloat.lt, UnpackedFloat.compare]
  have inf : ∀ (d : Float.Model) s, d.unpack = .infinity s → ¬ Float.Model.lt d.abs eps = true := fun d s hd => by
    unfold Float.Model.lt Float.Model.abs
    rw [hd, UnpackedFloat.abs, pack_inf]
    cases eps.unpack with
    | infinity s' => cases s' <;> simp [UnpackedFloat.lt, UnpackedFloat.compare]
    | _ => simp [UnpackedFloat.lt, UnpackedFloat.compare]
  have key : ∀ u v : UnpackedFloat, f.unpack = u → g.unpack = v →
      (UnpackedFloat.sub .binary64 u v = .notANumber ∨ ∃ s, UnpackedFloat.sub .binary64 u v = .infinity s) → False := by
    rintro u v hu hv (h1 | ⟨s, h1⟩)
    · exact nan _ (by rw [Float.Model.sub, hu, hv, h1, pack_nan]) h
    · exact inf _ s (by rw [Float.Model.sub, hu, hv, h1, pack_inf]) h
  unfold value
  cases hu : f.unpack with
  | notANumber => exact (key _ _ hu rfl (.inl rfl)).elim
  | infinity s =>
    cases hv : g.unpack with
    | notANumber => exact (key _ _ hu hv (.inl rfl)).elim
    | infinity s' => exact (key _ _ hu hv (by cases s <;> cases s' <;> first | exact .inl rfl | exact .inr ⟨_, rfl⟩)).elim
    | zero s' => exact (key _ _ hu hv (.inr ⟨_, rfl⟩)).elim
    | finite s' m' e' hm' => exact (key _ _ hu hv (.inr ⟨_, rfl⟩)).elim
  | zero s =>
    cases hv : g.unpack with
    | notANumber => exact (key _ _ hu hv (.inl rfl)).elim
    | infinity s' => exact (key _ _ hu hv (.inr ⟨_, rfl⟩)).elim
    | zero s' => exact ⟨⟨_, rfl⟩, ⟨_, rfl⟩⟩
    | finite s' m' e' hm' => exact ⟨⟨_, rfl⟩, ⟨_, rfl⟩⟩
  | finite s m e hm =>
    cases hv : g.unpack with
    | notANumber => exact (key _ _ hu hv (.inl rfl)).elim
    | infinity s' => exact (key _ _ hu hv (.inr ⟨_, rfl⟩)).elim
    | zero s' => exact ⟨⟨_, rfl⟩, ⟨_, rfl⟩⟩
    | finite s' m' e' hm' => exact ⟨⟨_, rfl⟩, ⟨_, rfl⟩⟩

/-- Non-vacuous: the largest double plus itself is infinity; infinity minus itself is NaN; the exact 0 times infinity, and
divided by NaN, is the exact 0, and 0.0 times infinity is NaN; 1 divided by -0.0 is -infinity. -/
theorem C88_instance (m : Mode) : ∃ i n : SmartNum Float.Model,
    (SmartNum.ofF64 (Float.Model.ofBits 0x7FEFFFFFFFFFFFFF)).add m (.ofF64 (Float.Model.ofBits 0x7FEFFFFFFFFFFFFF)) = .ok i ∧
    i.toF64.unpack = .infinity .positive ∧ i.sub m i = .ok n ∧ n.toF64.isNaN = true ∧
    (SmartNum.ofI64 0).mul m i = .ok (.ofI64 0) ∧ (SmartNum.ofI64 0).div m n = .ok (.ofI64 0) ∧
    (SmartNum.ofF64 (Float.Model.ofBits 0)).mul m i = .ok n ∧
    (∃ z, (SmartNum.ofI64 1).div m (.ofF64 (Float.Model.ofBits 0x8000000000000000)) = .ok z ∧
      z.toF64.unpack = .infinity .negative) := by
  refine ⟨.ofF64 (Float.Model.ofBits 0x7FF0000000000000), .ofF64 (Float.Model.ofBits 0x7FF8000000000000), by rfl, by rfl, by rfl,
    by rfl, by rfl, by rfl, by rfl, ⟨.ofF64 (Float.Model.ofBits 0xFFF0000000000000), by rfl, by rfl⟩⟩

end SymRust
