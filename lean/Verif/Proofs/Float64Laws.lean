import Verif.Proofs.Float64Ops
import Verif.Spec.Rounding
import Mathlib.Analysis.Real.Pi.Bounds
import Mathlib.Analysis.Complex.ExponentialBounds
/-! # Doubles satisfy the rounding law -/

namespace SymRust.F64
open Float.Model Float.Model.UnpackedFloat

theorem abs_value {a : Float.Model} {x : ℝ} (ha : value a = some x) : value a.abs = some |x| := by
  unfold Float.Model.abs
  rcases unpack_of_value ha with ⟨s, h1, rfl⟩ | ⟨s, m, e, hm, h1, hc, he, rfl⟩ <;> rw [h1, UnpackedFloat.abs]
  · rw [pack_value (f := .zero _) trivial]; simp [unpackedValue]
  · rw [pack_value (f := .finite _ _ _ hm) ⟨hc, he⟩, unpackedValue, abs_mul, abs_signValue, abs_of_nonneg (by positivity)]; simp [signValue]

theorem canon_lt {m m' : ℕ} {e e' : ℤ} (hc : Canon m e) (hc' : Canon m' e') (h : e < e') :
    (m : ℝ) * 2 ^ e < m' * 2 ^ e' := by
  have h52 : 2 ^ 52 ≤ m' := hc'.norm.resolve_right (by have := hc.low; omega)
  have h1 : (m : ℝ) < 2 ^ 53 := by exact_mod_cast hc.lt
  have h2 : (2 : ℝ) ^ 52 ≤ m' := by exact_mod_cast h52
  calc (m : ℝ) * 2 ^ e < 2 ^ 53 * 2 ^ e := mul_lt_mul_of_pos_right h1 (two_zpow_pos _)
    _ = 2 ^ 52 * 2 ^ (e + 1) := by rw [zpow_add₀ (by norm_num)]; ring
    _ ≤ 2 ^ 52 * 2 ^ e' := mul_le_mul_of_nonneg_left (zpow_le_zpow_right₀ (by norm_num) (by omega)) (by positivity)
    _ ≤ m' * 2 ^ e' := mul_le_mul_of_nonneg_right h2 (two_zpow_pos _).le

theorem canon_compare {m m' : ℕ} {e e' : ℤ} (hc : Canon m e) (hc' : Canon m' e') :
    (compare e e').then (compare m m') = compare ((m : ℝ) * 2 ^ e) (m' * 2 ^ e') := by
  rcases lt_trichotomy e e' with h | h | h
  · rw [compare_lt_iff_lt.2 h, compare_lt_iff_lt.2 (canon_lt hc hc' h)]; rfl
  · subst h
    rw [compare_eq_iff_eq.2 rfl]
    have hp := two_zpow_pos e
    rcases lt_trichotomy m m' with h | h | h
    · rw [compare_lt_iff_lt.2 h, compare_lt_iff_lt.2 (mul_lt_mul_of_pos_right (by exact_mod_cast h) hp)]; rfl
    · subst h
      rw [compare_eq_iff_eq.2 rfl, compare_eq_iff_eq.2 rfl]; rfl
    · rw [compare_gt_iff_gt.2 h, compare_gt_iff_gt.2 (mul_lt_mul_of_pos_right (by exact_mod_cast h) hp)]; rfl
  · rw [compare_gt_iff_gt.2 h, compare_gt_iff_gt.2 (canon_lt hc' hc h)]; rfl

theorem compare_value {a b : Float.Model} {x y : ℝ} (ha : value a = some x) (hb : value b = some y) :
    UnpackedFloat.compare a.unpack b.unpack = some (compare x y) := by
  have pos : ∀ {m : ℕ} {e : ℤ}, 0 < m → (0 : ℝ) < m * 2 ^ e := fun {m e} h =>
    mul_pos (by exact_mod_cast h) (two_zpow_pos e)
  rcases unpack_of_value ha with ⟨s, h1, rfl⟩ | ⟨s, m, e, hm, h1, hc, he, rfl⟩ <;>
    rcases unpack_of_value hb with ⟨s', h2, rfl⟩ | ⟨s', m', e', hm', h2, hc', he', rfl⟩ <;> rw [h1, h2]
  · rw [compare_eq_iff_eq.2 rfl]; rfl
  · have := pos (e := e') hm'
    cases s' <;> simp only [signValue, neg_one_mul, one_mul, UnpackedFloat.compare]
    · rw [compare_gt_iff_gt.2 (by linarith)]
    · rw [compare_lt_iff_lt.2 (by linarith)]
  · have := pos (e := e) hm
    cases s <;> simp only [signValue, neg_one_mul, one_mul, UnpackedFloat.compare]
    · rw [compare_lt_iff_lt.2 (by linarith)]
    · rw [compare_gt_iff_gt.2 (by linarith)]
  · have p := pos (e := e) hm
    have p' := pos (e := e') hm'
    cases s <;> cases s' <;> simp only [signValue, neg_one_mul, one_mul, UnpackedFloat.compare, canon_compare hc hc']
    · rcases lt_trichotomy ((m : ℝ) * 2 ^ e) (m' * 2 ^ e') with h | h | h
      · rw [compare_lt_iff_lt.2 h, compare_gt_iff_gt.2 (neg_lt_neg h)]; rfl
      · rw [compare_eq_iff_eq.2 h, h, compare_eq_iff_eq.2 rfl]; rfl
      · rw [compare_gt_iff_gt.2 h, compare_lt_iff_lt.2 (neg_lt_neg h)]; rfl
    · rw [compare_lt_iff_lt.2 (by linarith)]
    · rw [compare_gt_iff_gt.2 (by linarith)]

theorem lt_value {a b : Float.Model} {x y : ℝ} (ha : value a = some x) (hb : value b = some y) :
    a.lt b = true ↔ x < y := by
  unfold Float.Model.lt UnpackedFloat.lt
  rw [compare_value ha hb]
  rcases lt_trichotomy x y with h | h | h
  · rw [compare_lt_iff_lt.2 h]; simp [h]
  · rw [compare_eq_iff_eq.2 h, h]; simp
  · rw [compare_gt_iff_gt.2 h]; simp [h.le]

theorem largest_ge : (2 : ℝ) ^ 100 ≤ largest := by
  unfold largest
  calc (2 : ℝ) ^ 100 ≤ 2 ^ 971 := pow_le_pow_right₀ (by norm_num) (by norm_num)
    _ ≤ _ := le_mul_of_one_le_left (by positivity) (by norm_num)

theorem ofInt_near (n : ℤ) (h : |n| ≤ 2 ^ 64) : NearExact (Float.Model.ofInt n) n := by
  have := (normalize_rnd n 0 .positive (by norm_num)).1 (by
    rw [zpow_zero, mul_one]
    have h : |(n : ℝ)| ≤ 2 ^ 64 := by exact_mod_cast h
    have h' : (2 : ℝ) ^ 64 ≤ 2 ^ 100 := by norm_num
    exact (h.trans (h'.trans largest_ge)).trans_lt largest_lt)
  rw [zpow_zero, mul_one] at this
  exact this

theorem ofInt64_near (v : Int64) : NearExact (Float.Model.ofInt64 v) v.toInt :=
  ofInt_near v.toInt (by
    have h1 := v.toInt_lt; have h2 := v.le_toInt
    rw [abs_le]; constructor <;> omega)

theorem ofUInt64_near (v : UInt64) : NearExact (Float.Model.ofUInt64 v) v.toNat := by
  have := ofInt_near v.toNat (by
    have h1 := v.toNat_lt
    rw [abs_le]; constructor <;> omega)
  rw [Int.cast_natCast] at this
  exact this

theorem pi_value : value (Float.Model.ofBits 0x400921FB54442D18) = some (7074237752028440 * 2 ^ (-51 : ℤ)) := by
  have : (Float.Model.ofBits 0x400921FB54442D18).unpack = .finite .positive 7074237752028440 (-51) (by norm_num) := by
    rfl
  rw [value, this]; simp [unpackedValue, signValue]

theorem e_value : value (Float.Model.ofBits 0x4005BF0A8B145769) = some (6121026514868073 * 2 ^ (-51 : ℤ)) := by
  have : (Float.Model.ofBits 0x4005BF0A8B145769).unpack = .finite .positive 6121026514868073 (-51) (by norm_num) := by
    rfl
  rw [value, this]; simp [unpackedValue, signValue]

/-- Doubles satisfy the rounding law, with relative error 2^-53 and underflow error 2^-1075. -/
noncomputable def rounding : Rounding Float.Model where
  val := value
  u := 2⁻¹ ^ 53
  η := 2⁻¹ ^ 1075
  big := largest
  u_nonneg := by positivity
  u_small := by norm_num
  η_nonneg := by positivity
  η_small := (pow_le_pow_of_le_one (by norm_num) (by norm_num) (show 4 ≤ 1075 by norm_num)).trans (by norm_num)
  big_large := le_trans (by norm_num) largest_ge
  add _ _ _ _ ha hb h := (add_near ha hb h).1
  sub _ _ _ _ ha hb h := (sub_near ha hb h).1
  mul _ _ _ _ ha hb h := (mul_near ha hb h).1
  div _ _ _ _ ha hb hy h := (div_near ha hb hy h).1
  neg _ _ h := neg_value h
  abs _ _ h := abs_value h
  lt _ _ _ _ ha hb := lt_value ha hb
  ofI64 v := (ofInt64_near v).1
  ofU64 v := by
    obtain ⟨z, h1, h2⟩ := (ofUInt64_near v).1
    exact ⟨z, h1, by simpa using h2⟩
  pi := ⟨_, pi_value, by
    have h1 := Real.pi_gt_d20
    have h2 := Real.pi_lt_d20
    rw [abs_le]; constructor <;> norm_num <;> linarith⟩
  e := ⟨_, e_value, by
    have := abs_le.1 Real.exp_one_near_20
    rw [abs_le]; constructor <;> norm_num <;> linarith⟩

end SymRust.F64
