import Verif.Proofs.Float64Round
/-! # The operations on doubles are correctly rounded -/

namespace SymRust.F64
open Float.Model Float.Model.UnpackedFloat

/-- A multiple of the smallest positive double. -/
def Multiple (x : ℝ) : Prop := ∃ k : ℕ, x = k * 2 ^ (-1074 : ℤ)

theorem two_zpow_pos (t : ℤ) : (0 : ℝ) < 2 ^ t := by positivity

theorem two_pow_971 : (2 : ℝ) ^ 971 = 2 ^ 970 * 2 := pow_succ _ 970

theorem largest_lt : largest < overflow := by
  unfold largest overflow
  rw [two_pow_971]
  have : (0 : ℝ) < 2 ^ 970 := by positivity
  generalize (2 : ℝ) ^ 970 = B at *
  linarith

theorem overflow_eq : overflow = (2 ^ 53 - 1 / 2) * (2 : ℝ) ^ (971 : ℤ) := by
  have : (2 : ℝ) ^ (971 : ℤ) = 2 ^ 970 * 2 := by rw [← two_pow_971]; exact zpow_natCast _ 971
  unfold overflow
  rw [this]
  generalize (2 : ℝ) ^ 970 = B
  ring

theorem Rounded.value {s : Sign} {x : ℝ} {t : ℤ} {R : ℕ} {res : UnpackedFloat} (h : Rounded s x t R res) (h0 : 0 ≤ x)
    (hb : x < overflow) : Good res ∧ ∃ z, 0 ≤ z ∧ unpackedValue res = some (signValue s * z) ∧
      |z - x| ≤ 2⁻¹ ^ 53 * x + 2⁻¹ ^ 1075 ∧ (Multiple x → |z - x| ≤ 2⁻¹ ^ 53 * x) ∧ z = R * 2 ^ t := by
  have h2 := two_zpow_pos t
  have ht : t ≤ 971 := by
    by_contra hc
    rcases h.unit with h' | h'
    · omega
    · have h3 : (2 : ℝ) ^ (1024 : ℤ) ≤ 2 ^ (t + 52) := zpow_le_zpow_right₀ (by norm_num) (by omega)
      have h4 : overflow < (2 : ℝ) ^ (1024 : ℤ) := by
        rw [overflow_eq, show (1024 : ℤ) = 53 + 971 by norm_num, zpow_add₀ (by norm_num)]
        exact mul_lt_mul_of_pos_right (by norm_num) (by positivity)
      linarith
  have hR : t = 971 → R < 2 ^ 53 := by
    rintro rfl
    have h3 : x / 2 ^ (971 : ℤ) < 2 ^ 53 - 1 / 2 := by
      rw [div_lt_iff₀ h2, ← overflow_eq]; exact hb
    have h4 := (abs_le.1 h.near).2
    have : (R : ℝ) < 2 ^ 53 := by linarith
    exact_mod_cast this
  have err : |(R : ℝ) * 2 ^ t - x| ≤ 2 ^ (t - 1) := by
    have : (R : ℝ) * 2 ^ t - x = (R - x / 2 ^ t) * 2 ^ t := by rw [sub_mul, div_mul_cancel₀ _ h2.ne']
    have h3 : (2 : ℝ) ^ (t - 1) = 1 / 2 * 2 ^ t := by rw [zpow_sub₀ (by norm_num), zpow_one]; ring
    rw [this, abs_mul, abs_of_pos h2, h3]
    exact mul_le_mul_of_nonneg_right h.near h2.le
  have hp : (0 : ℝ) ≤ 2⁻¹ ^ 53 * x := by positivity
  have hp' : (0 : ℝ) ≤ 2⁻¹ ^ 1075 := by positivity
  have big : (2 : ℝ) ^ (t + 52) ≤ x → (2 : ℝ) ^ (t - 1) ≤ 2⁻¹ ^ 53 * x := by
    intro h'
    have : (2 : ℝ) ^ (t - 1) = 2⁻¹ ^ 53 * 2 ^ (t + 52) := by
      rw [inv_pow, ← zpow_natCast, ← zpow_neg, ← zpow_add₀ (by norm_num)]; congr 1; push_cast; ring
    rw [this]
    exact mul_le_mul_of_nonneg_left h' (by positivity)
  refine ⟨?_, (R : ℝ) * 2 ^ t, by positivity, ?_, ?_, ?_, rfl⟩
  · by_cases hz : R = 0
    · rw [h.zero hz]; trivial
    · obtain ⟨m, e, hm, rfl, hc, -, he⟩ := h.finite hz
      refine ⟨hc, ?_⟩
      rcases he with rfl | ⟨h53, rfl⟩
      · exact ht
      · have : t ≠ 971 := fun h => by have := hR h; omega
        omega
  · by_cases hz : R = 0
    · rw [h.zero hz, hz]; simp [unpackedValue]
    · obtain ⟨m, e, hm, rfl, hc, hv, he⟩ := h.finite hz
      simp only [unpackedValue, hv]
  · refine err.trans ?_
    rcases h.unit with rfl | h'
    · have : (2 : ℝ) ^ (-1074 - 1 : ℤ) = 2⁻¹ ^ 1075 := by
        rw [inv_pow, ← zpow_natCast, ← zpow_neg]; norm_num
      rw [this]; exact le_add_of_nonneg_left hp
    · exact (big h').trans (le_add_of_nonneg_right hp')
  · rintro ⟨k, hk⟩
    rcases h.unit with rfl | h'
    · have : R = k := h.exact k (by rw [hk, mul_div_assoc, div_self h2.ne', mul_one])
      rw [this, ← hk, sub_self, abs_zero]; exact hp
    · exact err.trans (big h')

theorem round_rounded (s : Sign) (m : ℕ) (e : ℤ) (hm : m ≠ 0) :
    ∃ t R, Rounded s (m * 2 ^ e) t R (UnpackedFloat.round Format.binary64 s m e) := by
  unfold UnpackedFloat.round
  rw [target_eq, totalExponent]
  simp only [decreaseExponent]
  set k := (e - max ((m.log2 : ℤ) + 1 + e - 53) (-1074)).toNat with hk
  have hl : (m <<< k).log2 = m.log2 + k := by
    rw [Nat.shiftLeft_eq, Nat.log2_eq_iff (by positivity)]
    refine ⟨?_, ?_⟩
    · rw [pow_add]; exact Nat.mul_le_mul_right _ (log2_le hm)
    · rw [show m.log2 + k + 1 = m.log2 + 1 + k by ring, pow_add]; exact Nat.mul_lt_mul_of_pos_right (lt_log2 m) (by positivity)
  refine ⟨_, roundWithAccuracy_rounded s (m <<< k) (e - k) .exact _ ?_ ?_⟩
  · show _ = _
    rw [Nat.shiftLeft_eq]
    push_cast
    rw [div_eq_iff (by positivity), mul_assoc, ← zpow_natCast, ← zpow_add₀ (by norm_num)]
    congr 2; ring
  · rw [hl]; push_cast; omega

theorem pack_value {f : UnpackedFloat} (h : Good f) : value (Float.Model.pack f) = unpackedValue f := by
  rw [value, unpack_pack h]

/-- A correctly rounded result, with a bound of the error. -/
def Near (f : Float.Model) (x : ℝ) : Prop :=
  (∃ z, value f = some z ∧ |z - x| ≤ 2⁻¹ ^ 53 * |x| + 2⁻¹ ^ 1075) ∧ CorrectlyRounded f x
def NearExact (f : Float.Model) (x : ℝ) : Prop :=
  (∃ z, value f = some z ∧ |z - x| ≤ 2⁻¹ ^ 53 * |x|) ∧ CorrectlyRounded f x

theorem unpack_of_value {v : Float.Model} {x : ℝ} (h : value v = some x) :
    (∃ s, v.unpack = .zero s ∧ x = 0) ∨
      ∃ s m e hm, v.unpack = .finite s m e hm ∧ Canon m e ∧ e ≤ 971 ∧ x = signValue s * (m * 2 ^ e) := by
  have hg := good_unpack v
  unfold value at h
  cases hv : v.unpack with
  | notANumber => rw [hv] at h; cases h
  | infinity s => rw [hv] at h; cases h
  | zero s => rw [hv] at h; cases h; exact .inl ⟨s, rfl, rfl⟩
  | finite s m e hm =>
    rw [hv] at h hg
    simp only [unpackedValue, Option.some.injEq] at h
    exact .inr ⟨s, m, e, hm, rfl, hg.1, hg.2, h.symm⟩

theorem abs_signValue (s : Sign) : |signValue s| = 1 := by cases s <;> simp [signValue]

theorem signValue_neg (s : Sign) : signValue (-s) = -signValue s := by
  cases s
  · show signValue .positive = _
    simp [signValue]
  · show signValue .negative = _
    simp [signValue]

theorem neg_value {a : Float.Model} {x : ℝ} (ha : value a = some x) : value a.neg = some (-x) := by
  unfold Float.Model.neg
  rcases unpack_of_value ha with ⟨s, h1, rfl⟩ | ⟨s, m, e, hm, h1, hc, he, rfl⟩ <;> rw [h1, UnpackedFloat.neg]
  · rw [pack_value (f := .zero _) trivial]; simp [unpackedValue]
  · rw [pack_value (f := .finite _ _ _ hm) ⟨hc, he⟩, unpackedValue, signValue_neg]; simp

/-- No double is nearer to `x` than the rounded one. -/
theorem Rounded.nearest {s : Sign} {x : ℝ} {t : ℤ} {R : ℕ} {res : UnpackedFloat} (h : Rounded s x t R res)
    {g : Float.Model} {w : ℝ} (hg : F64.value g = some w) :
    |R * 2 ^ t - x| ≤ |w - x| ∧ (|w - x| = |R * 2 ^ t - x| → w = R * 2 ^ t ∨ R % 2 = 0) := by
  have h2 := two_zpow_pos t
  have scale : ∀ k : ℝ, |k * 2 ^ t - x| = |k - x / 2 ^ t| * 2 ^ t := fun k => by
    rw [show k * 2 ^ t - x = (k - x / 2 ^ t) * 2 ^ t by rw [sub_mul, div_mul_cancel₀ _ h2.ne'], abs_mul, abs_of_pos h2]
  have multiple : ∀ k : ℤ, |(R : ℝ) * 2 ^ t - x| ≤ |k * 2 ^ t - x| ∧
      (|(k : ℝ) * 2 ^ t - x| = |(R : ℝ) * 2 ^ t - x| → (k : ℝ) * 2 ^ t = R * 2 ^ t ∨ R % 2 = 0) := by
    intro k
    by_cases hk : k = R
    · subst hk; simp
    · have hd : (1 : ℝ) ≤ |(k : ℝ) - R| := by
        have : 1 ≤ |k - R| := Int.one_le_abs (sub_ne_zero.2 hk)
        exact_mod_cast this
      have hn := h.near
      have tri : |(k : ℝ) - R| ≤ |k - x / 2 ^ t| + |(R : ℝ) - x / 2 ^ t| := by
        rw [abs_sub_comm (R : ℝ)]; exact abs_sub_le _ _ _
      rw [scale, scale]
      refine ⟨mul_le_mul_of_nonneg_right (by linarith) h2.le, fun he => .inr (h.even ?_)⟩
      have he := mul_right_cancel₀ h2.ne' he
      linarith
  have small : w < 2 ^ (t + 52) → (2 : ℝ) ^ (t + 52) ≤ x →
      |R * 2 ^ t - x| ≤ |w - x| ∧ (|w - x| = |R * 2 ^ t - x| → w = R * 2 ^ t ∨ R % 2 = 0) := by
    intro h3 h4
    have h5 := (multiple (2 ^ 52)).1
    have h6 : (((2 : ℤ) ^ 52 : ℤ) : ℝ) * 2 ^ t = 2 ^ (t + 52) := by
      rw [zpow_add₀ (by norm_num), mul_comm]; norm_num
    rw [h6, abs_of_nonpos (by linarith : (2 : ℝ) ^ (t + 52) - x ≤ 0)] at h5
    rw [abs_of_neg (by linarith : w - x < 0)]
    exact ⟨by linarith, fun h => by linarith⟩
  rcases unpack_of_value hg with ⟨s', h1, rfl⟩ | ⟨s', m, e, hm, h1, hc, he, rfl⟩
  · simpa using multiple 0
  · by_cases het : t ≤ e
    · have hk : signValue s' * (m * 2 ^ e) = ((s'.apply (m * 2 ^ (e - t).toNat) : ℤ) : ℝ) * 2 ^ t := by
        have h3 : (m : ℝ) * 2 ^ e = m * 2 ^ (e - t).toNat * 2 ^ t := by
          rw [mul_assoc, ← zpow_natCast, ← zpow_add₀ (by norm_num)]; congr 2; omega
        rw [h3]
        cases s' <;> simp [Sign.apply, signValue]
      rw [hk]; exact multiple _
    · have h3 : (2 : ℝ) ^ (t + 52) ≤ x := h.unit.resolve_left (by have := hc.low; omega)
      refine small ?_ h3
      have h4 : (m : ℝ) * 2 ^ e < 2 ^ (t + 52) := by
        have h5 : (2 : ℝ) ^ e ≤ 2 ^ (t - 1) := zpow_le_zpow_right₀ (by norm_num) (by omega)
        have h6 : (2 : ℝ) ^ (t + 52) = 2 ^ 53 * 2 ^ (t - 1) := by
          rw [← zpow_natCast, ← zpow_add₀ (by norm_num)]; congr 1; push_cast; ring
        rw [h6]
        have h7 : (m : ℝ) < 2 ^ 53 := by exact_mod_cast hc.lt
        calc (m : ℝ) * 2 ^ e ≤ m * 2 ^ (t - 1) := by gcongr
          _ < _ := mul_lt_mul_of_pos_right h7 (two_zpow_pos _)
      have h5 : (0 : ℝ) ≤ m * 2 ^ e := mul_nonneg (Nat.cast_nonneg _) (two_zpow_pos _).le
      have h6 := two_zpow_pos (t + 52)
      cases s' <;> simp only [signValue] <;> linarith

theorem pack_overflow {s : Sign} {m : ℕ} {e : ℤ} {hm : 0 < m} (he : 972 ≤ e) :
    (Float.Model.pack (.finite s m e hm)).unpack = .infinity s := by
  have key : (Float.Model.pack (.finite s m e hm)).unpack =
      UnpackedFloat.unpack Format.binary64 (UnpackedFloat.pack Format.binary64 (.finite s m e hm)) := rfl
  rw [key]
  simp only [UnpackedFloat.pack]
  rw [if_pos (by simp only [Format.exponentBias]; norm_num; omega), packedInfinity, unpack_packComponents]
  rfl

theorem Rounded.overflows {s : Sign} {x : ℝ} {t : ℤ} {R : ℕ} {res : UnpackedFloat} (h : Rounded s x t R res)
    (hb : overflow ≤ x) : (Float.Model.pack res).unpack = .infinity s := by
  have h2 := two_zpow_pos t
  have ht : 971 ≤ t := by
    by_contra hc
    have h3 : (2 : ℝ) ^ (t + 53) ≤ 2 ^ (1023 : ℤ) := zpow_le_zpow_right₀ (by norm_num) (by omega)
    have h4 : (2 : ℝ) ^ (1023 : ℤ) < overflow := by
      rw [overflow_eq, show (1023 : ℤ) = 52 + 971 by norm_num, zpow_add₀ (by norm_num)]
      exact mul_lt_mul_of_pos_right (by norm_num) (by positivity)
    linarith [h.below]
  have hR0 : R ≠ 0 := by
    rintro rfl
    have h3 := h.unit.resolve_left (by omega)
    rw [zpow_add₀ (by norm_num), mul_comm, ← le_div_iff₀ h2] at h3
    have h4 := (abs_le.1 h.near).1
    norm_num at h3 h4
    linarith
  obtain ⟨m, e, hm, rfl, hc, hv, he⟩ := h.finite hR0
  refine pack_overflow ?_
  rcases he with rfl | ⟨-, rfl⟩
  · by_contra hlt
    obtain rfl : e = 971 := by omega
    have h3 : 2 ^ 53 - 1 / 2 ≤ x / 2 ^ (971 : ℤ) := by
      rw [le_div_iff₀ h2, ← overflow_eq]; exact hb
    have hmR : m = R := by exact_mod_cast mul_right_cancel₀ h2.ne' hv
    have hlt := hc.lt
    have hle : (R : ℝ) ≤ 2 ^ 53 - 1 := by
      have : R + 1 ≤ 2 ^ 53 := by omega
      have : (R : ℝ) + 1 ≤ 2 ^ 53 := by exact_mod_cast this
      linarith
    have h4 := (abs_le.1 h.near).1
    have h5 : (R : ℝ) = 2 ^ 53 - 1 := by linarith
    have h6 := h.even (by
      rw [abs_of_nonpos (by linarith)]
      have := h.near
      rw [abs_of_nonpos (by linarith)] at this
      linarith)
    have h7 : R + 1 = 2 ^ 53 := by
      have : (R : ℝ) + 1 = 2 ^ 53 := by linarith
      exact_mod_cast this
    omega
  · omega

theorem Rounded.near' {s : Sign} {x : ℝ} {t : ℤ} {R : ℕ} {res : UnpackedFloat} (h : Rounded s x t R res) (h0 : 0 ≤ x)
    (hb : x < overflow) : Near (Float.Model.pack res) (signValue s * x) ∧
      (Multiple x → NearExact (Float.Model.pack res) (signValue s * x)) := by
  obtain ⟨hg, z, hz0, hz, h1, h2, h3⟩ := h.value h0 hb
  have e1 : |signValue s * z - signValue s * x| = |z - x| := by rw [← mul_sub, abs_mul, abs_signValue, one_mul]
  have e2 : |signValue s * x| = x := by rw [abs_mul, abs_signValue, one_mul, abs_of_nonneg h0]
  have hc : CorrectlyRounded (Float.Model.pack res) (signValue s * x) := by
    refine ⟨signValue s * z, by rw [pack_value hg, hz], fun g w hw => ?_⟩
    have hss : signValue s * signValue s = 1 := by cases s <;> simp [signValue]
    have hw' : ∃ g', F64.value g' = some (signValue s * w) := by
      cases s
      · refine ⟨g.neg, ?_⟩
        rw [neg_value hw]; simp [signValue]
      · exact ⟨g, by simpa [signValue] using hw⟩
    obtain ⟨g', hg'⟩ := hw'
    have e3 : |w - signValue s * x| = |signValue s * w - x| := by
      have : signValue s * w - x = signValue s * (w - signValue s * x) := by linear_combination x * hss
      rw [this, abs_mul, abs_signValue, one_mul]
    have := h.nearest hg'
    rw [e1, e3, h3]
    refine ⟨this.1, fun he => (this.2 he).imp (fun h => ?_) fun h => ?_⟩
    · linear_combination (signValue s) * h - w * hss
    · unfold EvenMantissa
      rw [unpack_pack hg]
      by_cases hz : R = 0
      · rw [‹Rounded s x t R res›.zero hz]; trivial
      · obtain ⟨m, e, hm, rfl, -, hv, he⟩ := ‹Rounded s x t R res›.finite hz
        show m % 2 = 0
        rcases he with rfl | ⟨h53, rfl⟩
        · have := mul_right_cancel₀ (two_zpow_pos e).ne' hv
          have : m = R := by exact_mod_cast this
          omega
        · rw [h53, zpow_add₀ (by norm_num)] at hv
          have : (m : ℝ) * 2 = 2 ^ 53 := mul_right_cancel₀ (two_zpow_pos t).ne' (by rw [zpow_one] at hv; push_cast at hv; linarith)
          have : m * 2 = 2 ^ 53 := by exact_mod_cast this
          omega
  exact ⟨⟨⟨_, by rw [pack_value hg, hz], by rw [e1, e2]; exact h1⟩, hc⟩,
    fun hm => ⟨⟨_, by rw [pack_value hg, hz], by rw [e1, e2]; exact h2 hm⟩, hc⟩⟩

/-- `Ieee` with the error bound. -/
def Rnd (f : Float.Model) (x : ℝ) : Prop := (|x| < overflow → Near f x) ∧ (overflow ≤ x → f.unpack = .infinity .positive) ∧
    (x ≤ -overflow → f.unpack = .infinity .negative)
def RndExact (f : Float.Model) (x : ℝ) : Prop := (|x| < overflow → NearExact f x) ∧
  (overflow ≤ x → f.unpack = .infinity .positive) ∧ (x ≤ -overflow → f.unpack = .infinity .negative)

theorem overflow_pos : 0 < overflow := by
  rw [overflow_eq]; exact mul_pos (by norm_num) (by positivity)

theorem Rounded.rnd {s : Sign} {x : ℝ} {t : ℤ} {R : ℕ} {res : UnpackedFloat} (h : Rounded s x t R res) (h0 : 0 ≤ x) :
    Rnd (Float.Model.pack res) (signValue s * x) ∧ (Multiple x → RndExact (Float.Model.pack res) (signValue s * x)) := by
  have hp := overflow_pos
  have habs : |signValue s * x| = x := by rw [abs_mul, abs_signValue, one_mul, abs_of_nonneg h0]
  have ov : (overflow ≤ signValue s * x → (Float.Model.pack res).unpack = .infinity .positive) ∧
      (signValue s * x ≤ -overflow → (Float.Model.pack res).unpack = .infinity .negative) := by
    cases s <;> simp only [signValue]
    · exact ⟨fun h1 => by linarith, fun h1 => h.overflows (by linarith)⟩
    · exact ⟨fun h1 => h.overflows (by linarith), fun h1 => by linarith⟩
  exact ⟨⟨fun hb => (h.near' h0 (habs ▸ hb)).1, ov⟩, fun hm => ⟨fun hb => (h.near' h0 (habs ▸ hb)).2 hm, ov⟩⟩

theorem nearExact_of_eq {f : Float.Model} {x : ℝ} (h : value f = some x) : NearExact f x :=
  ⟨⟨x, h, by simp⟩, x, h, fun w y _ => ⟨by simp, fun h => .inl (by simpa [sub_eq_zero] using h)⟩⟩

theorem nearExact_pack {f : UnpackedFloat} {x : ℝ} (hg : Good f) (h : unpackedValue f = some x) :
    NearExact (Float.Model.pack f) x := nearExact_of_eq (by rw [pack_value hg, h])

theorem nearExact_zero {s : Sign} {x : ℝ} (h : x = 0) : NearExact (Float.Model.pack (.zero s)) x :=
  nearExact_pack (f := .zero s) trivial (by rw [h]; rfl)

theorem value_lt_overflow {f : Float.Model} {x : ℝ} (h : value f = some x) : |x| < overflow := by
  have hp := overflow_pos
  rcases unpack_of_value h with ⟨s, h1, rfl⟩ | ⟨s, m, e, hm, h1, hc, he, rfl⟩
  · simpa using hp
  · rw [abs_mul, abs_signValue, one_mul, abs_of_nonneg (mul_nonneg (Nat.cast_nonneg _) (two_zpow_pos _).le), overflow_eq]
    have h2 : m + 1 ≤ 2 ^ 53 := hc.lt
    have h2 : (m : ℝ) + 1 ≤ 2 ^ 53 := by exact_mod_cast h2
    have h3 : (2 : ℝ) ^ e ≤ 2 ^ (971 : ℤ) := zpow_le_zpow_right₀ (by norm_num) he
    calc (m : ℝ) * 2 ^ e ≤ m * 2 ^ (971 : ℤ) := by gcongr
      _ < _ := mul_lt_mul_of_pos_right (by linarith) (by positivity)

theorem rndExact_of_near {f : Float.Model} {x : ℝ} (h : value f = some x) : RndExact f x := by
  have := abs_lt.1 (value_lt_overflow h)
  exact ⟨fun _ => nearExact_of_eq h, fun h1 => by linarith, fun h1 => by linarith⟩

theorem rndExact_pack {f : UnpackedFloat} {x : ℝ} (hg : Good f) (h : unpackedValue f = some x) :
    RndExact (Float.Model.pack f) x := rndExact_of_near (by rw [pack_value hg, h])

theorem rndExact_zero {s : Sign} {x : ℝ} (h : x = 0) : RndExact (Float.Model.pack (.zero s)) x :=
  rndExact_pack (f := .zero s) trivial (by rw [h]; rfl)

theorem RndExact.rnd {f : Float.Model} {x : ℝ} (h : RndExact f x) : Rnd f x :=
  ⟨fun hb => by
    obtain ⟨⟨z, h1, h2⟩, hc⟩ := h.1 hb
    exact ⟨⟨z, h1, h2.trans (le_add_of_nonneg_right (by positivity))⟩, hc⟩, h.2⟩

theorem normalize_rnd (M : ℤ) (e : ℤ) (s : Sign) (he : -1074 ≤ e) :
    RndExact (Float.Model.pack (UnpackedFloat.normalize Format.binary64 M e s)) (M * 2 ^ e) := by
  have mult : ∀ m : ℕ, Multiple (m * 2 ^ e) := fun m => ⟨m * 2 ^ (e + 1074).toNat, by
    push_cast
    rw [mul_assoc, ← zpow_natCast, ← zpow_add₀ (by norm_num)]
    congr 2; omega⟩
  unfold UnpackedFloat.normalize
  rcases lt_trichotomy M 0 with h | h | h
  · rw [compare_lt_iff_lt.2 h]
    simp only []
    obtain ⟨n, hn⟩ := Int.exists_eq_neg_ofNat h.le
    have hn' : (-M).toNat = n := by omega
    obtain ⟨t, R, hr⟩ := round_rounded .negative (-M).toNat e (by omega)
    rw [hn'] at hr ⊢
    have hM : (M : ℝ) = -n := by rw [hn]; simp
    have := (hr.rnd (by positivity)).2 (mult n)
    rw [hM]; simpa [signValue] using this
  · subst h
    rw [compare_eq_iff_eq.2 rfl]
    exact rndExact_zero (by simp)
  · rw [compare_gt_iff_gt.2 h]
    simp only []
    obtain ⟨t, R, hr⟩ := round_rounded .positive M.toNat e (by omega)
    have hM : ((M.toNat : ℕ) : ℝ) = M := by exact_mod_cast Int.toNat_of_nonneg h.le
    have := (hr.rnd (by positivity)).2 (mult _)
    rw [hM] at this
    simpa [signValue] using this

theorem signValue_apply (s : Sign) (n : ℕ) : ((s.apply n : ℤ) : ℝ) = signValue s * n := by
  cases s <;> simp [Sign.apply, signValue]

theorem decrease_value (m : ℕ) (e t : ℤ) (h : t ≤ e) : ((decreaseExponent m e t).1 : ℝ) * 2 ^ t = m * 2 ^ e := by
  unfold decreaseExponent
  simp only [Nat.shiftLeft_eq]
  push_cast
  rw [mul_assoc, ← zpow_natCast, ← zpow_add₀ (by norm_num)]
  congr 2; omega

theorem add_rnd {a b : Float.Model} {x y : ℝ} (ha : value a = some x) (hb : value b = some y) :
    RndExact (a.add b) (x + y) := by
  unfold Float.Model.add
  rcases unpack_of_value ha with ⟨s, h1, rfl⟩ | ⟨s, m, e, hm, h1, hc, he, rfl⟩ <;>
    rcases unpack_of_value hb with ⟨s', h2, rfl⟩ | ⟨s', m', e', hm', h2, hc', he', rfl⟩ <;> rw [h1, h2]
  · simp only [UnpackedFloat.add]
    refine rndExact_pack ?_ ?_ <;> split <;> simp [Good, unpackedValue]
  · simp only [UnpackedFloat.add]
    exact rndExact_pack ⟨hc', he'⟩ (by simp [unpackedValue])
  · simp only [UnpackedFloat.add]
    exact rndExact_pack ⟨hc, he⟩ (by simp [unpackedValue])
  · simp only [UnpackedFloat.add]
    have key : signValue s * (m * 2 ^ e) + signValue s' * (m' * 2 ^ e') =
        ((s.apply (decreaseExponent m e (min e e')).1 + s'.apply (decreaseExponent m' e' (min e e')).1 : ℤ) : ℝ) *
          2 ^ (min e e') := by
      push_cast
      rw [signValue_apply, signValue_apply, add_mul, mul_assoc, mul_assoc, decrease_value _ _ _ (min_le_left _ _),
        decrease_value _ _ _ (min_le_right _ _)]
    rw [key]
    exact normalize_rnd _ _ _ (le_min hc.low hc'.low)

theorem sub_rnd {a b : Float.Model} {x y : ℝ} (ha : value a = some x) (hb : value b = some y) :
    RndExact (a.sub b) (x - y) := by
  unfold Float.Model.sub
  rcases unpack_of_value ha with ⟨s, h1, rfl⟩ | ⟨s, m, e, hm, h1, hc, he, rfl⟩ <;>
    rcases unpack_of_value hb with ⟨s', h2, rfl⟩ | ⟨s', m', e', hm', h2, hc', he', rfl⟩ <;> rw [h1, h2]
  · simp only [UnpackedFloat.sub]
    refine rndExact_pack ?_ ?_ <;> split <;> simp [Good, unpackedValue]
  · simp only [UnpackedFloat.sub]
    exact rndExact_pack ⟨hc', he'⟩ (by rw [unpackedValue, signValue_neg]; simp)
  · simp only [UnpackedFloat.sub]
    exact rndExact_pack ⟨hc, he⟩ (by simp [unpackedValue])
  · simp only [UnpackedFloat.sub]
    have key : signValue s * (m * 2 ^ e) - signValue s' * (m' * 2 ^ e') =
        ((s.apply (decreaseExponent m e (min e e')).1 - s'.apply (decreaseExponent m' e' (min e e')).1 : ℤ) : ℝ) *
          2 ^ (min e e') := by
      push_cast
      rw [signValue_apply, signValue_apply, sub_mul, mul_assoc, mul_assoc, decrease_value _ _ _ (min_le_left _ _),
        decrease_value _ _ _ (min_le_right _ _)]
    rw [key]
    exact normalize_rnd _ _ _ (le_min hc.low hc'.low)

theorem signValue_mul (s s' : Sign) : signValue (s * s') = signValue s * signValue s' := by
  cases s <;> cases s'
  · show signValue .positive = _; simp [signValue]
  · show signValue .negative = _; simp [signValue]
  · show signValue .negative = _; simp [signValue]
  · show signValue .positive = _; simp [signValue]

theorem signValue_div (s s' : Sign) : signValue (s / s') = signValue s / signValue s' := by
  cases s <;> cases s'
  · show signValue .positive = _; simp [signValue]
  · show signValue .negative = _; simp [signValue]
  · show signValue .negative = _; simp [signValue]
  · show signValue .positive = _; simp [signValue]

theorem le_log2 {m n : ℕ} (h : 2 ^ n ≤ m) : n ≤ m.log2 := (Nat.le_log2 (by have := Nat.two_pow_pos n; omega)).2 h

theorem mul_rnd {a b : Float.Model} {x y : ℝ} (ha : value a = some x) (hb : value b = some y) :
    Rnd (a.mul b) (x * y) := by
  unfold Float.Model.mul
  rcases unpack_of_value ha with ⟨s, h1, rfl⟩ | ⟨s, m, e, hm, h1, hc, he, rfl⟩ <;>
    rcases unpack_of_value hb with ⟨s', h2, rfl⟩ | ⟨s', m', e', hm', h2, hc', he', rfl⟩ <;> rw [h1, h2] <;>
    simp only [UnpackedFloat.mul]
  · exact (rndExact_zero (by simp)).rnd
  · exact (rndExact_zero (by simp)).rnd
  · exact (rndExact_zero (by simp)).rnd
  · have key : signValue s * (m * 2 ^ e) * (signValue s' * (m' * 2 ^ e')) =
        signValue (s * s') * (((m * m' : ℕ) : ℝ) * 2 ^ (e + e')) := by
      rw [signValue_mul, zpow_add₀ (by norm_num)]; push_cast; ring
    rw [key]
    obtain ⟨R, hR⟩ := roundWithAccuracy_rounded (s * s') (m * m') (e + e') .exact
      (((m * m' : ℕ) : ℝ) * 2 ^ (e + e')) (by
        show _ = _
        rw [mul_div_assoc, div_self (two_zpow_pos _).ne', mul_one]) (by
        have hl : 2 ^ 52 ≤ m ∨ 2 ^ 52 ≤ m' → 52 ≤ (m * m').log2 := by
          intro h
          refine le_log2 ?_
          rcases h with h | h
          · exact h.trans (Nat.le_mul_of_pos_right _ hm')
          · exact h.trans (Nat.le_mul_of_pos_left _ hm)
        rcases hc.norm with h | h
        · have := hl (.inl h); omega
        · rcases hc'.norm with h' | h'
          · have := hl (.inr h'); omega
          · omega)
    exact (hR.rnd (by positivity)).1

theorem rep_fraction (n d : ℕ) (hd : 0 < d) :
    Rep (ExtendedMantissa.ofMantissaAndAccuracy (n / d) (accuracyOfFraction (n % d) d)) ((n : ℝ) / d) := by
  have hdr : (0 : ℝ) < d := by exact_mod_cast hd
  have hn : (n : ℝ) = d * ((n / d : ℕ) : ℝ) + ((n % d : ℕ) : ℝ) := by exact_mod_cast (Nat.div_add_mod n d).symm
  have hx : (n : ℝ) / d = ((n / d : ℕ) : ℝ) + ((n % d : ℕ) : ℝ) / d := by
    rw [div_eq_iff hdr.ne', add_mul, div_mul_cancel₀ _ hdr.ne', mul_comm]; exact hn
  have hlt := Nat.mod_lt n hd
  rw [hx]
  generalize n % d = r at *
  unfold accuracyOfFraction
  have hrd : (r : ℝ) < d := by exact_mod_cast hlt
  split_ifs with h0
  · show _ = _
    simp [h0]
  · have hr : (0 : ℝ) < r := by exact_mod_cast Nat.pos_of_ne_zero h0
    have hp : (0 : ℝ) < r / d := by positivity
    have h1 : (r : ℝ) / d < 1 := by rw [div_lt_one hdr]; exact hrd
    rcases lt_trichotomy (2 * r) d with h | h | h
    · rw [compare_lt_iff_lt.2 h]
      have h : (2 : ℝ) * r < d := by exact_mod_cast h
      have h2 : (r : ℝ) / d < 1 / 2 := by rw [div_lt_iff₀ hdr]; linarith
      exact ⟨by linarith, by linarith⟩
    · rw [compare_eq_iff_eq.2 h]
      have h : (2 : ℝ) * r = d := by exact_mod_cast h
      show _ = _
      congr 1
      rw [div_eq_iff hdr.ne']; linarith
    · rw [compare_gt_iff_gt.2 h]
      have h : (d : ℝ) < 2 * r := by exact_mod_cast h
      have h2 : 1 / 2 < (r : ℝ) / d := by rw [lt_div_iff₀ hdr]; linarith
      exact ⟨by linarith, by linarith⟩

theorem div_rnd {a b : Float.Model} {x y : ℝ} (ha : value a = some x) (hb : value b = some y) (hy : y ≠ 0) :
    Rnd (a.div b) (x / y) := by
  unfold Float.Model.div
  rcases unpack_of_value ha with ⟨s, h1, rfl⟩ | ⟨s, m, e, hm, h1, hc, he, rfl⟩ <;>
    rcases unpack_of_value hb with ⟨s', h2, rfl⟩ | ⟨s', m', e', hm', h2, hc', he', rfl⟩ <;> rw [h1, h2] <;>
    simp only [UnpackedFloat.div]
  · exact absurd rfl hy
  · exact (rndExact_zero (by simp)).rnd
  · exact absurd rfl hy
  · have hm'r : (0 : ℝ) < m' := by exact_mod_cast hm'
    have key : signValue s * (m * 2 ^ e) / (signValue s' * (m' * 2 ^ e')) =
        signValue (s / s') * ((m : ℝ) / m' * 2 ^ (e - e')) := by
      rw [signValue_div, zpow_sub₀ (by norm_num), mul_div_mul_comm, mul_div_mul_comm]
    rw [key]
    simp only [divCore, target_eq, totalExponent]
    set T := min (e - e') (max ((m.log2 : ℤ) + 1 + e - (m'.log2 + 1 + e') - 53) (-1074)) with hT
    set k := (e - e' - T).toNat with hk
    have hkT : (k : ℤ) = e - e' - T := by omega
    have hM : ((m : ℝ) / m' * 2 ^ (e - e')) / 2 ^ T = ((m <<< k : ℕ) : ℝ) / m' := by
      rw [Nat.shiftLeft_eq]; push_cast
      rw [← zpow_natCast, hkT, zpow_sub₀ (by norm_num : (2 : ℝ) ≠ 0) (e - e') T]; ring
    obtain ⟨R, hR⟩ := roundWithAccuracy_rounded (s / s') ((m <<< k) / m') T (accuracyOfFraction ((m <<< k) % m') m')
      ((m : ℝ) / m' * 2 ^ (e - e')) (by
        rw [hM]; exact rep_fraction _ _ hm') (by
        by_cases hlow : T ≤ -1074
        · omega
        · have hle : T ≤ (m.log2 : ℤ) + 1 + e - (m'.log2 + 1 + e') - 53 := by omega
          have hq : 2 ^ 52 ≤ (m <<< k) / m' := by
            rw [Nat.le_div_iff_mul_le hm', Nat.shiftLeft_eq]
            calc 2 ^ 52 * m' ≤ 2 ^ 52 * 2 ^ (m'.log2 + 1) := Nat.mul_le_mul_left _ (lt_log2 m').le
              _ = 2 ^ (52 + (m'.log2 + 1)) := (pow_add _ _ _).symm
              _ ≤ 2 ^ (m.log2 + k) := Nat.pow_le_pow_right (by norm_num) (by omega)
              _ = 2 ^ m.log2 * 2 ^ k := pow_add _ _ _
              _ ≤ m * 2 ^ k := Nat.mul_le_mul_right _ (log2_le hm.ne')
          have := le_log2 hq
          omega)
    exact (hR.rnd (by positivity)).1

theorem add_near {a b : Float.Model} {x y : ℝ} (ha : value a = some x) (hb : value b = some y) (h : |x + y| ≤ largest) :
    NearExact (a.add b) (x + y) := (add_rnd ha hb).1 (h.trans_lt largest_lt)
theorem sub_near {a b : Float.Model} {x y : ℝ} (ha : value a = some x) (hb : value b = some y) (h : |x - y| ≤ largest) :
    NearExact (a.sub b) (x - y) := (sub_rnd ha hb).1 (h.trans_lt largest_lt)
theorem mul_near {a b : Float.Model} {x y : ℝ} (ha : value a = some x) (hb : value b = some y) (h : |x * y| ≤ largest) :
    Near (a.mul b) (x * y) := (mul_rnd ha hb).1 (h.trans_lt largest_lt)
theorem div_near {a b : Float.Model} {x y : ℝ} (ha : value a = some x) (hb : value b = some y) (hy : y ≠ 0)
    (h : |x / y| ≤ largest) : Near (a.div b) (x / y) := (div_rnd ha hb hy).1 (h.trans_lt largest_lt)
theorem RndExact.ieee {f : Float.Model} {x : ℝ} (h : RndExact f x) : Ieee f x := ⟨fun hb => (h.1 hb).2, h.2⟩
theorem Rnd.ieee {f : Float.Model} {x : ℝ} (h : Rnd f x) : Ieee f x := ⟨fun hb => (h.1 hb).2, h.2⟩

end SymRust.F64
