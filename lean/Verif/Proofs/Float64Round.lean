import Verif.Proofs.Float64
/-! # Rounding to doubles: the rounded mantissa is a nearest one -/

namespace SymRust.F64
open Float.Model Float.Model.UnpackedFloat

/-- `x`, in units of the last place, lies where the mantissa and its two residual bits say. -/
def Rep : ExtendedMantissa → ℝ → Prop
  | ⟨M, false, false⟩, x => x = M
  | ⟨M, false, true⟩, x => M < x ∧ x < M + 1 / 2
  | ⟨M, true, false⟩, x => x = M + 1 / 2
  | ⟨M, true, true⟩, x => M + 1 / 2 < x ∧ x < M + 1

theorem rep_shiftOne {em : ExtendedMantissa} {x : ℝ} (h : Rep em x) : Rep em.shiftRightOne (x / 2) := by
  obtain ⟨M, r, s⟩ := em
  have hM : (M : ℝ) = 2 * ((M / 2 : ℕ) : ℝ) + ((M % 2 : ℕ) : ℝ) := by
    exact_mod_cast (Nat.div_add_mod M 2).symm
  rcases Nat.mod_two_eq_zero_or_one M with h2 | h2 <;> rw [h2] at hM <;> push_cast at hM <;>
    cases r <;> cases s <;> simp only [Rep, ExtendedMantissa.shiftRightOne, h2] at h ⊢ <;>
    norm_num <;> (first | (constructor <;> linarith) | linarith | (show x / 2 = ((M / 2 : ℕ) : ℝ) + 1 / 2; linarith))

theorem shift_eq (em : ExtendedMantissa) (n : ℕ) : em >>> n = n.repeat ExtendedMantissa.shiftRightOne em := rfl

theorem rep_shift {em : ExtendedMantissa} {x : ℝ} (h : Rep em x) (n : ℕ) : Rep (em >>> n) (x / 2 ^ n) := by
  rw [shift_eq]
  induction n with
  | zero => simpa [Nat.repeat] using h
  | succ n ih =>
    rw [Nat.repeat, pow_succ, ← div_div]
    exact rep_shiftOne ih

theorem mantissa_shift (em : ExtendedMantissa) (n : ℕ) : (em >>> n).mantissa = em.mantissa / 2 ^ n := by
  rw [shift_eq]
  induction n with
  | zero => simp [Nat.repeat]
  | succ n ih => rw [Nat.repeat, pow_succ, ← Nat.div_div_eq_div_mul, ← ih]; rfl

theorem rep_rounded {em : ExtendedMantissa} {x : ℝ} (h : Rep em x) :
    |(em.roundedMantissa : ℝ) - x| ≤ 1 / 2 ∧ em.mantissa ≤ em.roundedMantissa ∧ em.roundedMantissa ≤ em.mantissa + 1 ∧
      (∀ k : ℕ, x = k → em.roundedMantissa = k) ∧ (em.mantissa : ℝ) ≤ x ∧ x < em.mantissa + 1 ∧
      (|(em.roundedMantissa : ℝ) - x| = 1 / 2 → em.roundedMantissa % 2 = 0) := by
  obtain ⟨M, r, s⟩ := em
  have no : ∀ k : ℕ, ¬ ((M : ℝ) < k ∧ (k : ℝ) < M + 1) := by
    rintro k ⟨h1, h2⟩
    have h1 : M < k := by exact_mod_cast h1
    have h2 : k < M + 1 := by exact_mod_cast h2
    omega
  cases r <;> cases s <;> simp only [Rep] at h <;>
    simp only [ExtendedMantissa.roundedMantissa, ExtendedMantissa.accuracy, Accuracy.roundToNearestEven]
  · subst h
    refine ⟨by simp, le_rfl, by omega, fun k hk => by exact_mod_cast hk, le_rfl, by linarith, fun h => ?_⟩
    simp at h
  · refine ⟨by rw [abs_le]; constructor <;> linarith, le_rfl, by omega, fun k hk => ?_, h.1.le, by linarith, fun h' => ?_⟩
    · exact absurd ⟨by rw [← hk]; linarith, by rw [← hk]; linarith⟩ (no k)
    · rw [abs_of_neg (by linarith)] at h'; linarith
  · have : M % 2 < 2 := Nat.mod_lt _ (by norm_num)
    refine ⟨?_, by omega, by omega, fun k hk => ?_, by linarith, by linarith, fun _ => by omega⟩
    · rcases Nat.mod_two_eq_zero_or_one M with h2 | h2 <;> rw [h2, h, abs_le] <;> push_cast <;> constructor <;> linarith
    · exact absurd ⟨by rw [← hk]; linarith, by rw [← hk]; linarith⟩ (no k)
  · refine ⟨by rw [abs_le]; push_cast; constructor <;> linarith, by omega, le_rfl, fun k hk => ?_, by linarith, by linarith, fun h' => ?_⟩
    · exact absurd ⟨by rw [← hk]; linarith, by rw [← hk]; linarith⟩ (no k)
    · push_cast at h'; rw [abs_of_pos (by linarith)] at h'; linarith

theorem target_eq (t : ℤ) : Format.binary64.targetExponent t = max (t - 53) (-1074) := by
  simp [Format.targetExponent, Format.mantissaBits, Format.minExponent]

theorem shiftToTarget_eq (m : ℕ) (e : ℤ) (acc : Accuracy) :
    shiftToTargetExponent Format.binary64 m e acc =
      (ExtendedMantissa.ofMantissaAndAccuracy m acc >>> (max (m.log2 + 1 + e - 53) (-1074) - e).toNat,
        e + (max (m.log2 + 1 + e - 53) (-1074) - e).toNat) := by
  unfold shiftToTargetExponent shiftToExponent totalExponent
  rw [target_eq]

theorem mantissa_ofAcc (m : ℕ) (acc : Accuracy) : (ExtendedMantissa.ofMantissaAndAccuracy m acc).mantissa = m := by
  cases acc with
  | exact => rfl
  | inexact o => cases o <;> rfl

/-- The result of rounding `x`: the nearest multiple `R * 2^t` of the unit in the last place `2^t`. -/
structure Rounded (s : Sign) (x : ℝ) (t : ℤ) (R : ℕ) (res : UnpackedFloat) : Prop where
  low : -1074 ≤ t
  near : |(R : ℝ) - x / 2 ^ t| ≤ 1 / 2
  exact : ∀ k : ℕ, x / 2 ^ t = k → R = k
  even : |(R : ℝ) - x / 2 ^ t| = 1 / 2 → R % 2 = 0
  unit : t = -1074 ∨ (2 : ℝ) ^ (t + 52) ≤ x
  below : x < 2 ^ (t + 53)
  zero : R = 0 → res = .zero s
  finite : R ≠ 0 → ∃ m e h, res = .finite s m e h ∧ Canon m e ∧ (m : ℝ) * 2 ^ e = R * 2 ^ t ∧
    (e = t ∨ (R = 2 ^ 53 ∧ e = t + 1))

theorem log2_le {m : ℕ} (h : m ≠ 0) : 2 ^ m.log2 ≤ m := Nat.log2_self_le h
theorem lt_log2 (m : ℕ) : m < 2 ^ (m.log2 + 1) := Nat.lt_log2_self

theorem roundWithAccuracy_rounded (s : Sign) (m : ℕ) (e : ℤ) (acc : Accuracy) (x : ℝ)
    (hx : Rep (ExtendedMantissa.ofMantissaAndAccuracy m acc) (x / 2 ^ e))
    (he : e ≤ max (m.log2 + 1 + e - 53) (-1074)) :
    ∃ R, Rounded s x (max (m.log2 + 1 + e - 53) (-1074)) R (roundWithAccuracy Format.binary64 s m e acc) := by
  set t := max (m.log2 + 1 + e - 53 : ℤ) (-1074) with ht
  obtain ⟨n, hn⟩ : ∃ n : ℕ, t - e = n := ⟨(t - e).toNat, by omega⟩
  have hn' : (t - e).toNat = n := by omega
  unfold roundWithAccuracy
  rw [shiftToTarget_eq, ← ht, hn']
  simp only []
  rw [shiftToTarget_eq]
  simp only [mantissa_shift, mantissa_ofAcc]
  set em := ExtendedMantissa.ofMantissaAndAccuracy m acc >>> n with hem
  have hR := rep_rounded (rep_shift hx n)
  rw [← hem, mantissa_shift] at hR
  set R := em.roundedMantissa with hRdef
  set M := m / 2 ^ n with hMdef
  have hx' : x / 2 ^ e / 2 ^ n = x / 2 ^ t := by
    rw [div_div, show t = e + n by omega, zpow_add₀ (by norm_num), zpow_natCast]
  rw [mantissa_ofAcc, hx', ← hMdef] at hR
  obtain ⟨h1, h2, h3, h4, h5, h6, h7⟩ := hR
  have hlow : -1074 ≤ t := by omega
  have hM : M < 2 ^ 53 := by
    rw [hMdef, Nat.div_lt_iff_lt_mul (by positivity), ← pow_add]
    exact (lt_log2 m).trans_le (Nat.pow_le_pow_right (by norm_num) (by omega))
  have hM' : t = -1074 ∨ 2 ^ 52 ≤ M := by
    by_cases h : t = -1074
    · exact .inl h
    · refine .inr ?_
      have hn2 : n + 52 = m.log2 := by omega
      have hm0 : m ≠ 0 := by rintro rfl; simp at hn2
      rw [hMdef, Nat.le_div_iff_mul_le (by positivity), ← pow_add, add_comm, hn2]
      exact log2_le hm0
  have h2t : (0 : ℝ) < 2 ^ t := by positivity
  have hMr : ((M : ℕ) : ℝ) + 1 ≤ 2 ^ 53 := by exact_mod_cast hM
  refine ⟨R, hlow, h1, h4, h7, hM'.imp_right fun h => ?_, ?_, ?_, ?_⟩
  · have : (2 : ℝ) ^ 52 ≤ M := by exact_mod_cast h
    rw [zpow_add₀ (by norm_num), mul_comm, ← le_div_iff₀ h2t]
    exact_mod_cast this.trans h5
  · rw [zpow_add₀ (by norm_num), mul_comm, ← div_lt_iff₀ h2t]
    exact_mod_cast h6.trans_le hMr
  · intro h0
    rw [dif_pos (by rw [h0]; simp)]
  · intro h0
    have hen : e + n = t := by omega
    rw [hen]
    rcases Nat.lt_or_ge R (2 ^ 53) with hlt | hge
    · have hl : R.log2 < 53 := log2_lt hlt h0
      have hk : (max ((R.log2 : ℤ) + 1 + t - 53) (-1074) - t).toNat = 0 := by omega
      rw [hk]
      simp only [pow_zero, Nat.div_one]
      rw [dif_neg h0]
      refine ⟨R, t, Nat.pos_of_ne_zero h0, by simp, ⟨Nat.pos_of_ne_zero h0, hlt, hlow, ?_⟩, rfl, .inl rfl⟩
      exact hM'.symm.imp_left fun h => h.trans h2
    · have hR53 : R = 2 ^ 53 := by omega
      have hl : R.log2 = 53 := by rw [hR53]; exact Nat.log2_two_pow
      have hk : (max ((R.log2 : ℤ) + 1 + t - 53) (-1074) - t).toNat = 1 := by omega
      rw [hk, dif_neg (by rw [hR53]; norm_num)]
      refine ⟨R / 2 ^ 1, t + 1, by rw [hR53]; norm_num, by simp, ⟨?_, ?_, by omega, .inl ?_⟩, ?_, .inr ⟨hR53, rfl⟩⟩
      · rw [hR53]; norm_num
      · rw [hR53]; norm_num
      · rw [hR53]; norm_num
      · rw [hR53, zpow_add₀ (by norm_num)]; norm_num; ring

end SymRust.F64
