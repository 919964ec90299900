import Verif.Proofs.Float64Ops
/-! # Widening `f32` is exact -/

namespace SymRust.F64
open Float.Model Float.Model.UnpackedFloat

theorem bounds32 (b : BitVec 32) {s : Sign} {m : ℕ} {e : ℤ} {h : 0 < m}
    (hb : UnpackedFloat.unpack Format.binary32 b = .finite s m e h) : m < 2 ^ 24 ∧ -149 ≤ e ∧ e ≤ 104 := by
  unfold UnpackedFloat.unpack at hb
  simp only [] at hb
  have key : ∀ ev : BitVec 8, ev ≠ -1#8 → ev ≠ 0#8 → ev.toNat ≠ 255 ∧ ev.toNat ≠ 0 := fun ev h1 h2 =>
    ⟨fun h => h1 (by apply BitVec.eq_of_toNat_eq; simpa using h), fun h => h2 (by apply BitVec.eq_of_toNat_eq; simpa using h)⟩
  have hm : (unpackMantissa (spec := Format.binary32) b).toNat < 2 ^ 23 := (unpackMantissa (spec := Format.binary32) b).isLt
  have he : (unpackExponent (spec := Format.binary32) b).toNat < 2 ^ 8 := (unpackExponent (spec := Format.binary32) b).isLt
  have hbias : (Format.binary32.exponentBias : ℤ) = 127 := rfl
  split_ifs at hb with h1 h2 h3 h4
  · injection hb with _ e1 e2
    rw [h3] at e2
    have e2 : (0 : ℤ) - (127 + 23) + 1 = e := e2
    omega
  · injection hb with _ e1 e2
    obtain ⟨h5, h6⟩ := key _ h1 h3
    rw [hbias] at e2
    have hl : (1#1 ++ unpackMantissa (spec := Format.binary32) b).toNat < 2 ^ 24 :=
      (1#1 ++ unpackMantissa (spec := Format.binary32) b).isLt
    refine ⟨by omega, ?_, ?_⟩ <;> push_cast at e2 <;> omega

theorem widen_value (v : Float32.Model) : value (ofF32 v) = unpackedValue v.unpack ∧
    ((ofF32 v).unpack = .notANumber ↔ v.unpack = .notANumber) ∧
    (∀ s, (ofF32 v).unpack = .infinity s ↔ v.unpack = .infinity s) ∧
    (∀ s, (ofF32 v).unpack = .zero s ↔ v.unpack = .zero s) := by
  unfold ofF32 value
  cases hu : v.unpack with
  | infinity s => simp only []; rw [unpack_pack (f := .infinity s) trivial]; simp
  | notANumber => simp only []; rw [unpack_pack (f := .notANumber) trivial]; simp
  | zero s => simp only []; rw [unpack_pack (f := .zero s) trivial]; simp
  | finite s m e hm =>
    simp only []
    obtain ⟨hm24, he1, he2⟩ := bounds32 _ hu
    obtain ⟨t, R, hR⟩ := round_rounded s m e hm.ne'
    have hx : (0 : ℝ) < m * 2 ^ e := mul_pos (by exact_mod_cast hm) (two_zpow_pos e)
    have hlt : (m : ℝ) * 2 ^ e < 2 ^ (24 + e) := by
      rw [zpow_add₀ (by norm_num)]
      exact mul_lt_mul_of_pos_right (by exact_mod_cast hm24) (two_zpow_pos e)
    have hte : t ≤ e := by
      rcases hR.unit with h | h
      · omega
      · have := (zpow_lt_zpow_iff_right₀ (by norm_num : (1 : ℝ) < 2)).1 (h.trans_lt hlt)
        omega
    have hle : (m : ℝ) * 2 ^ e ≤ largest := by
      have : (2 : ℝ) ^ (24 + e) ≤ 2 ^ (971 : ℤ) := zpow_le_zpow_right₀ (by norm_num) (by omega)
      rw [largest]
      refine hlt.le.trans (this.trans ?_)
      rw [show (971 : ℤ) = ((971 : ℕ) : ℤ) by norm_num, zpow_natCast]
      exact le_mul_of_one_le_left (by positivity) (by norm_num)
    have hRk : R = m * 2 ^ (e - t).toNat := hR.exact _ (by
      push_cast
      rw [mul_div_assoc, ← zpow_natCast, ← zpow_sub₀ (by norm_num)]
      congr 2; omega)
    have hR0 : R ≠ 0 := by rw [hRk]; positivity
    obtain ⟨hg, -⟩ := hR.value hx.le (hle.trans_lt largest_lt)
    rw [unpack_pack hg]
    obtain ⟨m', e', h', heq, -, hv, -⟩ := hR.finite hR0
    rw [heq]
    refine ⟨?_, by simp, by simp, by simp⟩
    simp only [unpackedValue]
    rw [hv, hRk]
    push_cast
    rw [mul_assoc, ← zpow_natCast, ← zpow_add₀ (by norm_num)]
    congr 4; omega

end SymRust.F64
