import Verif.Proofs.Float64Sym
/-! # The correctly rounded double is determined by the real number, and monotone in it -/

namespace SymRust.F64
open Float.Model Float.Model.UnpackedFloat

theorem CorrectlyRounded.exact {f g : Float.Model} {x : ℝ} (h : CorrectlyRounded f x) (hg : value g = some x) :
    value f = some x := by
  obtain ⟨z, hz, hn⟩ := h
  have := (hn g x hg).1
  rw [sub_self, abs_zero, abs_nonpos_iff, sub_eq_zero] at this
  rw [hz, this]

theorem CorrectlyRounded.mono {f g : Float.Model} {x y z w : ℝ} (hf : CorrectlyRounded f x) (hg : CorrectlyRounded g y)
    (hz : value f = some z) (hw : value g = some w) (h : x < y) : z ≤ w := by
  obtain ⟨z', hz', hn⟩ := hf
  obtain ⟨w', hw', hn'⟩ := hg
  cases hz'.symm.trans hz
  cases hw'.symm.trans hw
  by_contra hc
  push Not at hc
  have h1 := (hn g w hw).1
  have h2 := (hn' f z hz).1
  have h1 := sq_le_sq' (by linarith [abs_nonneg (z - x), abs_nonneg (w - x)]) h1
  have h2 := sq_le_sq' (by linarith [abs_nonneg (w - y), abs_nonneg (z - y)]) h2
  rw [sq_abs, sq_abs] at h1 h2
  nlinarith

theorem canon_inj {m m' : ℕ} {e e' : ℤ} (hc : Canon m e) (hc' : Canon m' e') (h : (m : ℝ) * 2 ^ e = m' * 2 ^ e') : m = m' := by
  rcases lt_trichotomy e e' with h1 | h1 | h1
  · exact absurd h (canon_lt hc hc' h1).ne
  · subst h1
    exact_mod_cast mul_right_cancel₀ (two_zpow_pos e).ne' h
  · exact absurd h (canon_lt hc' hc h1).ne'

theorem value_canon {m : ℕ} {e : ℤ} (hc : Canon m e) (he : e ≤ 971) : ∃ f, value f = some ((m : ℝ) * 2 ^ e) :=
  ⟨_, by rw [pack_value (f := .finite .positive m e hc.pos) ⟨hc, he⟩]; simp [unpackedValue, signValue]⟩

theorem even_of_unpack {f : Float.Model} {s : Sign} {m : ℕ} {e : ℤ} {hm : 0 < m} (h : EvenMantissa f)
    (hu : f.unpack = .finite s m e hm) : m % 2 = 0 := by
  unfold EvenMantissa at h
  rw [hu] at h
  exact h

theorem between_core {m m' : ℕ} {e e' : ℤ} {z : ℝ} (h0 : z = (m' : ℝ) * 2 ^ e') (hM : Canon m e) (he : e ≤ 971)
    (hc' : Canon m' e') (hodd : m % 2 = 1) (heven : m' % 2 = 0) {lo : ℝ} (hlo : lo < m * 2 ^ e)
    (hlow : e' < e → z ≤ lo) (heq : e' = e → m' < m → z ≤ lo) (hz : lo < z) :
    ∃ h y, value h = some y ∧ lo < y ∧ y < z := by
  obtain ⟨h, hh⟩ := value_canon hM he
  refine ⟨h, _, hh, hlo, ?_⟩
  rw [h0]
  rcases lt_trichotomy e e' with h1 | h1 | h1
  · exact canon_lt hM hc' h1
  · subst h1
    have hp := two_zpow_pos e
    rcases lt_trichotomy m m' with h2 | h2 | h2
    · exact mul_lt_mul_of_pos_right (by exact_mod_cast h2) hp
    · omega
    · exact absurd (heq rfl h2) (not_le.2 hz)
  · exact absurd (hlow h1) (not_le.2 hz)

/-- Between two doubles with even mantissas lies another one. -/
theorem between_nonneg {f g : Float.Model} {z w : ℝ} (hf : value f = some z) (hg : value g = some w) (h0 : 0 ≤ z) (h : z < w)
    (ef : EvenMantissa f) (eg : EvenMantissa g) : ∃ h y, value h = some y ∧ z < y ∧ y < w := by
  rcases unpack_of_value hg with ⟨s', h2, rfl⟩ | ⟨s', m', e', hm', h2, hc', he', rfl⟩
  · linarith
  have hp' : (0 : ℝ) < m' * 2 ^ e' := mul_pos (by exact_mod_cast hm') (two_zpow_pos e')
  have eg := even_of_unpack eg h2
  have hw : signValue s' * (m' * 2 ^ e') = m' * 2 ^ e' := by
    cases s' <;> simp only [signValue] at h ⊢ <;> linarith
  rw [hw] at h ⊢
  rcases unpack_of_value hf with ⟨s, h1, rfl⟩ | ⟨s, m, e, hm, h1, hc, he, rfl⟩
  · refine between_core (m := 1) (e := -1074) rfl ⟨by norm_num, by norm_num, le_rfl, .inr rfl⟩ (by norm_num) hc' rfl eg
      (by simp) (fun h3 => absurd hc'.low (by omega)) (fun _ h3 => by omega) hp'
  · have hp : (0 : ℝ) < m * 2 ^ e := mul_pos (by exact_mod_cast hm) (two_zpow_pos e)
    have ef := even_of_unpack ef h1
    have hz : signValue s * (m * 2 ^ e) = m * 2 ^ e := by
      cases s <;> simp only [signValue] at h0 ⊢ <;> linarith
    rw [hz] at h ⊢
    have hlt := hc.lt
    refine between_core (m := m + 1) (e := e) rfl ⟨by omega, by omega, hc.low, hc.norm.imp_left (by omega)⟩ he hc' (by omega) eg
      (mul_lt_mul_of_pos_right (by push_cast; linarith) (two_zpow_pos e)) (fun h3 => (canon_lt hc' hc h3).le)
      (fun h3 h4 => by subst h3; exact mul_le_mul_of_nonneg_right (by exact_mod_cast Nat.lt_succ_iff.1 h4) (two_zpow_pos _).le) h

theorem even_neg {f : Float.Model} {z : ℝ} (hz : value f = some z) (h : EvenMantissa f) : EvenMantissa f.neg := by
  unfold Float.Model.neg
  unfold EvenMantissa
  rcases unpack_of_value hz with ⟨s, h1, rfl⟩ | ⟨s, m, e, hm, h1, hc, he, rfl⟩
  · rw [h1]
    show match (Float.Model.pack (.zero (-s))).unpack with | .finite _ m _ _ => m % 2 = 0 | _ => True
    rw [unpack_pack (f := .zero (-s)) trivial]; trivial
  · rw [h1]
    show match (Float.Model.pack (.finite (-s) m e hm)).unpack with | .finite _ m _ _ => m % 2 = 0 | _ => True
    rw [unpack_pack (f := .finite (-s) m e hm) ⟨hc, he⟩]
    exact even_of_unpack h h1

theorem value_zero : value (Float.Model.pack (.zero .positive)) = some 0 := pack_value (f := .zero .positive) trivial

theorem between {f g : Float.Model} {z w : ℝ} (hf : value f = some z) (hg : value g = some w) (h : z < w)
    (ef : EvenMantissa f) (eg : EvenMantissa g) : ∃ h y, value h = some y ∧ z < y ∧ y < w := by
  by_cases h0 : 0 ≤ z
  · exact between_nonneg hf hg h0 h ef eg
  · by_cases h1 : 0 < w
    · exact ⟨_, 0, value_zero, by linarith, h1⟩
    · obtain ⟨k, y, hk, h2, h3⟩ := between_nonneg (neg_value hg) (neg_value hf) (by linarith) (by linarith) (even_neg hg eg)
        (even_neg hf ef)
      exact ⟨_, _, neg_value hk, by linarith, by linarith⟩

/-- There is one double (up to the sign of zero) that a real number rounds to. -/
theorem CorrectlyRounded.unique {f g : Float.Model} {x : ℝ} (hf : CorrectlyRounded f x) (hg : CorrectlyRounded g x) :
    value f = value g := by
  obtain ⟨z, hz, hn⟩ := hf
  obtain ⟨w, hw, hn'⟩ := hg
  rw [hz, hw]
  congr 1
  by_contra hne
  have he : |z - x| = |w - x| := le_antisymm (hn _ _ hw).1 (hn' _ _ hz).1
  have ef := ((hn _ _ hw).2 he.symm).resolve_left (Ne.symm hne)
  have eg := ((hn' _ _ hz).2 he).resolve_left hne
  have hm : z - x = -(w - x) := (abs_eq_abs.1 he).resolve_left (fun h => hne (by linarith))
  have key : ∀ y, (z < y ∧ y < w) ∨ (w < y ∧ y < z) → |y - x| < |z - x| := by
    rintro y (⟨h1, h2⟩ | ⟨h1, h2⟩)
    · rw [abs_of_neg (by linarith : z - x < 0), abs_lt]; constructor <;> linarith
    · rw [abs_of_pos (by linarith : 0 < z - x), abs_lt]; constructor <;> linarith
  rcases lt_or_gt_of_ne hne with h | h
  · obtain ⟨k, y, hk, h1, h2⟩ := between hz hw h ef eg
    exact absurd (hn _ _ hk).1 (not_le.2 (key y (.inl ⟨h1, h2⟩)))
  · obtain ⟨k, y, hk, h1, h2⟩ := between hw hz h eg ef
    exact absurd (hn _ _ hk).1 (not_le.2 (key y (.inr ⟨h1, h2⟩)))

/-- Integers up to 2^53 are doubles. -/
theorem exists_value_nat {n : ℕ} (h : n ≤ 2 ^ 53) : ∃ f, value f = some (n : ℝ) := by
  rcases Nat.eq_zero_or_pos n with rfl | hp
  · exact ⟨_, by simpa using value_zero⟩
  rcases h.lt_or_eq with h | rfl
  · have hl : n.log2 < 53 := log2_lt h hp.ne'
    have h1 := log2_le hp.ne'
    have h2 := lt_log2 n
    have hk : 2 ^ 52 ≤ n * 2 ^ (52 - n.log2) := by
      calc 2 ^ 52 = 2 ^ n.log2 * 2 ^ (52 - n.log2) := by rw [← pow_add]; congr 1; omega
        _ ≤ _ := Nat.mul_le_mul_right _ h1
    have hk' : n * 2 ^ (52 - n.log2) < 2 ^ 53 := by
      calc n * 2 ^ (52 - n.log2) < 2 ^ (n.log2 + 1) * 2 ^ (52 - n.log2) := Nat.mul_lt_mul_of_pos_right h2 (by positivity)
        _ = 2 ^ 53 := by rw [← pow_add]; congr 1; omega
    obtain ⟨f, hf⟩ := value_canon (m := n * 2 ^ (52 - n.log2)) (e := -((52 - n.log2 : ℕ) : ℤ))
      ⟨by positivity, hk', by omega, .inl hk⟩ (by omega)
    refine ⟨f, hf.trans ?_⟩
    rw [zpow_neg, zpow_natCast]
    push_cast
    rw [mul_assoc, mul_inv_cancel₀ (by positivity), mul_one]
  · obtain ⟨f, hf⟩ := value_canon (m := 2 ^ 52) (e := 1) ⟨by norm_num, by norm_num, by norm_num, .inl le_rfl⟩ (by norm_num)
    exact ⟨f, hf.trans (by norm_num)⟩

theorem exists_value_int {n : ℤ} (h : |n| ≤ 2 ^ 53) : ∃ f, value f = some (n : ℝ) := by
  obtain ⟨f, hf⟩ := exists_value_nat (n := n.natAbs) (by rw [Int.abs_eq_natAbs] at h; omega)
  rcases Int.natAbs_eq n with h1 | h1
  · exact ⟨f, by rw [hf, h1]; simp⟩
  · refine ⟨f.neg, by rw [neg_value hf, h1]; simp⟩

end SymRust.F64
