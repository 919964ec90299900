import Verif.Proofs.RoundAgg
/-! Error bounds of arithmetic expressions. -/

namespace SymRust
variable {F : Type} [FloatOps F] {R : Rounding F}
open Expr

namespace Rounding

/-- The growth of `k` roundings. -/
noncomputable def grow (R : Rounding F) (k : ℕ) : ℝ := ((1 - 9 * R.u) ^ k)⁻¹

theorem base_pos {k : ℕ} (h : 27 * R.u * k ≤ 1) (hk : k ≠ 0) : 0 < 1 - 9 * R.u := by
  have : (1 : ℝ) ≤ k := by exact_mod_cast Nat.one_le_iff_ne_zero.2 hk
  have := R.u_nonneg
  nlinarith
theorem base_pos' : 0 < 1 - 9 * R.u := by have := R.u_small; linarith
theorem base_le : 1 - 9 * R.u ≤ 1 := by have := R.u_nonneg; linarith

theorem one_le_grow (k : ℕ) : 1 ≤ R.grow k := by
  unfold grow
  rw [one_le_inv₀ (pow_pos base_pos' k)]
  exact pow_le_one₀ base_pos'.le base_le

theorem grow_add (j k : ℕ) : R.grow (j + k) = R.grow j * R.grow k := by unfold grow; rw [pow_add, mul_inv]

theorem grow_mono {j k : ℕ} (h : j ≤ k) : R.grow j ≤ R.grow k := by
  obtain ⟨i, rfl⟩ := Nat.exists_eq_add_of_le h
  rw [grow_add]
  exact le_mul_of_one_le_right (zero_le_one.trans (one_le_grow j)) (one_le_grow i)

theorem grow_succ (k : ℕ) : R.grow k * (1 + 9 * R.u) ≤ R.grow (k + 1) := by
  rw [grow_add]
  refine mul_le_mul_of_nonneg_left ?_ (zero_le_one.trans (one_le_grow k))
  unfold grow
  rw [pow_one, le_inv_comm₀ (by have := R.u_nonneg; linarith) base_pos']
  have := R.u_nonneg
  rw [le_inv_comm₀ base_pos' (by linarith), ← one_div, le_div_iff₀ base_pos']
  nlinarith

theorem grow_le {k : ℕ} (h : 27 * R.u * k ≤ 1) : R.grow k ≤ 1 + 14 * R.u * k := by
  have hu := R.u_nonneg
  have hk : (0 : ℝ) ≤ k := by positivity
  have hb : 1 - 9 * R.u * k ≤ (1 - 9 * R.u) ^ k := by
    have := one_add_mul_le_pow (a := -(9 * R.u)) (by have := R.u_small; linarith) k
    calc 1 - 9 * R.u * k = 1 + k * -(9 * R.u) := by ring
      _ ≤ (1 + -(9 * R.u)) ^ k := this
      _ = _ := by rw [← sub_eq_add_neg]
  unfold grow
  have h0 : 0 < 1 - 9 * R.u * k := by linarith
  refine (inv_anti₀ h0 hb).trans ?_
  rw [← one_div, div_le_iff₀ h0]
  have : 0 ≤ R.u * k := by positivity
  nlinarith

theorem grow_le' {k : ℕ} (h : 27 * R.u * k ≤ 1) : R.grow k ≤ 8 / 5 := by
  refine (grow_le h).trans ?_
  linarith

/-- One more rounding. -/
theorem widen_grow {r A D : ℝ} {k : ℕ} (hr : |r| ≤ A) (hA : 4 * R.η ≤ R.u * A) (hD : D ≤ (R.grow k - 1) * A) :
    R.widen r D ≤ (R.grow (k + 1) - 1) * A := by
  have h1 := grow_succ (R := R) k
  have hg := one_le_grow (R := R) k
  have hA0 : 0 ≤ A := (abs_nonneg r).trans hr
  have hu := R.u_nonneg
  have h2 := mul_le_mul_of_nonneg_right h1 hA0
  have h3 : R.u * (|r| + D) ≤ R.u * (R.grow k * A) := mul_le_mul_of_nonneg_left (by linarith) hu
  have h4 : R.u * A ≤ R.u * (R.grow k * A) := mul_le_mul_of_nonneg_left (by nlinarith) hu
  unfold widen
  nlinarith

variable {r₁ r₂ A₁ A₂ A x y t₁ t₂ : ℝ}

theorem mul_box (h1 : |r₁| ≤ A₁) (h2 : |r₂| ≤ A₂) (ht : 1 ≤ t₁) (hx : |x - r₁| ≤ (t₁ - 1) * A₁)
    (hy : |y - r₂| ≤ (t₂ - 1) * A₂) : |x * y - r₁ * r₂| ≤ (t₁ * t₂ - 1) * (A₁ * A₂) := by
  have hA1 : 0 ≤ A₁ := (abs_nonneg _).trans h1
  have hx' : |x| ≤ t₁ * A₁ := by
    calc |x| = |(x - r₁) + r₁| := by ring_nf
      _ ≤ |x - r₁| + |r₁| := abs_add_le _ _
      _ ≤ t₁ * A₁ := by linarith
  calc |x * y - r₁ * r₂| = |x * (y - r₂) + (x - r₁) * r₂| := by ring_nf
    _ ≤ |x * (y - r₂)| + |(x - r₁) * r₂| := abs_add_le _ _
    _ ≤ t₁ * A₁ * ((t₂ - 1) * A₂) + (t₁ - 1) * A₁ * A₂ := by
      rw [abs_mul, abs_mul]
      exact add_le_add (mul_le_mul hx' hy (abs_nonneg _) (by positivity))
        (mul_le_mul hx h2 (abs_nonneg _) (mul_nonneg (by linarith) hA1))
    _ = _ := by ring

theorem div_box (h1 : |r₁| ≤ A₁) (h2 : r₂ ≠ 0) (ht : 1 ≤ t₁) (ht2 : 1 ≤ t₂) (ht2' : t₂ ≤ 8 / 5)
    (hx : |x - r₁| ≤ (t₁ - 1) * A₁) (hy : |y - r₂| ≤ (t₂ - 1) * |r₂|) :
    y ≠ 0 ∧ |x / y - r₁ / r₂| ≤ (t₁ * (t₂ * t₂) - 1) * (A₁ / |r₂|) := by
  have hr : 0 < |r₂| := abs_pos.2 h2
  have hA1 : 0 ≤ A₁ := (abs_nonneg _).trans h1
  have hy' : (2 - t₂) * |r₂| ≤ |y| := by
    have : |r₂| ≤ |y| + |y - r₂| := by
      calc |r₂| = |y - (y - r₂)| := by ring_nf
        _ ≤ |y| + |y - r₂| := abs_sub _ _
    linarith
  have hy0 : 0 < |y| := lt_of_lt_of_le (mul_pos (by linarith) hr) hy'
  have hyne : y ≠ 0 := abs_pos.1 hy0
  refine ⟨hyne, ?_⟩
  have e : x / y - r₁ / r₂ = ((x - r₁) * r₂ + r₁ * (r₂ - y)) / (y * r₂) := by field_simp; ring
  rw [e, abs_div, abs_mul y, div_le_iff₀ (mul_pos hy0 hr)]
  have n1 : |(x - r₁) * r₂ + r₁ * (r₂ - y)| ≤ (t₁ - 1) * A₁ * |r₂| + A₁ * ((t₂ - 1) * |r₂|) := by
    refine (abs_add_le _ _).trans (add_le_add ?_ ?_)
    · rw [abs_mul]; exact mul_le_mul_of_nonneg_right hx hr.le
    · rw [abs_mul, abs_sub_comm r₂]; exact mul_le_mul h1 hy (abs_nonneg _) hA1
  have key : t₁ + t₂ - 2 ≤ (t₁ * (t₂ * t₂) - 1) * (2 - t₂) := by
    have h : 1 ≤ t₂ * t₂ * (2 - t₂) := by nlinarith [mul_nonneg (sub_nonneg.2 ht2) (sub_nonneg.2 ht2')]
    nlinarith
  have k2 : 0 ≤ t₁ * (t₂ * t₂) - 1 := by nlinarith [mul_nonneg (sub_nonneg.2 ht) (sub_nonneg.2 ht2)]
  have e2 : (t₁ * (t₂ * t₂) - 1) * (A₁ / |r₂|) * (|y| * |r₂|) = (t₁ * (t₂ * t₂) - 1) * A₁ * |y| := by field_simp
  rw [e2]
  calc _ ≤ (t₁ - 1) * A₁ * |r₂| + A₁ * ((t₂ - 1) * |r₂|) := n1
    _ = (t₁ + t₂ - 2) * (A₁ * |r₂|) := by ring
    _ ≤ (t₁ * (t₂ * t₂) - 1) * (2 - t₂) * (A₁ * |r₂|) := mul_le_mul_of_nonneg_right key (by positivity)
    _ = (t₁ * (t₂ * t₂) - 1) * A₁ * ((2 - t₂) * |r₂|) := by ring
    _ ≤ _ := mul_le_mul_of_nonneg_left hy' (mul_nonneg k2 hA1)

theorem Arith.abs_le {e : Expr F} {r A : ℝ} {k : ℕ} (h : R.Arith e r A k) : |r| ≤ A ∧ R.InRange A := by
  induction h with
  | num n r A _ h1 h2 => exact ⟨h1, h2⟩
  | neg a r A k _ i => rw [_root_.abs_neg]; exact i
  | add a b r₁ r₂ A₁ A₂ A _ _ _ _ h1 h2 i j => exact ⟨(abs_add_le _ _).trans (by linarith [i.1, j.1]), h2⟩
  | sub a b r₁ r₂ A₁ A₂ A _ _ _ _ h1 h2 i j => exact ⟨(abs_sub _ _).trans (by linarith [i.1, j.1]), h2⟩
  | mul a b r₁ r₂ A₁ A₂ A _ _ _ _ h1 h2 i j =>
    refine ⟨?_, h2⟩
    rw [abs_mul]
    exact (mul_le_mul i.1 j.1 (abs_nonneg _) ((abs_nonneg _).trans i.1)).trans h1
  | div a b r₁ r₂ A₁ A _ _ _ _ h0 h1 h2 i j =>
    refine ⟨?_, h2⟩
    rw [abs_div]
    exact (div_le_div_of_nonneg_right i.1 (abs_nonneg _)).trans h1

/-- A value within the bound does not overflow. -/
theorem in_big {r A w : ℝ} {k : ℕ} (hk : 27 * R.u * k ≤ 1) (hr : |r| ≤ A) (hA : R.InRange A)
    (h : |w - r| ≤ (R.grow k - 1) * A) : |w| ≤ R.big := by
  have hA0 : 0 ≤ A := (abs_nonneg r).trans hr
  have := grow_le' hk
  calc |w| = |(w - r) + r| := by ring_nf
    _ ≤ |w - r| + |r| := abs_add_le _ _
    _ ≤ (R.grow k - 1) * A + A := add_le_add h hr
    _ ≤ 2 * A := by nlinarith
    _ ≤ R.big := hA.1

theorem Arith.within {e : Expr F} {r A : ℝ} {k : ℕ} (env : Env) (h : R.Arith e r A k) (hk : 27 * R.u * k ≤ 1) :
    ∃ E, R.Within env e r E ∧ E ≤ (R.grow k - 1) * A := by
  have hu := R.u_nonneg
  have smaller : ∀ {i j : ℕ}, i ≤ j → 27 * R.u * j ≤ 1 → 27 * R.u * i ≤ 1 := by
    intro i j hij hj
    have : (i : ℝ) ≤ j := by exact_mod_cast hij
    nlinarith
  induction h with
  | num n r A h1 h2 h3 =>
    refine ⟨_, .num n r h1, ?_⟩
    have := widen_grow (R := R) (k := 0) (D := 0) h2 h3.2 (by simp [grow])
    exact this
  | neg a r A k h i =>
    obtain ⟨E, hw, hE⟩ := i (smaller (by omega) hk)
    refine ⟨_, .unary genOpNeg a r E (-r) ((R.grow k - 1) * A) hw rfl ?_, ?_⟩
    · intro x hx
      refine ⟨-x, rfl, ?_⟩
      rw [show -x - -r = -(x - r) by ring, _root_.abs_neg]; exact hx.trans hE
    · exact widen_grow (by rw [_root_.abs_neg]; exact h.abs_le.1) h.abs_le.2.2 le_rfl
  | add a b r₁ r₂ A₁ A₂ A k₁ k₂ ha hb h1 h2 i j =>
    obtain ⟨E₁, hw1, hE1⟩ := i (smaller (by omega) hk)
    obtain ⟨E₂, hw2, hE2⟩ := j (smaller (by omega) hk)
    have hA := (Arith.add a b r₁ r₂ A₁ A₂ A k₁ k₂ ha hb h1 h2).abs_le
    have m1 := grow_mono (R := R) (show k₁ ≤ k₁ + k₂ by omega)
    have m2 := grow_mono (R := R) (show k₂ ≤ k₁ + k₂ by omega)
    have a1 := (abs_nonneg _).trans ha.abs_le.1
    have a2 := (abs_nonneg _).trans hb.abs_le.1
    have box : ∀ x y, |x - r₁| ≤ E₁ → |y - r₂| ≤ E₂ → |x + y - (r₁ + r₂)| ≤ (R.grow (k₁ + k₂) - 1) * A := by
      intro x y hx hy
      have g := one_le_grow (R := R) (k₁ + k₂)
      calc |x + y - (r₁ + r₂)| = |(x - r₁) + (y - r₂)| := by ring_nf
        _ ≤ |x - r₁| + |y - r₂| := abs_add_le _ _
        _ ≤ (R.grow k₁ - 1) * A₁ + (R.grow k₂ - 1) * A₂ := add_le_add (hx.trans hE1) (hy.trans hE2)
        _ ≤ _ := by nlinarith
    refine ⟨_, .binary genOpAdd a b r₁ E₁ r₂ E₂ _ _ hw1 hw2 rfl (fun x y hx hy => ?_), widen_grow hA.1 hA.2.2 le_rfl⟩
    exact ⟨x + y, rfl, box x y hx hy, fun _ => in_big (smaller (by omega) hk) hA.1 hA.2 (box x y hx hy)⟩
  | sub a b r₁ r₂ A₁ A₂ A k₁ k₂ ha hb h1 h2 i j =>
    obtain ⟨E₁, hw1, hE1⟩ := i (smaller (by omega) hk)
    obtain ⟨E₂, hw2, hE2⟩ := j (smaller (by omega) hk)
    have hA := (Arith.sub a b r₁ r₂ A₁ A₂ A k₁ k₂ ha hb h1 h2).abs_le
    have m1 := grow_mono (R := R) (show k₁ ≤ k₁ + k₂ by omega)
    have m2 := grow_mono (R := R) (show k₂ ≤ k₁ + k₂ by omega)
    have a1 := (abs_nonneg _).trans ha.abs_le.1
    have a2 := (abs_nonneg _).trans hb.abs_le.1
    have box : ∀ x y, |x - r₁| ≤ E₁ → |y - r₂| ≤ E₂ → |x - y - (r₁ - r₂)| ≤ (R.grow (k₁ + k₂) - 1) * A := by
      intro x y hx hy
      have g := one_le_grow (R := R) (k₁ + k₂)
      calc |x - y - (r₁ - r₂)| = |(x - r₁) - (y - r₂)| := by ring_nf
        _ ≤ |x - r₁| + |y - r₂| := abs_sub _ _
        _ ≤ (R.grow k₁ - 1) * A₁ + (R.grow k₂ - 1) * A₂ := add_le_add (hx.trans hE1) (hy.trans hE2)
        _ ≤ _ := by nlinarith
    refine ⟨_, .binary genOpSub a b r₁ E₁ r₂ E₂ _ _ hw1 hw2 rfl (fun x y hx hy => ?_), widen_grow hA.1 hA.2.2 le_rfl⟩
    exact ⟨x - y, rfl, box x y hx hy, fun _ => in_big (smaller (by omega) hk) hA.1 hA.2 (box x y hx hy)⟩
  | mul a b r₁ r₂ A₁ A₂ A k₁ k₂ ha hb h1 h2 i j =>
    obtain ⟨E₁, hw1, hE1⟩ := i (smaller (by omega) hk)
    obtain ⟨E₂, hw2, hE2⟩ := j (smaller (by omega) hk)
    have hA := (Arith.mul a b r₁ r₂ A₁ A₂ A k₁ k₂ ha hb h1 h2).abs_le
    have box : ∀ x y, |x - r₁| ≤ E₁ → |y - r₂| ≤ E₂ → |x * y - (r₁ * r₂)| ≤ (R.grow (k₁ + k₂) - 1) * A := by
      intro x y hx hy
      have g := one_le_grow (R := R) (k₁ + k₂)
      refine (mul_box ha.abs_le.1 hb.abs_le.1 (one_le_grow k₁) (hx.trans hE1) (hy.trans hE2)).trans ?_
      rw [← grow_add]
      exact mul_le_mul_of_nonneg_left h1 (by linarith)
    refine ⟨_, .binary genOpMul a b r₁ E₁ r₂ E₂ _ _ hw1 hw2 rfl (fun x y hx hy => ?_), widen_grow hA.1 hA.2.2 le_rfl⟩
    exact ⟨x * y, rfl, box x y hx hy, fun _ => in_big (smaller (by omega) hk) hA.1 hA.2 (box x y hx hy)⟩
  | div a b r₁ r₂ A₁ A k₁ k₂ ha hb h0 h1 h2 i j =>
    obtain ⟨E₁, hw1, hE1⟩ := i (smaller (by omega) hk)
    obtain ⟨E₂, hw2, hE2⟩ := j (smaller (by omega) hk)
    have hA := (Arith.div a b r₁ r₂ A₁ A k₁ k₂ ha hb h0 h1 h2).abs_le
    have box : ∀ x y, |x - r₁| ≤ E₁ → |y - r₂| ≤ E₂ →
        y ≠ 0 ∧ |x / y - (r₁ / r₂)| ≤ (R.grow (k₁ + 2 * k₂) - 1) * A := by
      intro x y hx hy
      have g := one_le_grow (R := R) (k₁ + 2 * k₂)
      obtain ⟨b1, b2⟩ := div_box ha.abs_le.1 h0 (one_le_grow k₁) (one_le_grow k₂)
        (grow_le' (smaller (show k₂ ≤ k₁ + 2 * k₂ + 1 by omega) hk)) (hx.trans hE1) (hy.trans hE2)
      refine ⟨b1, b2.trans ?_⟩
      rw [← grow_add, ← grow_add, ← two_mul]
      exact mul_le_mul_of_nonneg_left h1 (by linarith)
    refine ⟨_, .binary genOpDiv a b r₁ E₁ r₂ E₂ _ _ hw1 hw2 ?_ (fun x y hx hy => ?_), widen_grow hA.1 hA.2.2 le_rfl⟩
    · simp [genOpDiv, opValue, h0]
    · obtain ⟨b1, b2⟩ := box x y hx hy
      exact ⟨x / y, by simp [genOpDiv, opValue, b1], b2, fun _ => in_big (smaller (by omega) hk) hA.1 hA.2 b2⟩

end Rounding
end SymRust
