import Verif.Spec.Rounding
import Verif.Proofs.AggSound
/-! Error bounds of rounded float arithmetic. -/

namespace SymRust

/-- The conversion of a fraction: five rounded operations. -/
theorem conv_error {u η s n d s' n' d' p z : ℝ} (hu : 0 ≤ u) (hu' : u ≤ 1 / 16) (hη : 0 ≤ η)
    (hs : |s| = 1) (hn : 0 ≤ n) (hd : 1 ≤ d) (h1 : |s' - s| ≤ u) (h2 : |n' - n| ≤ u * n) (h3 : |d' - d| ≤ u * d)
    (h4 : |p - s' * n'| ≤ u * |s' * n'| + η) (h5 : |z - p / d'| ≤ u * |p / d'| + η) :
    |z - s * n / d| ≤ 8 * u * |s * n / d| + 4 * η := by
  have hd0 : 0 < d := by linarith
  have hs' : |s'| ≤ 1 + u := by
    calc |s'| = |(s' - s) + s| := by ring_nf
      _ ≤ |s' - s| + |s| := abs_add_le _ _
      _ ≤ 1 + u := by linarith
  have hn' : |n'| ≤ (1 + u) * n := by
    calc |n'| = |(n' - n) + n| := by ring_nf
      _ ≤ |n' - n| + |n| := abs_add_le _ _
      _ ≤ (1 + u) * n := by rw [abs_of_nonneg hn]; linarith
  have hd' : 15 / 16 * d ≤ d' := by
    have := abs_le.1 h3
    nlinarith
  have hd0' : 0 < d' := by linarith
  have e1 : |s' * n'| ≤ (1 + u) * ((1 + u) * n) := by
    rw [abs_mul]; exact mul_le_mul hs' hn' (abs_nonneg _) (by linarith)
  have e2 : |s' * n' - s * n| ≤ (1 + u) * (u * n) + u * n := by
    calc |s' * n' - s * n| = |s' * (n' - n) + (s' - s) * n| := by ring_nf
      _ ≤ |s' * (n' - n)| + |(s' - s) * n| := abs_add_le _ _
      _ ≤ (1 + u) * (u * n) + u * n := by
        rw [abs_mul, abs_mul, abs_of_nonneg hn]
        exact add_le_add (mul_le_mul hs' h2 (abs_nonneg _) (by linarith)) (mul_le_mul_of_nonneg_right h1 hn)
  have hun : 0 ≤ u * n := mul_nonneg hu hn
  have huun : u * (u * n) ≤ 1 / 16 * (u * n) := mul_le_mul_of_nonneg_right hu' hun
  have huuun : u * (u * (u * n)) ≤ 1 / 16 * (1 / 16 * (u * n)) :=
    mul_le_mul hu' huun (by positivity) (by norm_num)
  have e3 : |p - s * n| ≤ 13 / 4 * (u * n) + η := by
    calc |p - s * n| = |(p - s' * n') + (s' * n' - s * n)| := by ring_nf
      _ ≤ |p - s' * n'| + |s' * n' - s * n| := abs_add_le _ _
      _ ≤ u * |s' * n'| + η + ((1 + u) * (u * n) + u * n) := add_le_add h4 e2
      _ ≤ u * ((1 + u) * ((1 + u) * n)) + η + ((1 + u) * (u * n) + u * n) := by
        have := mul_le_mul_of_nonneg_left e1 hu
        linarith
      _ ≤ 13 / 4 * (u * n) + η := by nlinarith
  -- the quotient
  have hq : |s * n / d| = n / d := by rw [abs_div, abs_mul, hs, one_mul, abs_of_nonneg hn, abs_of_pos hd0]
  rw [hq]
  have hnd : 0 ≤ n / d := div_nonneg hn hd0.le
  have e4 : |p / d' - s * n / d| ≤ 47 / 10 * (u * (n / d)) + 16 / 15 * η := by
    have : p / d' - s * n / d = ((p - s * n) * d + s * n * (d - d')) / (d * d') := by field_simp; ring
    rw [this, abs_div, abs_of_pos (mul_pos hd0 hd0'), div_le_iff₀ (mul_pos hd0 hd0')]
    have a1 : |(p - s * n) * d + s * n * (d - d')| ≤ (13 / 4 * (u * n) + η) * d + n * (u * d) := by
      refine (abs_add_le _ _).trans (add_le_add ?_ ?_)
      · rw [abs_mul, abs_of_pos hd0]; exact mul_le_mul_of_nonneg_right e3 hd0.le
      · rw [abs_mul, abs_mul, hs, one_mul, abs_of_nonneg hn, abs_sub_comm]
        exact mul_le_mul_of_nonneg_left h3 hn
    have a2 : (47 / 10 * (u * (n / d)) + 16 / 15 * η) * (d * d')
        = 47 / 10 * (u * n) * d' + 16 / 15 * η * d * d' := by field_simp
    rw [a2]
    have a3 : 47 / 10 * (u * n) * (15 / 16 * d) ≤ 47 / 10 * (u * n) * d' :=
      mul_le_mul_of_nonneg_left hd' (by positivity)
    have a4 : 16 / 15 * η * d * (15 / 16 * 1) ≤ 16 / 15 * η * d * d' :=
      mul_le_mul_of_nonneg_left (by linarith) (by positivity)
    have a5 : 0 ≤ u * n * d := by positivity
    nlinarith
  have e5 : |p / d'| ≤ n / d + (47 / 10 * (u * (n / d)) + 16 / 15 * η) := by
    calc |p / d'| = |(p / d' - s * n / d) + s * n / d| := by ring_nf
      _ ≤ |p / d' - s * n / d| + |s * n / d| := abs_add_le _ _
      _ ≤ _ := by rw [hq]; linarith
  have huq : 0 ≤ u * (n / d) := mul_nonneg hu hnd
  have huη : u * η ≤ 1 / 16 * η := mul_le_mul_of_nonneg_right hu' hη
  have huuq : u * (u * (n / d)) ≤ 1 / 16 * (u * (n / d)) := mul_le_mul_of_nonneg_right hu' huq
  have e6 : u * |p / d'| ≤ u * (n / d + (47 / 10 * (u * (n / d)) + 16 / 15 * η)) := mul_le_mul_of_nonneg_left e5 hu
  calc |z - s * n / d| = |(z - p / d') + (p / d' - s * n / d)| := by ring_nf
    _ ≤ |z - p / d'| + |p / d' - s * n / d| := abs_add_le _ _
    _ ≤ (u * |p / d'| + η) + (47 / 10 * (u * (n / d)) + 16 / 15 * η) := add_le_add h5 e4
    _ ≤ 8 * u * (n / d) + 4 * η := by nlinarith

/-- The sizes of the intermediate results of the conversion. -/
theorem conv_bounds {u η s n d s' n' d' p : ℝ} (hu : 0 ≤ u) (hu' : u ≤ 1 / 16) (hη' : η ≤ 1 / 16)
    (hs : |s| = 1) (hn : 0 ≤ n) (hn2 : n ≤ 2 ^ 64) (hd : 1 ≤ d) (h1 : |s' - s| ≤ u) (h2 : |n' - n| ≤ u * n)
    (h3 : |d' - d| ≤ u * d) :
    |s' * n'| ≤ 2 ^ 70 ∧ d' ≠ 0 ∧ (|p - s' * n'| ≤ u * |s' * n'| + η → |p / d'| ≤ 2 ^ 70) := by
  have hs' : |s'| ≤ 2 := by
    calc |s'| = |(s' - s) + s| := by ring_nf
      _ ≤ |s' - s| + |s| := abs_add_le _ _
      _ ≤ 2 := by linarith
  have hn' : |n'| ≤ 2 ^ 65 := by
    calc |n'| = |(n' - n) + n| := by ring_nf
      _ ≤ |n' - n| + |n| := abs_add_le _ _
      _ ≤ 2 ^ 65 := by rw [abs_of_nonneg hn]; nlinarith
  have hd' : 15 / 16 ≤ d' := by
    have := abs_le.1 h3
    nlinarith
  have e1 : |s' * n'| ≤ 2 ^ 66 := by
    rw [abs_mul]
    calc |s'| * |n'| ≤ 2 * 2 ^ 65 := mul_le_mul hs' hn' (abs_nonneg _) (by norm_num)
      _ = 2 ^ 66 := by norm_num
  refine ⟨e1.trans (by norm_num), by linarith, fun h4 => ?_⟩
  have e2 : |p| ≤ 2 ^ 68 := by
    calc |p| = |(p - s' * n') + s' * n'| := by ring_nf
      _ ≤ |p - s' * n'| + |s' * n'| := abs_add_le _ _
      _ ≤ 2 ^ 68 := by
        have : u * |s' * n'| ≤ 1 / 16 * |s' * n'| := mul_le_mul_of_nonneg_right hu' (abs_nonneg _)
        linarith
  have hd0 : 0 < d' := by linarith
  rw [abs_div, abs_of_pos hd0, div_le_iff₀ hd0]
  linarith

variable {F : Type} [FloatOps F] {R : Rounding F}
open Expr

namespace Rounding

theorem widen_mono {r D D' : ℝ} (h : D ≤ D') : R.widen r D ≤ R.widen r D' := by
  have := R.u_nonneg
  unfold widen
  nlinarith

theorem le_widen {r D : ℝ} (h : 0 ≤ D) : D ≤ R.widen r D := by
  have := R.u_nonneg
  have := R.η_nonneg
  unfold widen
  have := abs_nonneg r
  have : 0 ≤ R.u * (|r| + D) := by positivity
  linarith

/-- Rounding a value within `D` of `r`. -/
theorem widen_near {r D v f : ℝ} (h : |v - r| ≤ D) (hf : |f - v| ≤ 8 * R.u * |v| + 4 * R.η) : |f - r| ≤ R.widen r D := by
  have h1 : |v| ≤ |r| + D := by
    calc |v| = |(v - r) + r| := by ring_nf
      _ ≤ |v - r| + |r| := abs_add_le _ _
      _ ≤ _ := by linarith
  have h2 : 8 * R.u * |v| ≤ 8 * R.u * (|r| + D) :=
    mul_le_mul_of_nonneg_left h1 (by have := R.u_nonneg; linarith)
  calc |f - r| = |(f - v) + (v - r)| := by ring_nf
    _ ≤ |f - v| + |v - r| := abs_add_le _ _
    _ ≤ _ := by unfold widen; linarith

theorem widen_near_u {r D v f : ℝ} (h : |v - r| ≤ D) (hf : |f - v| ≤ R.u * |v| + R.η) : |f - r| ≤ R.widen r D := by
  refine widen_near h (hf.trans ?_)
  have := mul_nonneg R.u_nonneg (abs_nonneg v)
  have := R.η_nonneg
  linarith

/-- The float of a fraction. -/
theorem val_rational (r : RationalNum) (hs : r.sign = 1 ∨ r.sign = -1) (hd : r.denominator ≠ 0) :
    ∃ f, R.val r.toF64 = some f ∧ |f - (r.value : ℝ)| ≤ 8 * R.u * |(r.value : ℝ)| + 4 * R.η := by
  obtain ⟨s', h1, h1'⟩ := R.ofI64 r.sign
  obtain ⟨n', h2, h2'⟩ := R.ofU64 r.nominator
  obtain ⟨d', h3, h3'⟩ := R.ofU64 r.denominator
  have hsv : |(r.sign.toInt : ℝ)| = 1 := by
    rcases hs with h | h <;> rw [h]
    · rw [show (1 : Int64).toInt = 1 from by decide]; simp
    · rw [show (-1 : Int64).toInt = -1 from by decide]; simp
  rw [hsv, mul_one] at h1'
  have hd1 : (1 : ℝ) ≤ r.denominator.toNat := by
    have : r.denominator.toNat ≠ 0 := fun h => hd (UInt64.toNat.inj (by simpa using h))
    exact_mod_cast Nat.one_le_iff_ne_zero.2 this
  have hn2 : (r.nominator.toNat : ℝ) ≤ 2 ^ 64 := by
    have := r.nominator.toNat_lt
    exact_mod_cast this.le
  have hn : (0 : ℝ) ≤ r.nominator.toNat := by positivity
  obtain ⟨b1, b2, b3⟩ := conv_bounds (p := 0) R.u_nonneg R.u_small R.η_small hsv hn hn2 hd1 h1' h2' h3'
  obtain ⟨p, h4, h4'⟩ := R.mul _ _ _ _ h1 h2 (b1.trans R.big_large)
  obtain ⟨-, -, b3⟩ := conv_bounds (p := p) R.u_nonneg R.u_small R.η_small hsv hn hn2 hd1 h1' h2' h3'
  obtain ⟨z, h5, h5'⟩ := R.div _ _ _ _ h4 h3 b2 ((b3 h4').trans R.big_large)
  refine ⟨z, h5, ?_⟩
  have := conv_error R.u_nonneg R.u_small R.η_nonneg hsv hn hd1 h1' h2' h3' h4' h5'
  rw [RationalNum.value]
  push_cast
  exact this

theorem real?_of_float {n : SmartNum F} (hn : n.Valid) {f : F} (h : n.value = .real f) {v : ℝ} (hv : R.real? n = some v) :
    ∃ z, R.val f = some z ∧ |z - v| ≤ R.u * |v| := by
  unfold real? at hv
  cases ht : n.tag with
  | pi =>
    have := hn.pi_val (by simp [SmartNum.isPi, ht])
    rw [h] at this; cases this
    rw [ht] at hv; cases hv
    rw [abs_of_pos Real.pi_pos]
    exact R.pi
  | e =>
    have := hn.e_val (by simp [SmartNum.isE, ht])
    rw [h] at this; cases this
    rw [ht] at hv; cases hv
    rw [abs_of_pos (Real.exp_pos 1)]
    exact R.e
  | zero =>
    rw [ht, h] at hv
    exact ⟨v, hv, by simpa using mul_nonneg R.u_nonneg (abs_nonneg v)⟩
  | one =>
    rw [ht, h] at hv
    exact ⟨v, hv, by simpa using mul_nonneg R.u_nonneg (abs_nonneg v)⟩
  | nothing =>
    rw [ht, h] at hv
    exact ⟨v, hv, by simpa using mul_nonneg R.u_nonneg (abs_nonneg v)⟩

theorem real?_of_exact {n : SmartNum F} (hn : n.Valid) {q : ℚ} (h : n.exact? = some q) : R.real? n = some (q : ℝ) := by
  have hpi : n.tag ≠ .pi := by
    intro ht
    have := hn.pi_val (by simp [SmartNum.isPi, ht])
    simp [SmartNum.exact?, this, SmartNumVal.exact?] at h
  have he : n.tag ≠ .e := by
    intro ht
    have := hn.e_val (by simp [SmartNum.isE, ht])
    simp [SmartNum.exact?, this, SmartNumVal.exact?] at h
  have hf : ∀ f, n.value ≠ .real f := by
    intro f hf
    simp [SmartNum.exact?, hf, SmartNumVal.exact?] at h
  unfold real?
  split
  · exact absurd ‹n.tag = .pi› hpi
  · exact absurd ‹n.tag = .e› he
  · exact absurd ‹n.value = .real _› (hf _)
  · rw [h]; rfl

theorem exact_of_real? {n : SmartNum F} (hn : n.Valid) (hf : ¬ n.value.isF) {v : ℝ} (hv : R.real? n = some v) :
    ∃ q : ℚ, n.exact? = some q ∧ v = q := by
  have hF : ∀ f, n.value ≠ .real f := fun f h => hf (by simp [h, SmartNumVal.isF])
  have hpi : n.tag ≠ .pi := fun ht => hF _ (hn.pi_val (by simp [SmartNum.isPi, ht]))
  have he : n.tag ≠ .e := fun ht => hF _ (hn.e_val (by simp [SmartNum.isE, ht]))
  unfold real? at hv
  split at hv
  · exact absurd ‹n.tag = .pi› hpi
  · exact absurd ‹n.tag = .e› he
  · exact absurd ‹n.value = .real _› (hF _)
  · obtain ⟨q, hq, rfl⟩ := Option.map_eq_some_iff.1 hv
    exact ⟨q, hq, rfl⟩

/-- The float of a number is near its value. -/
theorem val_toF64 {n : SmartNum F} (hn : n.Valid) {v : ℝ} (hv : R.real? n = some v) :
    ∃ f, R.val n.toF64 = some f ∧ |f - v| ≤ 8 * R.u * |v| + 4 * R.η := by
  have hη := R.η_nonneg
  have hu := mul_nonneg R.u_nonneg (abs_nonneg v)
  cases hval : n.value with
  | real f =>
    obtain ⟨z, h1, h2⟩ := real?_of_float hn hval hv
    refine ⟨z, ?_, by linarith⟩
    rw [SmartNum.toF64, hval]; exact h1
  | integer i =>
    obtain ⟨q, hq, rfl⟩ := exact_of_real? hn (by simp [hval, SmartNumVal.isF]) hv
    rw [SmartNum.exact?, hval, SmartNumVal.exact?] at hq
    cases hq
    obtain ⟨z, h1, h2⟩ := R.ofI64 i
    refine ⟨z, ?_, ?_⟩
    · rw [SmartNum.toF64, hval]; exact h1
    · push_cast at hu ⊢; linarith
  | rational r =>
    obtain ⟨q, hq, rfl⟩ := exact_of_real? hn (by simp [hval, SmartNumVal.isF]) hv
    rw [SmartNum.exact?, hval, SmartNumVal.exact?] at hq
    split at hq
    · cases hq
    rename_i hd
    cases hq
    have hs : r.sign = 1 ∨ r.sign = -1 := by
      rcases hn.sign_val r hval with h | h
      · exact h
      · exact absurd h.2.2 hd
    obtain ⟨z, h1, h2⟩ := R.val_rational r hs hd
    refine ⟨z, ?_, h2⟩
    rw [SmartNum.toF64, hval]; exact h1


/-! ### number operations -/

/-- The number `n`, and the float it is converted to, are within `E` of `r`. -/
def NearNum (R : Rounding F) (n : SmartNum F) (r E : ℝ) : Prop :=
  ∃ v, R.real? n = some v ∧ |v - r| ≤ E ∧ ∃ f, R.val n.toF64 = some f ∧ |f - r| ≤ E

variable {x y z : SmartNum F} {r r₁ r₂ D E E₁ E₂ : ℝ}

theorem NearNum.mono (h : R.NearNum x r E) (hE : E ≤ D) : R.NearNum x r D := by
  obtain ⟨v, h1, h2, f, h3, h4⟩ := h
  exact ⟨v, h1, h2.trans hE, f, h3, h4.trans hE⟩

/-- A number within `D` before conversion. -/
theorem nearNum_of_real? (hx : x.Valid) {v : ℝ} (h : R.real? x = some v) (hv : |v - r| ≤ D) :
    R.NearNum x r (R.widen r D) := by
  obtain ⟨f, h1, h2⟩ := val_toF64 hx h
  exact ⟨v, h, hv.trans (le_widen ((abs_nonneg _).trans hv)), f, h1, widen_near hv h2⟩

theorem nearNum_of_exact (hx : x.Valid) {q : ℚ} (h : x.exact? = some q) (hv : |(q : ℝ) - r| ≤ D) :
    R.NearNum x r (R.widen r D) := nearNum_of_real? hx (real?_of_exact hx h) hv

theorem nearNum_of_float {f : F} {g : ℝ} (h : R.val f = some g) (hv : |g - r| ≤ E) :
    R.NearNum (SmartNum.wrapVal (.real f)) r E :=
  ⟨g, by simpa [real?, SmartNum.wrapVal, SmartNumVal.isZero, SmartNumVal.isOne] using h, hv, g,
    by simpa [SmartNum.toF64, SmartNumVal.toF64, SmartNum.wrapVal, SmartNumVal.isZero, SmartNumVal.isOne] using h, hv⟩

/-- A number that is known to be exactly `c`. -/
theorem NearNum.exact (hx : x.Valid) (h : R.NearNum x r E) {q : ℚ} (hq : x.exact? = some q) : |(q : ℝ) - r| ≤ E := by
  obtain ⟨v, h1, h2, -⟩ := h
  rw [real?_of_exact hx hq] at h1
  cases h1
  exact h2

/-- Either an exact number or a float with the bound. -/
theorem NearNum.cases (hx : x.Valid) (h : R.NearNum x r E) (hf : ¬ x.value.isF) :
    ∃ q : ℚ, x.exact? = some q ∧ |(q : ℝ) - r| ≤ E := by
  obtain ⟨v, h1, h2, -⟩ := h
  obtain ⟨q, hq, rfl⟩ := exact_of_real? hx hf h1
  exact ⟨q, hq, h2⟩

theorem add_float {m : Mode} {a b : SmartNumVal F} (h : a.isF ∨ b.isF) :
    a.add m b = .ok (.real (FloatOps.add a.toF64 b.toF64)) := by
  cases a <;> cases b <;> first | rfl | simp [SmartNumVal.isF] at h
theorem sub_float {m : Mode} {a b : SmartNumVal F} (h : a.isF ∨ b.isF) :
    a.sub m b = .ok (.real (FloatOps.sub a.toF64 b.toF64)) := by
  cases a <;> cases b <;> first | rfl | simp [SmartNumVal.isF] at h
theorem mul_float {m : Mode} {a b : SmartNumVal F} (h : a.isF ∨ b.isF) (hz : (a.isZero || b.isZero) = false) :
    a.mul m b = .ok (.real (FloatOps.mul a.toF64 b.toF64)) := by
  cases a <;> cases b <;> first | (simp [SmartNumVal.isF] at h; done) | (unfold SmartNumVal.mul; rw [if_neg (by simpa using hz)]; rfl)
theorem div_float {m : Mode} {a b : SmartNumVal F} (h : a.isF ∨ b.isF) (hz : a.isZero = false) :
    a.div m b = .ok (.real (FloatOps.div a.toF64 b.toF64)) := by
  cases a <;> cases b <;> first | (simp [SmartNumVal.isF] at h; done) | (unfold SmartNumVal.div; rw [if_neg (by simpa using hz)]; rfl)

/-- A number whose value and float are both within `D`. -/
theorem NearNum.image (h : R.NearNum x r₁ E₁) (hD : ∀ v, |v - r₁| ≤ E₁ → |v - r| ≤ D) : R.NearNum x r D := by
  obtain ⟨v, h1, h2, f, h3, h4⟩ := h
  exact ⟨v, h1, hD _ h2, f, h3, hD _ h4⟩

theorem neg_near (hx : x.Valid) (hz : z.Valid) (h1 : R.NearNum x r₁ E₁)
    (hb : ∀ a, |a - r₁| ≤ E₁ → |-a - r| ≤ D) (h : x.neg .strict = .ok z) : R.NearNum z r (R.widen r D) := by
  by_cases hf : x.value.isF
  · obtain ⟨v, -, -, f, h3, h4⟩ := h1
    cases hv : x.value with
    | real g =>
      unfold SmartNum.neg at h
      rw [hv] at h
      cases h
      rw [SmartNum.toF64, hv] at h3
      have := hb _ h4
      exact (nearNum_of_float (R.neg _ _ h3) this).mono (le_widen ((abs_nonneg _).trans this))
    | integer i => simp [hv, SmartNumVal.isF] at hf
    | rational i => simp [hv, SmartNumVal.isF] at hf
  · obtain ⟨q, hq, hq'⟩ := h1.cases hx hf
    exact nearNum_of_exact hz (SmartNum.neg_exact (by simp) hx hq h) (by push_cast; exact hb _ hq')

theorem add_near (hx : x.Valid) (hy : y.Valid) (hz : z.Valid) (h1 : R.NearNum x r₁ E₁) (h2 : R.NearNum y r₂ E₂)
    (hb : ∀ a b, |a - r₁| ≤ E₁ → |b - r₂| ≤ E₂ → |a + b - r| ≤ D ∧ |a + b| ≤ R.big) (h : x.add .strict y = .ok z) :
    R.NearNum z r (R.widen r D) := by
  have hD : D ≤ R.widen r D := by
    obtain ⟨v, -, hv, -⟩ := h1
    obtain ⟨w, -, hw, -⟩ := h2
    exact le_widen ((abs_nonneg _).trans (hb _ _ hv hw).1)
  by_cases hf : x.value.isF ∨ y.value.isF
  · unfold SmartNum.add at h
    split at h
    · rename_i h0
      cases h
      have := h1.exact hx (hx.zero_iff.1 h0)
      exact (h2.image fun v hv => by have := (hb _ _ this hv).1; simpa using this).mono hD
    split at h
    · rename_i h0
      cases h
      have := h2.exact hy (hy.zero_iff.1 h0)
      exact (h1.image fun v hv => by have := (hb _ _ hv this).1; simpa using this).mono hD
    rw [add_float hf] at h
    cases h
    obtain ⟨-, -, -, f, hf, hf'⟩ := h1
    obtain ⟨-, -, -, g, hg, hg'⟩ := h2
    obtain ⟨b1, b2⟩ := hb _ _ hf' hg'
    obtain ⟨w, hw, hw'⟩ := R.add _ _ _ _ hf hg b2
    have hη := R.η_nonneg
    exact nearNum_of_float hw (widen_near_u b1 (by linarith))
  · rw [not_or] at hf
    obtain ⟨p, hp, hp'⟩ := h1.cases hx hf.1
    obtain ⟨q, hq, hq'⟩ := h2.cases hy hf.2
    exact nearNum_of_exact hz (SmartNum.add_exact hx hy hp hq h) (by push_cast; exact (hb _ _ hp' hq').1)

theorem sub_near (hx : x.Valid) (hy : y.Valid) (hz : z.Valid) (h1 : R.NearNum x r₁ E₁) (h2 : R.NearNum y r₂ E₂)
    (hb : ∀ a b, |a - r₁| ≤ E₁ → |b - r₂| ≤ E₂ → |a - b - r| ≤ D ∧ |a - b| ≤ R.big) (h : x.sub .strict y = .ok z) :
    R.NearNum z r (R.widen r D) := by
  have hD : D ≤ R.widen r D := by
    obtain ⟨v, -, hv, -⟩ := h1
    obtain ⟨w, -, hw, -⟩ := h2
    exact le_widen ((abs_nonneg _).trans (hb _ _ hv hw).1)
  by_cases hf : x.value.isF ∨ y.value.isF
  · unfold SmartNum.sub at h
    split at h
    · rename_i h0
      have := h1.exact hx (hx.zero_iff.1 h0)
      exact neg_near hy hz h2 (fun v hv => by have := (hb _ _ this hv).1; simpa using this) h
    split at h
    · rename_i h0
      cases h
      have := h2.exact hy (hy.zero_iff.1 h0)
      exact (h1.image fun v hv => by have := (hb _ _ hv this).1; simpa using this).mono hD
    rw [sub_float hf] at h
    cases h
    obtain ⟨-, -, -, f, hf, hf'⟩ := h1
    obtain ⟨-, -, -, g, hg, hg'⟩ := h2
    obtain ⟨b1, b2⟩ := hb _ _ hf' hg'
    obtain ⟨w, hw, hw'⟩ := R.sub _ _ _ _ hf hg b2
    have hη := R.η_nonneg
    exact nearNum_of_float hw (widen_near_u b1 (by linarith))
  · rw [not_or] at hf
    obtain ⟨p, hp, hp'⟩ := h1.cases hx hf.1
    obtain ⟨q, hq, hq'⟩ := h2.cases hy hf.2
    exact nearNum_of_exact hz (SmartNum.sub_exact hx hy hp hq h) (by push_cast; exact (hb _ _ hp' hq').1)

theorem mul_near (hx : x.Valid) (hy : y.Valid) (hz : z.Valid) (h1 : R.NearNum x r₁ E₁) (h2 : R.NearNum y r₂ E₂)
    (hb : ∀ a b, |a - r₁| ≤ E₁ → |b - r₂| ≤ E₂ → |a * b - r| ≤ D ∧ |a * b| ≤ R.big) (h : x.mul .strict y = .ok z) :
    R.NearNum z r (R.widen r D) := by
  have hD : D ≤ R.widen r D := by
    obtain ⟨v, -, hv, -⟩ := h1
    obtain ⟨w, -, hw, -⟩ := h2
    exact le_widen ((abs_nonneg _).trans (hb _ _ hv hw).1)
  by_cases hf : x.value.isF ∨ y.value.isF
  · unfold SmartNum.mul at h
    split at h
    · rename_i h0
      cases h
      have := h1.exact hx (hx.one_iff.1 h0)
      exact (h2.image fun v hv => by have := (hb _ _ this hv).1; simpa using this).mono hD
    split at h
    · rename_i h0
      cases h
      have := h2.exact hy (hy.one_iff.1 h0)
      exact (h1.image fun v hv => by have := (hb _ _ hv this).1; simpa using this).mono hD
    by_cases h0 : (x.value.isZero || y.value.isZero) = true
    · have : x.value.mul .strict y.value = .ok (.integer 0) := by unfold SmartNumVal.mul; rw [if_pos h0]
      rw [this] at h
      have hzz : z.exact? = some 0 := by cases h; rfl
      refine nearNum_of_exact hz hzz ?_
      rw [Bool.or_eq_true] at h0
      rcases h0 with h0 | h0
      · have h3 := h1.exact hx ((SmartNumVal.isZero_iff hx.ok).1 h0)
        obtain ⟨w, -, hw, -⟩ := h2
        have := (hb _ _ h3 hw).1
        simpa using this
      · have h3 := h2.exact hy ((SmartNumVal.isZero_iff hy.ok).1 h0)
        obtain ⟨w, -, hw, -⟩ := h1
        have := (hb _ _ hw h3).1
        simpa using this
    rw [mul_float hf (by simpa using h0)] at h
    cases h
    obtain ⟨-, -, -, f, hf, hf'⟩ := h1
    obtain ⟨-, -, -, g, hg, hg'⟩ := h2
    obtain ⟨b1, b2⟩ := hb _ _ hf' hg'
    obtain ⟨w, hw, hw'⟩ := R.mul _ _ _ _ hf hg b2
    exact nearNum_of_float hw (widen_near_u b1 hw')
  · rw [not_or] at hf
    obtain ⟨p, hp, hp'⟩ := h1.cases hx hf.1
    obtain ⟨q, hq, hq'⟩ := h2.cases hy hf.2
    exact nearNum_of_exact hz (SmartNum.mul_exact (by simp) hx hy hp hq h) (by push_cast; exact (hb _ _ hp' hq').1)

theorem div_near (hx : x.Valid) (hy : y.Valid) (hz : z.Valid) (h1 : R.NearNum x r₁ E₁) (h2 : R.NearNum y r₂ E₂)
    (hb : ∀ a b, |a - r₁| ≤ E₁ → |b - r₂| ≤ E₂ → b ≠ 0 ∧ |a / b - r| ≤ D ∧ |a / b| ≤ R.big)
    (h : x.div .strict y = .ok z) : R.NearNum z r (R.widen r D) := by
  by_cases hf : x.value.isF ∨ y.value.isF
  · unfold SmartNum.div at h
    by_cases h0 : x.value.isZero = true
    · have : x.value.div .strict y.value = .ok (.integer 0) := by unfold SmartNumVal.div; rw [if_pos h0]
      rw [this] at h
      have hzz : z.exact? = some 0 := by cases h; rfl
      refine nearNum_of_exact hz hzz ?_
      have h3 := h1.exact hx ((SmartNumVal.isZero_iff hx.ok).1 h0)
      obtain ⟨w, -, hw, -⟩ := h2
      have := (hb _ _ h3 hw).2.1
      simpa using this
    rw [div_float hf (by simpa using h0)] at h
    cases h
    obtain ⟨-, -, -, f, hf, hf'⟩ := h1
    obtain ⟨-, -, -, g, hg, hg'⟩ := h2
    obtain ⟨b0, b1, b2⟩ := hb _ _ hf' hg'
    obtain ⟨w, hw, hw'⟩ := R.div _ _ _ _ hf hg b0 b2
    exact nearNum_of_float hw (widen_near_u b1 hw')
  · rw [not_or] at hf
    obtain ⟨p, hp, hp'⟩ := h1.cases hx hf.1
    obtain ⟨q, hq, hq'⟩ := h2.cases hy hf.2
    obtain ⟨b0, b1, -⟩ := hb _ _ hp' hq'
    exact nearNum_of_exact hz (SmartNum.div_exact (by simp) hx hy hp hq (by exact_mod_cast b0) h) (by push_cast; exact b1)

end Rounding
end SymRust
