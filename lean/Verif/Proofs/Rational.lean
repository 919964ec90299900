import Verif.Spec.Rational
import Verif.Proofs.Prim
import Mathlib.Tactic.FieldSimp
import Mathlib.Tactic.Ring
import Mathlib.Tactic.Linarith
import Mathlib.Tactic.Positivity
import Mathlib.Data.Nat.Cast.Field
import Mathlib.Data.Nat.GCD.Basic
/-! Helper lemmas about rationals. -/

namespace SymRust

theorem Res.bind_eq_ok {α β : Type} {x : Res α} {f : α → Res β} {b : β} :
    (x >>= f) = .ok b ↔ ∃ a, x = .ok a ∧ f a = .ok b := by
  cases x with
  | panic => simp
  | ok a => simp

theorem Out.bind_eq_ok {ε α β : Type} {x : Out ε α} {f : α → Out ε β} {b : β} :
    (x >>= f) = .ok b ↔ ∃ a, x = .ok a ∧ f a = .ok b := by
  cases x <;> simp

theorem Res.lift_eq_ok {ε α : Type} {x : Res α} {a : α} : x.lift (ε := ε) = .ok a ↔ x = .ok a := by
  cases x <;> simp

theorem gcd_toNat (a b : UInt64) : (gcd a b).toNat = Nat.gcd a.toNat b.toNat := by
  fun_induction gcd a b with
  | case1 a => simp
  | case2 a b h ih =>
    rw [ih, UInt64.toNat_mod, Nat.gcd_comm a.toNat, Nat.gcd_rec b.toNat a.toNat,
      Nat.gcd_comm]

namespace RationalNum

/-- the divisor used by `reduce` -/
def red (x : RationalNum) : ℕ :=
  if Nat.gcd x.nominator.toNat x.denominator.toNat = 0 then 1
  else Nat.gcd x.nominator.toNat x.denominator.toNat

theorem red_pos (x : RationalNum) : 0 < x.red := by
  unfold red; split <;> omega

@[simp] theorem reduce_sign (x : RationalNum) : x.reduce.sign = x.sign := rfl

theorem red_toNat (x : RationalNum) :
    (if gcd x.nominator x.denominator = 0 then 1 else gcd x.nominator x.denominator).toNat
      = x.red := by
  unfold red
  rw [← gcd_toNat]
  split
  · rename_i h; rw [u64_eq_zero_iff] at h; simp [h]
  · rename_i h; rw [u64_eq_zero_iff] at h; simp [h]

theorem reduce_nominator (x : RationalNum) :
    x.reduce.nominator.toNat = x.nominator.toNat / x.red := by
  simp only [reduce, UInt64.toNat_div, red_toNat]

theorem reduce_denominator (x : RationalNum) :
    x.reduce.denominator.toNat = x.denominator.toNat / x.red := by
  simp only [reduce, UInt64.toNat_div, red_toNat]

theorem red_dvd_nominator (x : RationalNum) : x.red ∣ x.nominator.toNat := by
  unfold red; split
  · exact one_dvd _
  · exact Nat.gcd_dvd_left _ _

theorem red_dvd_denominator (x : RationalNum) : x.red ∣ x.denominator.toNat := by
  unfold red; split
  · exact one_dvd _
  · exact Nat.gcd_dvd_right _ _

theorem red_mul_nominator (x : RationalNum) :
    x.reduce.nominator.toNat * x.red = x.nominator.toNat := by
  rw [reduce_nominator]; exact Nat.div_mul_cancel x.red_dvd_nominator

theorem red_mul_denominator (x : RationalNum) :
    x.reduce.denominator.toNat * x.red = x.denominator.toNat := by
  rw [reduce_denominator]; exact Nat.div_mul_cancel x.red_dvd_denominator

theorem reduce_value (x : RationalNum) : x.reduce.value = x.value := by
  unfold value
  rw [← red_mul_nominator x, ← red_mul_denominator x]
  have h : (x.red : ℚ) ≠ 0 := by have := x.red_pos; positivity
  push_cast
  rw [reduce_sign, ← mul_assoc, mul_div_mul_right _ _ h]

theorem reduce_lowest (x : RationalNum) (h : x.nominator ≠ 0 ∨ x.denominator ≠ 0) :
    x.reduce.LowestTerms := by
  unfold LowestTerms
  rw [reduce_nominator, reduce_denominator]
  have hg : Nat.gcd x.nominator.toNat x.denominator.toNat ≠ 0 := by
    rw [Ne, u64_eq_zero_iff, Ne, u64_eq_zero_iff] at h
    intro h0
    rw [Nat.gcd_eq_zero_iff] at h0; omega
  have : x.red = Nat.gcd x.nominator.toNat x.denominator.toNat := by
    unfold red; rw [if_neg hg]
  rw [this]
  exact Nat.coprime_div_gcd_div_gcd (Nat.pos_of_ne_zero hg)

theorem reduce_nominator_eq_zero (x : RationalNum) :
    x.reduce.nominator = 0 ↔ x.nominator = 0 := by
  rw [u64_eq_zero_iff, u64_eq_zero_iff]
  have h1 := red_mul_nominator x
  have h2 := x.red_pos
  constructor
  · intro h; rw [h, Nat.zero_mul] at h1; exact h1.symm
  · intro h
    rw [h] at h1
    rcases Nat.mul_eq_zero.mp h1 with h | h <;> omega

theorem reduce_denominator_eq_zero (x : RationalNum) :
    x.reduce.denominator = 0 ↔ x.denominator = 0 := by
  rw [u64_eq_zero_iff, u64_eq_zero_iff]
  have h1 := red_mul_denominator x
  have h2 := x.red_pos
  constructor
  · intro h; rw [h, Nat.zero_mul] at h1; exact h1.symm
  · intro h
    rw [h] at h1
    rcases Nat.mul_eq_zero.mp h1 with h | h <;> omega

theorem reduce_of_lowest (x : RationalNum) (h : x.LowestTerms) : x.reduce = x := by
  have hr : x.red = 1 := by
    unfold red; unfold LowestTerms Nat.Coprime at h; rw [h]; rfl
  have h1 := reduce_nominator x
  have h2 := reduce_denominator x
  rw [hr, Nat.div_one] at h1 h2
  have h1' := UInt64.toNat_inj.mp h1
  have h2' := UInt64.toNat_inj.mp h2
  cases x
  simp only [reduce] at *
  simp [h1', h2']

theorem coprime_cross {a b c d : ℕ} (h1 : Nat.Coprime a b) (h2 : Nat.Coprime c d)
    (h : a * d = c * b) : a = c ∧ b = d := by
  have hac : a ∣ c := h1.dvd_of_dvd_mul_right ⟨d, h.symm⟩
  have hca : c ∣ a := h2.dvd_of_dvd_mul_right ⟨b, h⟩
  have hbd : b ∣ d := h1.symm.dvd_of_dvd_mul_left (Dvd.intro_left c h.symm)
  have hdb : d ∣ b := h2.symm.dvd_of_dvd_mul_left (Dvd.intro_left a h)
  exact ⟨Nat.dvd_antisymm hac hca, Nat.dvd_antisymm hbd hdb⟩

theorem ext_toNat {x y : RationalNum} (h1 : x.sign = y.sign)
    (h2 : x.nominator.toNat = y.nominator.toNat)
    (h3 : x.denominator.toNat = y.denominator.toNat) : x = y := by
  cases x; cases y
  simp_all [UInt64.toNat_inj]

theorem den_cast_ne {x : RationalNum} (h : x.denominator ≠ 0) :
    (x.denominator.toNat : ℚ) ≠ 0 := by
  rw [Ne, u64_eq_zero_iff] at h; exact_mod_cast h

theorem value_eq_zero {x : RationalNum} (h : x.Valid) : x.value = 0 ↔ x.nominator = 0 := by
  unfold value
  have hd := den_cast_ne h.2
  rw [div_eq_zero_iff, mul_eq_zero, u64_eq_zero_iff]
  have hs : (x.sign.toInt : ℚ) ≠ 0 := by
    rcases h.1 with h | h <;> rw [h]
    · simp
    · have : (-1 : Int64).toInt = -1 := rfl
      rw [this]; norm_num
  simp [hd, hs]

theorem Valid.sign_toInt {x : RationalNum} (h : x.Valid) : x.sign.toInt = 1 ∨ x.sign.toInt = -1 := by
  rcases h.1 with h | h <;> rw [h]
  · exact .inl rfl
  · exact .inr rfl

theorem Valid.reduce {x : RationalNum} (h : x.Valid) : x.reduce.Valid :=
  ⟨h.1, fun h0 => h.2 ((reduce_denominator_eq_zero x).mp h0)⟩

theorem reduce_eq_of_value_eq {x y : RationalNum} (hx : x.Valid) (hy : y.Valid)
    (hn : x.nominator ≠ 0) (h : x.value = y.value) : x.reduce = y.reduce := by
  have hyn : y.nominator ≠ 0 := by
    intro h0; rw [← value_eq_zero hy, ← h, value_eq_zero hx] at h0; exact hn h0
  have hlx := reduce_lowest x (.inr hx.2)
  have hly := reduce_lowest y (.inr hy.2)
  have hrx := hx.reduce
  have hry := hy.reduce
  have hnx : x.reduce.nominator ≠ 0 := fun h0 => hn ((reduce_nominator_eq_zero x).mp h0)
  have hny : y.reduce.nominator ≠ 0 := fun h0 => hyn ((reduce_nominator_eq_zero y).mp h0)
  rw [← reduce_value x, ← reduce_value y] at h
  generalize x.reduce = x at *
  generalize y.reduce = y at *
  unfold value at h
  rw [div_eq_div_iff (den_cast_ne hrx.2) (den_cast_ne hry.2)] at h
  have h' : x.sign.toInt * (x.nominator.toNat * y.denominator.toNat : ℕ)
      = y.sign.toInt * (y.nominator.toNat * x.denominator.toNat : ℕ) := by
    push_cast; rw [← mul_assoc, ← mul_assoc]; exact_mod_cast h
  have hp1 : 0 < x.nominator.toNat * y.denominator.toNat :=
    Nat.mul_pos (by rw [Ne, u64_eq_zero_iff] at hnx; omega)
      (by have := hry.2; rw [Ne, u64_eq_zero_iff] at this; omega)
  have hp2 : 0 < y.nominator.toNat * x.denominator.toNat :=
    Nat.mul_pos (by rw [Ne, u64_eq_zero_iff] at hny; omega)
      (by have := hrx.2; rw [Ne, u64_eq_zero_iff] at this; omega)
  have hs : x.sign.toInt = y.sign.toInt ∧ x.nominator.toNat * y.denominator.toNat
      = y.nominator.toNat * x.denominator.toNat := by
    generalize x.nominator.toNat * y.denominator.toNat = p at *
    generalize y.nominator.toNat * x.denominator.toNat = q at *
    rcases hrx.sign_toInt with h1 | h1 <;> rcases hry.sign_toInt with h2 | h2 <;>
      rw [h1, h2] at h' ⊢ <;> omega
  obtain ⟨h1, h2⟩ := coprime_cross hlx hly hs.2
  exact ext_toNat (Int64.toInt_inj.mp hs.1) h1 h2

theorem eq_iff (x y : RationalNum) :
    x.eq y = true ↔ x.reduce = y.reduce ∨ (x.nominator = 0 ∧ y.nominator = 0) := by
  unfold eq
  simp only [Bool.or_eq_true, Bool.and_eq_true, beq_iff_eq, reduce_nominator_eq_zero]
  constructor
  · rintro (⟨⟨h1, h2⟩, h3⟩ | h)
    · left
      exact ext_toNat h1 (by rw [h2]) (by rw [h3])
    · exact .inr h
  · rintro (h | h)
    · left; rw [h]; simp
    · exact .inr h

/-! ### machine results -/

theorem abs_cast {m : Mode} {s c : Int64} (hm : m ≠ .release) (h : i64Abs m s = .ok c) :
    ((castU64 c).toNat : ℤ) = s.toInt.natAbs := by
  have := i64Abs_exact hm h
  rw [castU64_toNat (by rw [this]; positivity), this]

/-- value of the un-reduced result of `+`/`-` -/
theorem sumValue {s n d : ℤ} : (s : ℤ) = n → ((s.sign : ℤ) : ℚ) * ((s.natAbs : ℕ) : ℚ) / (d : ℚ)
    = (n : ℚ) / d := by
  intro h; subst h
  congr 1
  rw [← Int.cast_natCast, ← Int.cast_mul, Int.natCast_natAbs, Int.sign_mul_abs]

/-- no cast wraps in this run -/
def CastOK (m : Mode) (a b : RationalNum) : Prop := m = .strict ∨ CrossFits a b

theorem add_exact {m : Mode} (hm : m ≠ .release) {a b c : RationalNum} (hc : CastOK m a b)
    (ha : a.denominator ≠ 0) (hb : b.denominator ≠ 0) (h : add m a b = .ok c) :
    c.value = a.value + b.value ∧ c.LowestTerms ∧ c.denominator ≠ 0 ∧
    ∃ s : ℤ, c.sign.toInt = s.sign ∧ (c.nominator = 0 ↔ s = 0) := by
  unfold add at h
  simp only [Res.bind_eq_ok, Res.pure_eq, Res.ok.injEq] at h
  obtain ⟨p, hp, p', hp', x, hx, q, hq, q', hq', y, hy, s, hs, t, ht, d, hd, rfl⟩ := h
  have ep := u64Mul_exact hm hp
  have eq := u64Mul_exact hm hq
  have ed := u64Mul_exact hm hd
  have ep' := castI64_exact hp' (hc.imp_right fun h => by rw [ep]; exact h.1)
  have eq' := castI64_exact hq' (hc.imp_right fun h => by rw [eq]; exact h.2)
  have ex := i64Mul_exact hm hx
  have ey := i64Mul_exact hm hy
  have es := i64Add_exact hm hs
  have et := abs_cast hm ht
  rw [Ne, u64_eq_zero_iff] at ha hb
  have hd0 : d ≠ 0 := by
    rw [Ne, u64_eq_zero_iff, ed]
    exact Nat.mul_ne_zero ha hb
  refine ⟨?_, reduce_lowest _ (.inr hd0), ?_, s.toInt, ?_, ?_⟩
  · rw [reduce_value]
    unfold value
    dsimp only
    have et' : ((castU64 t).toNat : ℚ) = ((s.toInt.natAbs : ℕ) : ℚ) := by exact_mod_cast et
    have hh := @sumValue s.toInt s.toInt (d.toNat) rfl
    rw [i64Signum_toInt, et']
    push_cast at hh ⊢
    rw [hh, es, ex, ey, ep', eq', ep, eq, ed]
    push_cast
    have h1 : (a.denominator.toNat : ℚ) ≠ 0 := by exact_mod_cast ha
    have h2 : (b.denominator.toNat : ℚ) ≠ 0 := by exact_mod_cast hb
    field_simp
    try ring
  · exact fun h0 => hd0 ((reduce_denominator_eq_zero _).mp h0)
  · exact i64Signum_toInt s
  · rw [reduce_nominator_eq_zero, u64_eq_zero_iff]; dsimp only
    omega

theorem sub_exact {m : Mode} (hm : m ≠ .release) {a b c : RationalNum} (hc : CastOK m a b)
    (ha : a.denominator ≠ 0) (hb : b.denominator ≠ 0) (h : sub m a b = .ok c) :
    c.value = a.value - b.value ∧ c.LowestTerms ∧ c.denominator ≠ 0 ∧
    ∃ s : ℤ, c.sign.toInt = s.sign ∧ (c.nominator = 0 ↔ s = 0) := by
  unfold sub at h
  simp only [Res.bind_eq_ok, Res.pure_eq, Res.ok.injEq] at h
  obtain ⟨p, hp, p', hp', x, hx, q, hq, q', hq', y, hy, s, hs, t, ht, d, hd, rfl⟩ := h
  have ep := u64Mul_exact hm hp
  have eq := u64Mul_exact hm hq
  have ed := u64Mul_exact hm hd
  have ep' := castI64_exact hp' (hc.imp_right fun h => by rw [ep]; exact h.1)
  have eq' := castI64_exact hq' (hc.imp_right fun h => by rw [eq]; exact h.2)
  have ex := i64Mul_exact hm hx
  have ey := i64Mul_exact hm hy
  have es := i64Sub_exact hm hs
  have et := abs_cast hm ht
  rw [Ne, u64_eq_zero_iff] at ha hb
  have hd0 : d ≠ 0 := by
    rw [Ne, u64_eq_zero_iff, ed]
    exact Nat.mul_ne_zero ha hb
  refine ⟨?_, reduce_lowest _ (.inr hd0), ?_, s.toInt, ?_, ?_⟩
  · rw [reduce_value]
    unfold value
    dsimp only
    have et' : ((castU64 t).toNat : ℚ) = ((s.toInt.natAbs : ℕ) : ℚ) := by exact_mod_cast et
    have hh := @sumValue s.toInt s.toInt (d.toNat) rfl
    rw [i64Signum_toInt, et']
    push_cast at hh ⊢
    rw [hh, es, ex, ey, ep', eq', ep, eq, ed]
    push_cast
    have h1 : (a.denominator.toNat : ℚ) ≠ 0 := by exact_mod_cast ha
    have h2 : (b.denominator.toNat : ℚ) ≠ 0 := by exact_mod_cast hb
    field_simp
    try ring
  · exact fun h0 => hd0 ((reduce_denominator_eq_zero _).mp h0)
  · exact i64Signum_toInt s
  · rw [reduce_nominator_eq_zero, u64_eq_zero_iff]; dsimp only
    omega

theorem mul_exact {m : Mode} (hm : m ≠ .release) {a b c : RationalNum}
    (ha : a.denominator ≠ 0) (hb : b.denominator ≠ 0) (h : mul m a b = .ok c) :
    c.value = a.value * b.value ∧ c.LowestTerms ∧ c.denominator ≠ 0 ∧
    c.sign.toInt = a.sign.toInt * b.sign.toInt := by
  unfold mul at h
  simp only [Res.bind_eq_ok, Res.pure_eq, Res.ok.injEq] at h
  obtain ⟨s, hs, n, hn, d, hd, rfl⟩ := h
  have es := i64Mul_exact hm hs
  have en := u64Mul_exact hm hn
  have ed := u64Mul_exact hm hd
  rw [Ne, u64_eq_zero_iff] at ha hb
  have hd0 : d ≠ 0 := by
    rw [Ne, u64_eq_zero_iff, ed]
    exact Nat.mul_ne_zero ha hb
  refine ⟨?_, reduce_lowest _ (.inr hd0), fun h0 => hd0 ((reduce_denominator_eq_zero _).mp h0), es⟩
  rw [reduce_value]
  unfold value
  dsimp only
  rw [es, en, ed]
  push_cast
  have h1 : (a.denominator.toNat : ℚ) ≠ 0 := by exact_mod_cast ha
  have h2 : (b.denominator.toNat : ℚ) ≠ 0 := by exact_mod_cast hb
  field_simp

theorem div_exact {m : Mode} (hm : m ≠ .release) {a b c : RationalNum}
    (ha : a.denominator ≠ 0) (hb : b.Valid) (hb0 : b.nominator ≠ 0) (h : div m a b = .ok c) :
    c.value = a.value / b.value ∧ c.LowestTerms ∧ c.denominator ≠ 0 ∧
    c.sign.toInt = a.sign.toInt * b.sign.toInt := by
  unfold div at h
  simp only [Res.bind_eq_ok, Res.pure_eq, Res.ok.injEq] at h
  obtain ⟨s, hs, n, hn, d, hd, rfl⟩ := h
  have es := i64Mul_exact hm hs
  have en := u64Mul_exact hm hn
  have ed := u64Mul_exact hm hd
  have hbd := hb.2
  rw [Ne, u64_eq_zero_iff] at ha hb0 hbd
  have hd0 : d ≠ 0 := by
    rw [Ne, u64_eq_zero_iff, ed]
    exact Nat.mul_ne_zero ha hb0
  refine ⟨?_, reduce_lowest _ (.inr hd0), fun h0 => hd0 ((reduce_denominator_eq_zero _).mp h0), es⟩
  rw [reduce_value]
  unfold value
  dsimp only
  rw [es, en, ed]
  push_cast
  have h1 : (a.denominator.toNat : ℚ) ≠ 0 := by exact_mod_cast ha
  have h2 : (b.denominator.toNat : ℚ) ≠ 0 := by exact_mod_cast hbd
  have h3 : (b.nominator.toNat : ℚ) ≠ 0 := by exact_mod_cast hb0
  rcases hb.sign_toInt with h4 | h4 <;> rw [h4] <;> push_cast <;> field_simp

theorem neg_exact {m : Mode} (hm : m ≠ .release) {a c : RationalNum} (h : neg m a = .ok c) :
    c.value = -a.value ∧ c.nominator = a.nominator ∧ c.denominator = a.denominator ∧
      c.sign.toInt = -a.sign.toInt := by
  unfold neg at h
  simp only [Res.bind_eq_ok, Res.pure_eq, Res.ok.injEq] at h
  obtain ⟨s, hs, rfl⟩ := h
  have es := i64Neg_exact hm hs
  refine ⟨?_, rfl, rfl, es⟩
  unfold value
  dsimp only
  rw [es]; push_cast; ring

theorem ofI64_exact {m : Mode} (hm : m ≠ .release) {v : Int64} {r : RationalNum}
    (h : ofI64 m v = .ok r) : r.value = v.toInt ∧ r.Valid ∧ (r.nominator = 0 ↔ v = 0) := by
  unfold ofI64 at h
  simp only [Res.bind_eq_ok, Res.pure_eq, Res.ok.injEq] at h
  obtain ⟨a, ha, rfl⟩ := h
  have ea := abs_cast hm ha
  refine ⟨?_, ⟨?_, by show (1 : UInt64) ≠ 0; decide⟩, ?_⟩
  · unfold value
    have et' : ((castU64 a).toNat : ℚ) = ((v.toInt.natAbs : ℕ) : ℚ) := by exact_mod_cast ea
    dsimp only
    rw [et']
    split
    · rename_i h0; subst h0; simp
    · rw [i64Signum_toInt]
      have := @sumValue v.toInt v.toInt 1 rfl
      simpa using this
  · dsimp only
    split
    · exact .inl rfl
    · rename_i h0
      rw [i64_eq_zero_iff] at h0
      rw [i64_eq_one_iff, i64_eq_neg_one_iff, i64Signum_toInt]
      rcases lt_trichotomy v.toInt 0 with h | h | h
      · right; exact Int.sign_eq_neg_one_of_neg h
      · exact absurd h h0
      · left; exact Int.sign_eq_one_of_pos h
  · show castU64 a = 0 ↔ v = 0
    rw [u64_eq_zero_iff, i64_eq_zero_iff]; omega

/-! ### refinement between modes -/

theorem add_mono {m m' : Mode} (h : m.Le m') (a b : RationalNum) : (add m a b).Le (add m' a b) := by
  unfold add
  refine (u64Mul_mono h _ _).bind fun _ => (castI64_mono h _).bind fun _ =>
    (i64Mul_mono h _ _).bind fun _ => (u64Mul_mono h _ _).bind fun _ => (castI64_mono h _).bind fun _ =>
    (i64Mul_mono h _ _).bind fun _ => (i64Add_mono h _ _).bind fun _ => (i64Abs_mono h _).bind fun _ =>
    (u64Mul_mono h _ _).bind fun _ => Res.Le.refl _

theorem sub_mono {m m' : Mode} (h : m.Le m') (a b : RationalNum) : (sub m a b).Le (sub m' a b) := by
  unfold sub
  refine (u64Mul_mono h _ _).bind fun _ => (castI64_mono h _).bind fun _ =>
    (i64Mul_mono h _ _).bind fun _ => (u64Mul_mono h _ _).bind fun _ => (castI64_mono h _).bind fun _ =>
    (i64Mul_mono h _ _).bind fun _ => (i64Sub_mono h _ _).bind fun _ => (i64Abs_mono h _).bind fun _ =>
    (u64Mul_mono h _ _).bind fun _ => Res.Le.refl _

theorem mul_mono {m m' : Mode} (h : m.Le m') (a b : RationalNum) : (mul m a b).Le (mul m' a b) :=
  (i64Mul_mono h _ _).bind fun _ => (u64Mul_mono h _ _).bind fun _ => (u64Mul_mono h _ _).bind fun _ =>
    Res.Le.refl _

theorem div_mono {m m' : Mode} (h : m.Le m') (a b : RationalNum) : (div m a b).Le (div m' a b) :=
  (i64Mul_mono h _ _).bind fun _ => (u64Mul_mono h _ _).bind fun _ => (u64Mul_mono h _ _).bind fun _ =>
    Res.Le.refl _

theorem neg_mono {m m' : Mode} (h : m.Le m') (a : RationalNum) : (neg m a).Le (neg m' a) :=
  (i64Neg_mono h _).bind fun _ => Res.Le.refl _

theorem ofI64_mono {m m' : Mode} (h : m.Le m') (v : Int64) : (ofI64 m v).Le (ofI64 m' v) :=
  (i64Abs_mono h _).bind fun _ => Res.Le.refl _

theorem new_mono {m m' : Mode} (h : m.Le m') (s : Int64) (n d : UInt64) :
    (new m s n d).Le (new m' s n d) :=
  (i64Abs_mono h _).bind fun _ => Res.Le.refl _

/-! ### totality -/

theorem i64Add_release (a b : Int64) : i64Add .release a b = .ok (a + b) := checked_release _
theorem i64Sub_release (a b : Int64) : i64Sub .release a b = .ok (a - b) := checked_release _
theorem i64Mul_release (a b : Int64) : i64Mul .release a b = .ok (a * b) := checked_release _
theorem i64Neg_release (a : Int64) : i64Neg .release a = .ok (-a) := checked_release _
theorem i64Abs_release (a : Int64) : i64Abs .release a = .ok (if a < 0 then -a else a) :=
  checked_release _
theorem u64Mul_release (a b : UInt64) : u64Mul .release a b = .ok (a * b) := checked_release _
theorem u64Add_release (a b : UInt64) : u64Add .release a b = .ok (a + b) := checked_release _
theorem castI64_release (a : UInt64) : castI64 .release a = .ok a.toInt64 := rfl

end RationalNum
end SymRust
