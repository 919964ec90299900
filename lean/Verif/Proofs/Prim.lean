import Verif.Model.Prim
/-! Helper lemmas about the machine primitives. -/

namespace SymRust

theorem Int64.inI64_toInt (a : Int64) : InI64 a.toInt := by
  have h1 := a.le_toInt
  have h2 := a.toInt_lt
  unfold InI64; omega

theorem UInt64.inU64_toNat (a : UInt64) : InU64 a.toNat := by
  have := a.toNat_lt
  unfold InU64; omega

theorem bmod_eq_of_inI64 {z : Int} (h : InI64 z) : z.bmod (2 ^ 64) = z := by
  unfold InI64 at h
  apply Int.bmod_eq_of_le <;> omega

theorem toInt_ofInt_of_inI64 {z : Int} (h : InI64 z) : (Int64.ofInt z).toInt = z := by
  rw [Int64.toInt_ofInt]; exact bmod_eq_of_inI64 h

theorem checked_ok {α : Type} {m : Mode} {p : Prop} [Decidable p] {w c : α}
    (h : checked m p w = .ok c) : c = w := by
  unfold checked at h
  split at h
  · cases h; rfl
  · cases m <;> simp at h; exact h.symm

theorem checked_ok_fits {α : Type} {m : Mode} {p : Prop} [Decidable p] {w c : α}
    (hm : m ≠ .release) (h : checked m p w = .ok c) : p := by
  unfold checked at h
  split at h
  · assumption
  · cases m <;> simp at h hm

theorem checked_of_fits {α : Type} (m : Mode) {p : Prop} [Decidable p] (w : α) (h : p) :
    checked m p w = .ok w := by simp [checked, h]

theorem checked_release {α : Type} {p : Prop} [Decidable p] (w : α) :
    checked .release p w = .ok w := by unfold checked; split <;> rfl

/-! ### exactness of successful non-wrapping operations -/

theorem i64Add_exact {m : Mode} (hm : m ≠ .release) {a b c : Int64} (h : i64Add m a b = .ok c) :
    c.toInt = a.toInt + b.toInt := by
  have hf := checked_ok_fits hm h
  rw [checked_ok h, Int64.toInt_add]; exact bmod_eq_of_inI64 hf

theorem i64Sub_exact {m : Mode} (hm : m ≠ .release) {a b c : Int64} (h : i64Sub m a b = .ok c) :
    c.toInt = a.toInt - b.toInt := by
  have hf := checked_ok_fits hm h
  rw [checked_ok h, Int64.toInt_sub]; exact bmod_eq_of_inI64 hf

theorem i64Mul_exact {m : Mode} (hm : m ≠ .release) {a b c : Int64} (h : i64Mul m a b = .ok c) :
    c.toInt = a.toInt * b.toInt := by
  have hf := checked_ok_fits hm h
  rw [checked_ok h, Int64.toInt_mul]; exact bmod_eq_of_inI64 hf

theorem i64Neg_exact {m : Mode} (hm : m ≠ .release) {a c : Int64} (h : i64Neg m a = .ok c) :
    c.toInt = -a.toInt := by
  have hf := checked_ok_fits hm h
  rw [checked_ok h, Int64.toInt_neg]; exact bmod_eq_of_inI64 hf

theorem i64_lt_zero (a : Int64) : a < 0 ↔ a.toInt < 0 := by
  rw [Int64.lt_iff_toInt_lt]; simp

theorem absW_toInt {a : Int64} (h : InI64 a.toInt.natAbs) :
    (if a < 0 then -a else a).toInt = a.toInt.natAbs := by
  unfold InI64 at h
  split
  · rename_i hl
    rw [i64_lt_zero] at hl
    rw [Int64.toInt_neg, bmod_eq_of_inI64 (by unfold InI64; omega)]; omega
  · rename_i hl
    rw [i64_lt_zero] at hl; omega

theorem i64Abs_exact {m : Mode} (hm : m ≠ .release) {a c : Int64} (h : i64Abs m a = .ok c) :
    c.toInt = a.toInt.natAbs := by
  have hf := checked_ok_fits hm h
  rw [checked_ok h]; exact absW_toInt hf

theorem u64Mul_exact {m : Mode} (hm : m ≠ .release) {a b c : UInt64} (h : u64Mul m a b = .ok c) :
    c.toNat = a.toNat * b.toNat := by
  have hf := checked_ok_fits hm h
  unfold InU64 at hf
  rw [checked_ok h, UInt64.toNat_mul]; exact Nat.mod_eq_of_lt (by omega)

theorem u64Add_exact {m : Mode} (hm : m ≠ .release) {a b c : UInt64} (h : u64Add m a b = .ok c) :
    c.toNat = a.toNat + b.toNat := by
  have hf := checked_ok_fits hm h
  unfold InU64 at hf
  rw [checked_ok h, UInt64.toNat_add]; exact Nat.mod_eq_of_lt (by omega)

theorem toInt64_toInt (a : UInt64) : a.toInt64.toInt = (a.toNat : Int).bmod (2 ^ 64) := by
  show a.toBitVec.toInt = _
  rw [BitVec.toInt_eq_toNat_bmod]; rfl

theorem castI64_ok {m : Mode} {a : UInt64} {c : Int64} (h : castI64 m a = .ok c) :
    c = a.toInt64 := by
  unfold castI64 at h
  cases m
  · cases h; rfl
  · cases h; rfl
  · dsimp only at h
    split at h <;> cases h
    rfl

theorem castI64_exact {m : Mode} {a : UInt64} {c : Int64} (h : castI64 m a = .ok c)
    (hs : m = .strict ∨ a.toNat ≤ 9223372036854775807) : c.toInt = a.toNat := by
  have hle : a.toNat ≤ 9223372036854775807 := by
    rcases hs with rfl | hs
    · unfold castI64 at h; dsimp only at h
      split at h <;> cases h
      assumption
    · exact hs
  rw [castI64_ok h, toInt64_toInt]
  apply bmod_eq_of_inI64; unfold InI64; omega

theorem castU64_toNat {a : Int64} (h : 0 ≤ a.toInt) : ((castU64 a).toNat : Int) = a.toInt := by
  unfold castU64
  have h2 : a = (a.toUInt64).toInt64 := by simp
  have h3 := toInt64_toInt a.toUInt64
  rw [← h2] at h3
  have hlt := a.toUInt64.toNat_lt
  rw [h3] at h ⊢
  rw [Int.bmod_def] at h ⊢
  split at h <;> split <;> omega

theorem i64Signum_toInt (a : Int64) : (i64Signum a).toInt = a.toInt.sign := by
  unfold i64Signum
  split
  · rename_i h; rw [i64_lt_zero] at h; rw [Int.sign_eq_neg_one_of_neg h]; decide
  · rename_i h
    split
    · rename_i h2; subst h2; decide
    · rename_i h2
      rw [i64_lt_zero] at h
      have : a.toInt ≠ 0 := fun h3 => h2 (Int64.toInt_inj.mp (by simpa using h3))
      rw [Int.sign_eq_one_of_pos (by omega)]; decide

theorem i64_eq_zero_iff (a : Int64) : a = 0 ↔ a.toInt = 0 := by
  rw [← Int64.toInt_inj]; simp
theorem i64_eq_one_iff (a : Int64) : a = 1 ↔ a.toInt = 1 := by
  rw [← Int64.toInt_inj]; simp
theorem i64_eq_neg_one_iff (a : Int64) : a = -1 ↔ a.toInt = -1 := by
  rw [← Int64.toInt_inj]; exact Iff.rfl
theorem u64_eq_zero_iff (a : UInt64) : a = 0 ↔ a.toNat = 0 := by
  rw [← UInt64.toNat_inj]; simp

/-! ### refinement between modes -/

/-- `y` does what `x` does unless `x` panics. -/
def Res.Le {α : Type} (x y : Res α) : Prop := ∀ a, x = .ok a → y = .ok a
def Out.Le {ε α : Type} (x y : Out ε α) : Prop := x = .panic ∨ x = y

/-- `m'` panics less often than `m`: `strict`, then `debug`, then `release`. -/
def Mode.Le (m m' : Mode) : Prop := m = m' ∨ m = .strict ∨ m' = .release

theorem Mode.Le.refl (m : Mode) : m.Le m := .inl rfl
theorem Mode.strict_le (m : Mode) : Mode.strict.Le m := .inr (.inl rfl)
theorem Mode.le_release (m : Mode) : m.Le .release := .inr (.inr rfl)

theorem Res.Le.refl {α : Type} (x : Res α) : x.Le x := fun _ h => h
theorem Res.Le.panic {α : Type} (x : Res α) : (Res.panic : Res α).Le x := fun _ h => by cases h

theorem Res.Le.bind {α β : Type} {x y : Res α} {f g : α → Res β} (h : x.Le y)
    (hf : ∀ a, (f a).Le (g a)) : (x >>= f).Le (y >>= g) := by
  intro b hb
  cases x with
  | panic => cases hb
  | ok a => rw [h a rfl]; exact hf a b hb

theorem Out.Le.refl {ε α : Type} (x : Out ε α) : x.Le x := .inr rfl
theorem Out.Le.bind {ε α β : Type} {x y : Out ε α} {f g : α → Out ε β} (h : x.Le y)
    (hf : ∀ a, (f a).Le (g a)) : (x >>= f).Le (y >>= g) := by
  rcases h with h | h
  · subst h; exact .inl rfl
  · subst h
    cases x with
    | ok a => exact hf a
    | err e => exact .inr rfl
    | panic => exact .inr rfl

theorem Res.Le.lift {ε α : Type} {x y : Res α} (h : x.Le y) :
    Out.Le (x.lift (ε := ε)) y.lift := by
  cases x with
  | panic => exact .inl rfl
  | ok a => rw [h a rfl]; exact .inr rfl

theorem checked_mono {α : Type} {m m' : Mode} (h : m.Le m') (p : Prop) [Decidable p] (w : α) :
    (checked m p w).Le (checked m' p w) := by
  intro a ha
  rcases h with h | h | h
  · subst h; exact ha
  · subst h
    have := checked_ok_fits (by simp) ha
    rw [checked_of_fits _ _ this] at ha ⊢; exact ha
  · subst h; rw [checked_release, checked_ok ha]

theorem i64Add_mono {m m' : Mode} (h : m.Le m') (a b : Int64) : (i64Add m a b).Le (i64Add m' a b) :=
  checked_mono h _ _
theorem i64Sub_mono {m m' : Mode} (h : m.Le m') (a b : Int64) : (i64Sub m a b).Le (i64Sub m' a b) :=
  checked_mono h _ _
theorem i64Mul_mono {m m' : Mode} (h : m.Le m') (a b : Int64) : (i64Mul m a b).Le (i64Mul m' a b) :=
  checked_mono h _ _
theorem i64Neg_mono {m m' : Mode} (h : m.Le m') (a : Int64) : (i64Neg m a).Le (i64Neg m' a) :=
  checked_mono h _ _
theorem i64Abs_mono {m m' : Mode} (h : m.Le m') (a : Int64) : (i64Abs m a).Le (i64Abs m' a) :=
  checked_mono h _ _
theorem u64Mul_mono {m m' : Mode} (h : m.Le m') (a b : UInt64) :
    (u64Mul m a b).Le (u64Mul m' a b) := checked_mono h _ _
theorem u64Add_mono {m m' : Mode} (h : m.Le m') (a b : UInt64) :
    (u64Add m a b).Le (u64Add m' a b) := checked_mono h _ _
theorem castI64_mono {m m' : Mode} (h : m.Le m') (a : UInt64) : (castI64 m a).Le (castI64 m' a) := by
  intro c hc
  have := castI64_ok hc
  subst this
  rcases h with h | h | h
  · subst h; exact hc
  · subst h; unfold castI64 at hc; dsimp only at hc
    split at hc <;> cases hc
    unfold castI64; cases m' <;> simp_all
  · subst h; rfl

/-! ### completeness in range -/
theorem i64Add_fits (m : Mode) {a b : Int64} (h : InI64 (a.toInt + b.toInt)) :
    i64Add m a b = .ok (a + b) := checked_of_fits m _ h
theorem i64Sub_fits (m : Mode) {a b : Int64} (h : InI64 (a.toInt - b.toInt)) :
    i64Sub m a b = .ok (a - b) := checked_of_fits m _ h
theorem i64Mul_fits (m : Mode) {a b : Int64} (h : InI64 (a.toInt * b.toInt)) :
    i64Mul m a b = .ok (a * b) := checked_of_fits m _ h
theorem i64Neg_fits (m : Mode) {a : Int64} (h : InI64 (-a.toInt)) :
    i64Neg m a = .ok (-a) := checked_of_fits m _ h
theorem u64Mul_fits (m : Mode) {a b : UInt64} (h : InU64 (a.toNat * b.toNat)) :
    u64Mul m a b = .ok (a * b) := checked_of_fits m _ h
theorem castI64_fits (m : Mode) {a : UInt64} (h : a.toNat ≤ 9223372036854775807) :
    castI64 m a = .ok a.toInt64 := by unfold castI64; cases m <;> simp [h]

end SymRust
