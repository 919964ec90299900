import Verif.Spec.Number
/-! # Specification: results modulo 2^64 (C77) -/

namespace SymRust

/-- `w` is the integer congruent to `z` modulo 2^64 that fits in an `i64`. -/
def WrapsTo (z w : ℤ) : Prop := InI64 w ∧ (18446744073709551616 : ℤ) ∣ z - w

/-- `r` stores the fraction `n/d` in lowest terms (0/0 as it is), whatever its sign. -/
def RationalNum.Stores (r : RationalNum) (n d : ℕ) : Prop :=
  r.nominator.toNat = n / max 1 (Nat.gcd n d) ∧ r.denominator.toNat = d / max 1 (Nat.gcd n d)

/-- The sign is -1, 0 or 1, as in every fraction that the API produces (C09). -/
def RationalNum.Signed (r : RationalNum) : Prop := r.sign = 1 ∨ r.sign = -1 ∨ r.sign = 0

variable {F : Type}
/-- What an operation on integers does, given its exact result `e`: an overflow-checking build returns exactly if `e`
fits in an `i64`; a release build returns the integer congruent to `e` modulo 2^64; a result is always an integer. -/
def IntSpec (op : Mode → Res (SmartNum F)) (e : ℤ) : Prop :=
  (∀ m ≠ .release, (∃ z, op m = .ok z) ↔ InI64 e) ∧
  ∃ z k, op .release = .ok z ∧ z.toI64 = some k ∧ WrapsTo e k.toInt

/-- `x` is stored as the integer `s * n`, with `d = 1`, or as the fraction with sign `s`, nominator `n` and denominator
`d`; `s` is 1 or -1. -/
def SmartNum.WrittenAs (x : SmartNum F) (s : ℤ) (n d : ℕ) : Prop := (s = 1 ∨ s = -1) ∧
  ((∃ i, x.value = .integer i ∧ i.toInt = s * n ∧ d = 1) ∨
   ∃ r, x.value = .rational r ∧ r.sign.toInt = s ∧ r.nominator.toNat = n ∧ r.denominator.toNat = d)

end SymRust
