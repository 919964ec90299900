import Verif.Model.Rational
import Mathlib.Data.Rat.Defs
import Mathlib.Algebra.Order.Ring.Rat
/-! # Specification: what a rational triple means -/

namespace SymRust.RationalNum

/-- The triples that `RationalNum::new` accepts: sign ±1 and nonzero denominator. -/
def Valid (r : RationalNum) : Prop := (r.sign = 1 ∨ r.sign = -1) ∧ r.denominator ≠ 0

/-- The rational number a triple stands for (meaningful when the denominator is not 0). -/
def value (r : RationalNum) : ℚ :=
  (r.sign.toInt : ℚ) * (r.nominator.toNat : ℚ) / (r.denominator.toNat : ℚ)

/-- The fraction cannot be shortened. -/
def LowestTerms (r : RationalNum) : Prop :=
  Nat.Coprime r.nominator.toNat r.denominator.toNat

/-- Both components are below 2^31. -/
def Small (r : RationalNum) : Prop :=
  r.nominator.toNat < 2147483648 ∧ r.denominator.toNat < 2147483648

/-- The cross products that `+` and `-` compute fit in an `i64`, so that no `as i64` cast wraps. -/
def CrossFits (a b : RationalNum) : Prop :=
  a.nominator.toNat * b.denominator.toNat ≤ 9223372036854775807 ∧
  a.denominator.toNat * b.nominator.toNat ≤ 9223372036854775807

end SymRust.RationalNum
