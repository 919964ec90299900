import Verif.Spec.Rational
import Verif.Model.SmartNum
/-! # Specification: what a number means, and which numbers the API can produce -/

namespace SymRust
variable {F : Type}

/-- The exact rational value of a stored value: `none` for floats and for fractions with
denominator 0. -/
def SmartNumVal.exact? : SmartNumVal F → Option ℚ
  | .integer v => some (v.toInt : ℚ)
  | .rational r => if r.denominator = 0 then none else some r.value
  | .real _ => none

namespace SmartNum

/-- The exact rational value of a number (`none` for floats and n/0). -/
def exact? (x : SmartNum F) : Option ℚ := x.value.exact?

/-- Not a floating-point number. -/
def NonFloat (x : SmartNum F) : Prop := ∀ f, x.value ≠ .real f

/-- Neither a float nor a number with a value: a fraction with denominator 0. -/
def Undefined (x : SmartNum F) : Prop := x.NonFloat ∧ x.exact? = none

/-- Numbers obtainable in build `m` by any sequence of public constructors, conversions and
operators. -/
inductive Reachable [FloatOps F] (m : Mode) : SmartNum F → Prop
  | ofI64 (v : Int64) : Reachable m (ofI64 v)
  | ofU64 (v : UInt64) (x) : ofU64 m v = .ok x → Reachable m x
  | ofF64 (v : F) : Reachable m (ofF64 v)
  | newRational (s : Int64) (n d : UInt64) (x) : newRational m s n d = .ok (some x) → Reachable m x
  | one : Reachable m one
  | zero : Reachable m zero
  | pi : Reachable m pi
  | e : Reachable m e
  | neg (x y) : Reachable m x → x.neg m = .ok y → Reachable m y
  | add (x y z) : Reachable m x → Reachable m y → x.add m y = .ok z → Reachable m z
  | sub (x y z) : Reachable m x → Reachable m y → x.sub m y = .ok z → Reachable m z
  | mul (x y z) : Reachable m x → Reachable m y → x.mul m y = .ok z → Reachable m z
  | div (x y z) : Reachable m x → Reachable m y → x.div m y = .ok z → Reachable m z

/-- The invariant of numbers (property C09), stated with the exact value. -/
structure Valid [FloatOps F] (x : SmartNum F) : Prop where
  zero_iff : x.isZero = true ↔ x.exact? = some 0
  one_iff : x.isOne = true ↔ x.exact? = some 1
  pi_val : x.isPi = true → x.value = .real FloatOps.pi
  e_val : x.isE = true → x.value = .real FloatOps.e
  /-- A stored fraction has sign -1, 0 or 1, and 0 only for 0/0. -/
  sign_val : ∀ r, x.value = .rational r →
    (r.sign = 1 ∨ r.sign = -1) ∨ (r.sign = 0 ∧ r.nominator = 0 ∧ r.denominator = 0)

end SmartNum
end SymRust
