import Verif.Model.Float64
import Verif.Spec.Number
import Mathlib.Data.Real.Basic
/-! # Specification: the real number a finite double stands for -/

namespace SymRust.F64
open Float.Model (UnpackedFloat)

def signValue : UnpackedFloat.Sign → ℝ
  | .negative => -1
  | .positive => 1

/-- Sign times mantissa times a power of two; infinities and NaN have no value. -/
noncomputable def unpackedValue : UnpackedFloat → Option ℝ
  | .notANumber => none
  | .infinity _ => none
  | .zero _ => some 0
  | .finite s m e _ => some (signValue s * (m * (2 : ℝ) ^ e))

/-- The value of a double; Lean's core library unpacks the bits into sign, mantissa and exponent. -/
noncomputable def value (v : Float.Model) : Option ℝ := unpackedValue v.unpack

/-- The last bit of the mantissa is 0. -/
def EvenMantissa (v : Float.Model) : Prop :=
  match v.unpack with
  | .finite _ m _ _ => m % 2 = 0
  | _ => True

/-- `v` is the double IEEE-754 prescribes for the real number `x` (round to nearest, ties to even): no finite double is
nearer to `x`, and if another one is equally near, `v` has the even mantissa. -/
def CorrectlyRounded (v : Float.Model) (x : ℝ) : Prop :=
  ∃ z, value v = some z ∧ ∀ w y, value w = some y → |z - x| ≤ |y - x| ∧ (|y - x| = |z - x| → y = z ∨ EvenMantissa v)

/-- The largest finite double. -/
noncomputable def largest : ℝ := (2 ^ 53 - 1) * 2 ^ 971

/-- The smallest real number that rounds to infinity: halfway between the largest double and `2^1024`. -/
noncomputable def overflow : ℝ := (2 ^ 54 - 1) * 2 ^ 970

/-- `v` is the result IEEE-754 prescribes for an operation with the exact result `x`: infinity with the sign of `x` if `x`
is beyond the largest double by half a unit in the last place or more, else the correct rounding. -/
def Ieee (v : Float.Model) (x : ℝ) : Prop :=
  (|x| < overflow → CorrectlyRounded v x) ∧ (overflow ≤ x → v.unpack = .infinity .positive) ∧
    (x ≤ -overflow → v.unpack = .infinity .negative)

/-- `x` is an integer of value `q`, or a fraction of value `q` with nominator and denominator at most 2^53. -/
def Fits (x : SmartNum Float.Model) (q : ℚ) : Prop :=
  x.exact? = some q ∧ ∀ r, x.value = .rational r → r.nominator.toNat ≤ 2 ^ 53 ∧ r.denominator.toNat ≤ 2 ^ 53

end SymRust.F64
