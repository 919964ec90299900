import Verif.Model.SmartNum
/-! # `f64`

The float operations the code uses, on Lean's own model of IEEE-754 binary64 (`Float.Model` in Lean's core library:
the 64-bit patterns, with one NaN; round to nearest, ties to even; subnormal numbers, signed zeros and infinities).
Every theorem of the other modules holds for every `FloatOps F`; this is the instance the compiled program uses. -/

namespace SymRust.F64
open Float.Model (UnpackedFloat)

/-- `mantissa * 2^exponent * 1000` rounded to an integer, ties to even. -/
def thousandths (mantissa : Nat) (exponent : Int) : Nat :=
  let num := mantissa * 1000 * 2 ^ exponent.toNat
  let den := 2 ^ (-exponent).toNat
  let q := num / den
  let r := num % den
  if 2 * r < den then q else if den < 2 * r then q + 1 else q + q % 2

/-- The last three decimal digits of `n`. -/
def threeDigits (n : Nat) : String := toString (n / 100 % 10) ++ toString (n / 10 % 10) ++ toString (n % 10)

/-- The text of `n / 1000`. -/
def decimal (n : Nat) : String := toString (n / 1000) ++ "." ++ threeDigits n

def signText : UnpackedFloat.Sign → String
  | .negative => "-"
  | .positive => ""

/-- `format!("{:.3}", v)` (val_holder.rs:26).  Rust's standard library prints the exact value rounded to three decimals,
ties to even; the sign of zero is printed. -/
def fmt3 (v : Float.Model) : String :=
  match v.unpack with
  | .notANumber => "NaN"
  | .infinity s => signText s ++ "inf"
  | .zero s => signText s ++ decimal 0
  | .finite s m e _ => signText s ++ decimal (thousandths m e)

/-- `v.signum() as i64` (smart_num/mod.rs:103): 1.0 or -1.0 with the sign of `v`, also for zeros and infinities; NaN for
NaN, which the cast turns into 0. -/
def signumI64 (v : Float.Model) : Int64 :=
  match v.unpack with
  | .notANumber => 0
  | .infinity s | .zero s | .finite s _ _ _ => match s with
    | .negative => -1
    | .positive => 1

/-- `f64`.  The constants are `std::f64::consts::PI` and `E`, by their bits. -/
instance ops : FloatOps Float.Model where
  add := Float.Model.add
  sub := Float.Model.sub
  mul := Float.Model.mul
  div := Float.Model.div
  neg := Float.Model.neg
  abs := Float.Model.abs
  lt := Float.Model.lt
  ofI64 := Float.Model.ofInt64
  ofU64 := Float.Model.ofUInt64
  pi := Float.Model.ofBits 0x400921FB54442D18
  e := Float.Model.ofBits 0x4005BF0A8B145769
  signumI64 := signumI64
  fmt3 := fmt3

/-- `v as f64` for `v : f32`: rounds the value, as every conversion does (no rounding is ever needed: C13_f32). -/
def ofF32 (v : Float32.Model) : Float.Model :=
  Float.Model.pack (match v.unpack with
    | .finite s m e _ => UnpackedFloat.round .binary64 s m e
    | f => f)

end SymRust.F64

namespace SymRust

/-- val_holder.rs:152-156, `From<f32>` -/
def SmartNumVal.ofF32 (v : Float32.Model) : SmartNumVal Float.Model := .real (F64.ofF32 v)

/-- smart_num/mod.rs:150-171, `From<T>` at `T = f32` -/
def SmartNum.ofF32 (v : Float32.Model) : SmartNum Float.Model := .ofVal (.ofF32 v)

end SymRust
