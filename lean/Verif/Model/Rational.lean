import Verif.Model.Prim
/-! # Model of /repo/src/smart_num/rational.rs -/

namespace SymRust

/-- rational.rs:6-11 -/
structure RationalNum where
  sign : Int64
  nominator : UInt64
  denominator : UInt64
deriving DecidableEq, Repr

/-- rational.rs:36-42, `gcd` (the recursion is the Rust one). -/
def gcd (a b : UInt64) : UInt64 :=
  if b = 0 then a else gcd b (a % b)
termination_by b.toNat
decreasing_by
  rename_i h
  have : b.toNat ≠ 0 := fun h' => h (UInt64.toNat_inj.mp (by simpa using h'))
  rw [UInt64.toNat_mod]; exact Nat.mod_lt _ (by omega)

namespace RationalNum

/-- rational.rs:45-55, `reduce` (the divisions cannot fail: `d ≠ 0`). -/
def reduce (x : RationalNum) : RationalNum :=
  let d := gcd x.nominator x.denominator
  let d := if d = 0 then 1 else d
  { sign := x.sign, nominator := x.nominator / d, denominator := x.denominator / d }

/-- `a / b` on `u64` (rational.rs:51,52): panics when `b` is 0. -/
def u64Div (a b : UInt64) : Res UInt64 := if b = 0 then .panic else .ok (a / b)

/-- rational.rs:45-55, `reduce` with the panics of the two divisions written out; `reduce_checked_ok`
(Props/Rational.lean) shows that it always returns `reduce x`, so the total `reduce` is used below. -/
def reduceChecked (x : RationalNum) : Res RationalNum := do
  let d := gcd x.nominator x.denominator
  let d := if d = 0 then 1 else d
  let n ← u64Div x.nominator d
  let d' ← u64Div x.denominator d
  return { sign := x.sign, nominator := n, denominator := d' }

/-- rational.rs:25-34, `PartialEq::eq`. -/
def eq (self other : RationalNum) : Bool :=
  let x := self.reduce
  let y := other.reduce
  (x.sign == y.sign && x.nominator == y.nominator && x.denominator == y.denominator)
    || (x.nominator == 0 && y.nominator == 0)

/-- rational.rs:57-67, `new`; `None` is `Res.ok none`. -/
def new (m : Mode) (sign : Int64) (nominator denominator : UInt64) : Res (Option RationalNum) := do
  let s ← i64Abs m sign
  if s = 1 ∧ denominator ≠ 0 then
    return some { sign, nominator, denominator }
  else
    return none

/-- rational.rs:69-71 -/
def newPositive (m : Mode) (nominator denominator : UInt64) : Res (Option RationalNum) :=
  new m 1 nominator denominator

/-- rational.rs:73-75 -/
def newNegative (m : Mode) (nominator denominator : UInt64) : Res (Option RationalNum) :=
  new m (-1) nominator denominator

/-- rational.rs:77-79, `to_f64`. -/
def toF64 {F : Type} [FloatOps F] (x : RationalNum) : F :=
  FloatOps.div (FloatOps.mul (FloatOps.ofI64 x.sign) (FloatOps.ofU64 x.nominator))
    (FloatOps.ofU64 x.denominator)

/-- rational.rs:82-91, `Neg`. -/
def neg (m : Mode) (x : RationalNum) : Res RationalNum := do
  let s ← i64Neg m x.sign
  return { x with sign := s }

/-- rational.rs:93-110, `Add`. -/
def add (m : Mode) (self rhs : RationalNum) : Res RationalNum := do
  let a ← i64Mul m (← castI64 m (← u64Mul m self.nominator rhs.denominator)) self.sign
  let b ← i64Mul m (← castI64 m (← u64Mul m self.denominator rhs.nominator)) rhs.sign
  let s ← i64Add m a b
  let sign := i64Signum s
  let nominator := castU64 (← i64Abs m s)
  let denominator ← u64Mul m self.denominator rhs.denominator
  return (RationalNum.mk sign nominator denominator).reduce

/-- rational.rs:112-129, `Sub`. -/
def sub (m : Mode) (self rhs : RationalNum) : Res RationalNum := do
  let a ← i64Mul m (← castI64 m (← u64Mul m self.nominator rhs.denominator)) self.sign
  let b ← i64Mul m (← castI64 m (← u64Mul m self.denominator rhs.nominator)) rhs.sign
  let s ← i64Sub m a b
  let sign := i64Signum s
  let nominator := castU64 (← i64Abs m s)
  let denominator ← u64Mul m self.denominator rhs.denominator
  return (RationalNum.mk sign nominator denominator).reduce

/-- rational.rs:131-145, `Mul`. -/
def mul (m : Mode) (self rhs : RationalNum) : Res RationalNum := do
  let sign ← i64Mul m self.sign rhs.sign
  let nominator ← u64Mul m self.nominator rhs.nominator
  let denominator ← u64Mul m self.denominator rhs.denominator
  return (RationalNum.mk sign nominator denominator).reduce

/-- rational.rs:147-161, `Div`. -/
def div (m : Mode) (self rhs : RationalNum) : Res RationalNum := do
  let sign ← i64Mul m self.sign rhs.sign
  let nominator ← u64Mul m self.nominator rhs.denominator
  let denominator ← u64Mul m self.denominator rhs.nominator
  return (RationalNum.mk sign nominator denominator).reduce

/-- rational.rs:163-171, `From<u64>`. -/
def ofU64 (v : UInt64) : RationalNum := { sign := 1, nominator := v, denominator := 1 }

/-- rational.rs:173-181, `From<i64>`. -/
def ofI64 (m : Mode) (v : Int64) : Res RationalNum := do
  let a ← i64Abs m v
  return { sign := if v = 0 then 1 else i64Signum v, nominator := castU64 a, denominator := 1 }

/-- rational.rs:18-23, `Display`. -/
def display (x : RationalNum) : String :=
  (if x.sign = 1 then "" else "-") ++ toString x.nominator.toNat ++ "/" ++ toString x.denominator.toNat

end RationalNum
end SymRust
