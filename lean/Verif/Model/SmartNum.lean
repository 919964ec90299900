import Verif.Model.Rational
/-! # Model of /repo/src/smart_num/{special_const,val_holder,mod}.rs -/

namespace SymRust
variable {F : Type}

/-- special_const.rs:3-10 -/
inductive ConstType where
  | zero | one | pi | e | nothing
deriving DecidableEq, Repr

/-- special_const.rs:12-23, `Display`: panics on `Nothing`. -/
def ConstType.display : ConstType → Res String
  | .zero => .ok "0"
  | .one => .ok "1"
  | .pi => .ok "pi"
  | .e => .ok "e"
  | .nothing => .panic

/-- val_holder.rs:10-15 -/
inductive SmartNumVal (F : Type) where
  | integer (v : Int64)
  | rational (v : RationalNum)
  | real (v : F)
deriving DecidableEq, Repr

namespace SmartNumVal
variable [FloatOps F]

/-- val_holder.rs:21-30, `Display`. -/
def display : SmartNumVal F → String
  | .integer v => toString v.toInt
  | .rational v => v.display
  | .real v => FloatOps.fmt3 v

omit [FloatOps F] in
/-- val_holder.rs:33-39 -/
def isInt : SmartNumVal F → Bool
  | .integer _ => true
  | .rational _ => false
  | .real _ => false

omit [FloatOps F] in
/-- val_holder.rs:41-47 -/
def isRational : SmartNumVal F → Bool
  | .integer _ => false
  | .rational _ => true
  | .real _ => false

omit [FloatOps F] in
/-- val_holder.rs:49-55 -/
def isReal : SmartNumVal F → Bool
  | .integer _ => false
  | .rational _ => false
  | .real _ => true

omit [FloatOps F] in
/-- val_holder.rs:57-63 -/
def isZero : SmartNumVal F → Bool
  | .integer v => v == 0
  | .rational v => v.nominator == 0 && v.denominator != 0
  | .real _ => false

omit [FloatOps F] in
/-- val_holder.rs:65-73 -/
def isOne : SmartNumVal F → Bool
  | .integer v => v == 1
  | .rational v => v.sign == 1 && v.nominator == v.denominator && v.denominator != 0
  | .real _ => false

omit [FloatOps F] in
/-- val_holder.rs:75-81 -/
def toI64 : SmartNumVal F → Option Int64
  | .integer v => some v
  | .rational _ => none
  | .real _ => none

/-- val_holder.rs:83-89 -/
def toF64 : SmartNumVal F → F
  | .real v => v
  | .rational v => v.toF64
  | .integer v => FloatOps.ofI64 v

omit [FloatOps F] in
/-- val_holder.rs:91-93 -/
def newRational (m : Mode) (sign : Int64) (nominator denominator : UInt64) :
    Res (Option (SmartNumVal F)) := do
  let r ← RationalNum.new m sign nominator denominator
  return r.map .rational

/-- val_holder.rs:104-114, `is_close` (both overloads). -/
def isClose (self rhs : SmartNumVal F) (eps : F) : Bool :=
  FloatOps.lt (FloatOps.abs (FloatOps.sub self.toF64 rhs.toF64)) eps

omit [FloatOps F] in
/-- val_holder.rs:116-138, `to_rational` on the value (both overloads): integers give `None` here. -/
def toRational : SmartNumVal F → Option RationalNum
  | .integer _ => none
  | .rational v => some v
  | .real _ => none

omit [FloatOps F] in
/-- val_holder.rs:140-144 and 159-193: `From<i64>`, `From<u8>`, `From<i8>`, `From<u16>`, `From<i16>`,
`From<u32>`, `From<i32>` all produce `Integer(i64::from(v))`. -/
def ofI64 (v : Int64) : SmartNumVal F := .integer v

omit [FloatOps F] in
/-- val_holder.rs:95-97 -/
def zero : SmartNumVal F := ofI64 0

omit [FloatOps F] in
/-- val_holder.rs:99-101 -/
def one : SmartNumVal F := ofI64 1

omit [FloatOps F] in
/-- val_holder.rs:195-199, `From<u64>`: an `as` cast. -/
def ofU64 (m : Mode) (v : UInt64) : Res (SmartNumVal F) := do
  let i ← castI64 m v
  return .integer i

omit [FloatOps F] in
/-- val_holder.rs:146-150, `From<f64>`. (`From<f32>` is in Model/Float64.) -/
def ofF64 (v : F) : SmartNumVal F := .real v

/-- val_holder.rs:201-223, `Add`. -/
def add (m : Mode) (self rhs : SmartNumVal F) : Res (SmartNumVal F) :=
  match self with
  | .integer i => match rhs with
    | .integer j => do return .integer (← i64Add m i j)
    | .rational j => do return .rational (← RationalNum.add m (← RationalNum.ofI64 m i) j)
    | .real j => .ok (.real (FloatOps.add (FloatOps.ofI64 i) j))
  | .rational i => match rhs with
    | .integer j => do return .rational (← RationalNum.add m i (← RationalNum.ofI64 m j))
    | .rational j => do return .rational (← RationalNum.add m i j)
    | .real j => .ok (.real (FloatOps.add i.toF64 j))
  | .real i => match rhs with
    | .integer j => .ok (.real (FloatOps.add i (FloatOps.ofI64 j)))
    | .rational j => .ok (.real (FloatOps.add i j.toF64))
    | .real j => .ok (.real (FloatOps.add i j))

/-- val_holder.rs:225-247, `Sub`. -/
def sub (m : Mode) (self rhs : SmartNumVal F) : Res (SmartNumVal F) :=
  match self with
  | .integer i => match rhs with
    | .integer j => do return .integer (← i64Sub m i j)
    | .rational j => do return .rational (← RationalNum.sub m (← RationalNum.ofI64 m i) j)
    | .real j => .ok (.real (FloatOps.sub (FloatOps.ofI64 i) j))
  | .rational i => match rhs with
    | .integer j => do return .rational (← RationalNum.sub m i (← RationalNum.ofI64 m j))
    | .rational j => do return .rational (← RationalNum.sub m i j)
    | .real j => .ok (.real (FloatOps.sub i.toF64 j))
  | .real i => match rhs with
    | .integer j => .ok (.real (FloatOps.sub i (FloatOps.ofI64 j)))
    | .rational j => .ok (.real (FloatOps.sub i j.toF64))
    | .real j => .ok (.real (FloatOps.sub i j))

/-- val_holder.rs:249-275, `Mul`. -/
def mul (m : Mode) (self rhs : SmartNumVal F) : Res (SmartNumVal F) :=
  if self.isZero || rhs.isZero then .ok (.integer 0)
  else match self with
  | .integer i => match rhs with
    | .integer j => do return .integer (← i64Mul m i j)
    | .rational j => do return .rational (← RationalNum.mul m (← RationalNum.ofI64 m i) j)
    | .real j => .ok (.real (FloatOps.mul (FloatOps.ofI64 i) j))
  | .rational i => match rhs with
    | .integer j => do return .rational (← RationalNum.mul m i (← RationalNum.ofI64 m j))
    | .rational j => do return .rational (← RationalNum.mul m i j)
    | .real j => .ok (.real (FloatOps.mul i.toF64 j))
  | .real i => match rhs with
    | .integer j => .ok (.real (FloatOps.mul i (FloatOps.ofI64 j)))
    | .rational j => .ok (.real (FloatOps.mul i j.toF64))
    | .real j => .ok (.real (FloatOps.mul i j))

/-- val_holder.rs:277-305, `Div`. -/
def div (m : Mode) (self rhs : SmartNumVal F) : Res (SmartNumVal F) :=
  if self.isZero then .ok (.integer 0)
  else match self with
  | .integer i => match rhs with
    | .integer j => do
        return .rational (← RationalNum.div m (← RationalNum.ofI64 m i) (← RationalNum.ofI64 m j))
    | .rational j => do return .rational (← RationalNum.div m (← RationalNum.ofI64 m i) j)
    | .real j => .ok (.real (FloatOps.div (FloatOps.ofI64 i) j))
  | .rational i => match rhs with
    | .integer j => do return .rational (← RationalNum.div m i (← RationalNum.ofI64 m j))
    | .rational j => do return .rational (← RationalNum.div m i j)
    | .real j => .ok (.real (FloatOps.div i.toF64 j))
  | .real i => match rhs with
    | .integer j => .ok (.real (FloatOps.div i (FloatOps.ofI64 j)))
    | .rational j => .ok (.real (FloatOps.div i j.toF64))
    | .real j => .ok (.real (FloatOps.div i j))

/-- val_holder.rs:307-325, `Neg` (both overloads). -/
def neg (m : Mode) : SmartNumVal F → Res (SmartNumVal F)
  | .integer v => do return .integer (← i64Neg m v)
  | .rational v => do return .rational (← v.neg m)
  | .real v => .ok (.real (FloatOps.neg v))

end SmartNumVal

/-- mod.rs:20-24 (fields are private in Rust: only the functions below build a `SmartNum`). -/
structure SmartNum (F : Type) where
  value : SmartNumVal F
  tag : ConstType
deriving DecidableEq, Repr

namespace SmartNum
variable [FloatOps F]

omit [FloatOps F] in
/-- mod.rs:32-34 -/
def toI64 (x : SmartNum F) : Option Int64 := x.value.toI64

/-- mod.rs:36-38 -/
def toF64 (x : SmartNum F) : F := x.value.toF64

omit [FloatOps F] in
/-- mod.rs:40-53 -/
def newRational (m : Mode) (sign : Int64) (nominator denominator : UInt64) :
    Res (Option (SmartNum F)) := do
  let v ← SmartNumVal.newRational m sign nominator denominator
  return v.map fun value =>
    { value, tag := if value.isZero then .zero else if value.isOne then .one else .nothing }

omit [FloatOps F] in
/-- mod.rs:55-60 -/
def one : SmartNum F := { value := .integer 1, tag := .one }
omit [FloatOps F] in
/-- mod.rs:62-64 -/
def isOne (x : SmartNum F) : Bool := x.tag == .one
omit [FloatOps F] in
/-- mod.rs:66-71 -/
def zero : SmartNum F := { value := .integer 0, tag := .zero }
omit [FloatOps F] in
/-- mod.rs:73-75 -/
def isZero (x : SmartNum F) : Bool := x.tag == .zero
/-- mod.rs:77-82 -/
def pi : SmartNum F := { value := .real FloatOps.pi, tag := .pi }
omit [FloatOps F] in
/-- mod.rs:84-86 -/
def isPi (x : SmartNum F) : Bool := x.tag == .pi
/-- mod.rs:88-93 -/
def e : SmartNum F := { value := .real FloatOps.e, tag := .e }
omit [FloatOps F] in
/-- mod.rs:95-97 -/
def isE (x : SmartNum F) : Bool := x.tag == .e

/-- mod.rs:99-105 -/
def sign (x : SmartNum F) : Int64 :=
  match x.value with
  | .integer v => i64Signum v
  | .rational v => v.sign
  | .real v => FloatOps.signumI64 v

omit [FloatOps F] in
/-- mod.rs:108-126, `to_rational` (both overloads). -/
def toRational (m : Mode) (x : SmartNum F) : Res (Option RationalNum) :=
  match x.value with
  | .integer v => do return some (← RationalNum.ofI64 m v)
  | .rational v => .ok (some v)
  | .real _ => .ok none

/-- mod.rs:128-136, `Display`. -/
def display (x : SmartNum F) : Res String :=
  if x.tag ≠ .nothing then x.tag.display else .ok x.value.display

/-- mod.rs:138-148, `is_close` (both overloads). -/
def isClose (self other : SmartNum F) (eps : F) : Bool := self.value.isClose other.value eps

omit [FloatOps F] in
/-- mod.rs:150-165, the tagging part of `From<T: Into<SmartNumVal>>`. -/
def ofVal (value : SmartNumVal F) : SmartNum F :=
  { value, tag := if value.isOne then .one else if value.isZero then .zero else .nothing }

omit [FloatOps F] in
/-- `SmartNum::from(v)` for `v : i64` (mod.rs:150-165 with val_holder.rs:140-144). -/
def ofI64 (v : Int64) : SmartNum F := ofVal (.ofI64 v)

/-! `SmartNum::from(v)` for the narrower integer types: `i64::from(v)` widens without loss. -/

omit [FloatOps F] in
/-- `v : u8` (mod.rs:150-165 with val_holder.rs:159-163). -/
def ofU8 (v : UInt8) : SmartNum F := ofVal (.integer (Int64.ofNat v.toNat))
omit [FloatOps F] in
/-- `v : i8` (mod.rs:150-165 with val_holder.rs:165-169). -/
def ofI8 (v : Int8) : SmartNum F := ofVal (.integer v.toInt64)
omit [FloatOps F] in
/-- `v : u16` (mod.rs:150-165 with val_holder.rs:171-175). -/
def ofU16 (v : UInt16) : SmartNum F := ofVal (.integer (Int64.ofNat v.toNat))
omit [FloatOps F] in
/-- `v : i16` (mod.rs:150-165 with val_holder.rs:177-181). -/
def ofI16 (v : Int16) : SmartNum F := ofVal (.integer v.toInt64)
omit [FloatOps F] in
/-- `v : u32` (mod.rs:150-165 with val_holder.rs:183-187). -/
def ofU32 (v : UInt32) : SmartNum F := ofVal (.integer (Int64.ofNat v.toNat))
omit [FloatOps F] in
/-- `v : i32` (mod.rs:150-165 with val_holder.rs:189-193). -/
def ofI32 (v : Int32) : SmartNum F := ofVal (.integer v.toInt64)

omit [FloatOps F] in
/-- `SmartNum::from(v)` for `v : u64` (mod.rs:150-165 with val_holder.rs:195-199). -/
def ofU64 (m : Mode) (v : UInt64) : Res (SmartNum F) := do
  return ofVal (← SmartNumVal.ofU64 m v)

omit [FloatOps F] in
/-- `SmartNum::from(v)` for `v : f64` (mod.rs:150-165 with val_holder.rs:146-150). -/
def ofF64 (v : F) : SmartNum F := ofVal (.ofF64 v)

omit [FloatOps F] in
/-- mod.rs:167-178 -/
def wrapVal (value : SmartNumVal F) : SmartNum F :=
  if value.isZero then zero
  else if value.isOne then one
  else { value, tag := .nothing }

/-- mod.rs:180-186 -/
def neg (m : Mode) (x : SmartNum F) : Res (SmartNum F) := do
  return wrapVal (← x.value.neg m)

/-- mod.rs:188-200 -/
def add (m : Mode) (self rhs : SmartNum F) : Res (SmartNum F) :=
  if self.isZero then .ok rhs
  else if rhs.isZero then .ok self
  else do return wrapVal (← self.value.add m rhs.value)

/-- mod.rs:202-214 -/
def sub (m : Mode) (self rhs : SmartNum F) : Res (SmartNum F) :=
  if self.isZero then rhs.neg m
  else if rhs.isZero then .ok self
  else do return wrapVal (← self.value.sub m rhs.value)

/-- mod.rs:216-228 -/
def mul (m : Mode) (self rhs : SmartNum F) : Res (SmartNum F) :=
  if self.isOne then .ok rhs
  else if rhs.isOne then .ok self
  else do return wrapVal (← self.value.mul m rhs.value)

/-- mod.rs:230-236 -/
def div (m : Mode) (self rhs : SmartNum F) : Res (SmartNum F) := do
  return wrapVal (← self.value.div m rhs.value)

end SmartNum
end SymRust
