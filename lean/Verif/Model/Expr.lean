import Verif.Model.SmartNum
/-! # Model of /repo/src/ast/** and /repo/src/math_op/*.rs -/

namespace SymRust
variable {F : Type}

/-- operand.rs:6-9 -/
structure Variable where
  name : String
deriving DecidableEq, Repr

/-- operand.rs:25-29 -/
inductive AstOperand (F : Type) where
  | num (v : SmartNum F)
  | var (v : Variable)
deriving DecidableEq, Repr

/-- operator.rs:5-17 -/
inductive OperatorType where
  | neg | add | sub | mul | div | sin | cos | exp | ln | pow
deriving DecidableEq, Repr

/-- operator.rs:19-24.  `priority` is only compared, so `Nat` stands for `u32`. -/
structure AstOperator where
  symbol : String
  priority : Nat
  descriptor : OperatorType
deriving DecidableEq, Repr

/-- operator.rs:26-32, `PartialEq`: descriptors only. -/
def AstOperator.eq (self other : AstOperator) : Bool := self.descriptor == other.descriptor

/-- tree.rs:13-17 -/
inductive AstNode (F : Type) where
  | operator (op : AstOperator)
  | operand (v : AstOperand F)
deriving DecidableEq, Repr

/-- tree.rs:28-32 -/
inductive Expr (F : Type) where
  | mk (root : AstNode F) (child : List (Expr F))

namespace AstOperand

/-- operand.rs:31-47, both conversions into `Option<Variable>`. -/
def toVariable : AstOperand F → Option Variable
  | .num _ => none
  | .var v => some v

/-- operand.rs:67-72, 116-120 -/
def display [FloatOps F] : AstOperand F → Res String
  | .num v => v.display
  | .var v => .ok v.name

/-- operand.rs:80-85 -/
def isNum : AstOperand F → Bool
  | .num _ => true
  | .var _ => false

/-- operand.rs:87-92 -/
def isOne : AstOperand F → Bool
  | .var _ => false
  | .num v => v.isOne

/-- operand.rs:94-99 -/
def isZero : AstOperand F → Bool
  | .var _ => false
  | .num v => v.isZero

/-- operand.rs:101-106 -/
def isPi : AstOperand F → Bool
  | .var _ => false
  | .num v => v.isPi

/-- operand.rs:108-113 -/
def isE : AstOperand F → Bool
  | .var _ => false
  | .num v => v.isE

/-- operand.rs:49-64: the one error value `OPERAND_IS_NOT_NUMBER_ERROR`. -/
structure NotNumberError where
deriving DecidableEq, Repr

/-- operand.rs:52-56, `Display` of the error. -/
def NotNumberError.display (_ : NotNumberError) : String := "operand is not a number!"

/-- operand.rs:122-140, `to_smart_num` (both overloads). -/
def toSmartNum : AstOperand F → Except NotNumberError (SmartNum F)
  | .num v => .ok v
  | .var _ => .error {}

end AstOperand

/-- tree.rs:34-37 -/
structure ExprIsNotNumError where
  source : Option AstOperand.NotNumberError
deriving DecidableEq, Repr

/-- tree.rs:39-43, `Display` of the error. -/
def ExprIsNotNumError.display (_ : ExprIsNotNumError) : String := "This expression is not a number!"

namespace Expr

/-- field `root`, tree.rs:30 -/
def root : Expr F → AstNode F
  | .mk r _ => r
/-- field `child`, tree.rs:31 -/
def child : Expr F → List (Expr F)
  | .mk _ c => c

/-- tree.rs:52-57 -/
def isOperator (x : Expr F) : Bool :=
  match x.root with
  | .operator _ => true
  | .operand _ => false

/-- tree.rs:59-64 -/
def isOperand (x : Expr F) : Bool :=
  match x.root with
  | .operator _ => false
  | .operand _ => true

/-- tree.rs:66-71 -/
def isNum (x : Expr F) : Bool :=
  match x.root with
  | .operator _ => false
  | .operand o => o.isNum

/-- tree.rs:111-116 -/
def isOne (x : Expr F) : Bool :=
  match x.root with
  | .operator _ => false
  | .operand o => o.isOne

/-- tree.rs:122-127 -/
def isZero (x : Expr F) : Bool :=
  match x.root with
  | .operator _ => false
  | .operand o => o.isZero

/-- tree.rs:133-138 -/
def isPi (x : Expr F) : Bool :=
  match x.root with
  | .operator _ => false
  | .operand o => o.isPi

/-- tree.rs:144-149 -/
def isE (x : Expr F) : Bool :=
  match x.root with
  | .operator _ => false
  | .operand o => o.isE

/-- tree.rs:250-257, `From<AstOperand>`. -/
def ofOperand (o : AstOperand F) : Expr F := .mk (.operand o) []

/-- tree.rs:214-224 with tree.rs:19-26, operand.rs:142-149: `Expression::from(n)` for `n : SmartNum`
(the `Into<SmartNum>` conversion is the identity, tags are kept). -/
def ofNum (n : SmartNum F) : Expr F := .mk (.operand (.num n)) []

/-- `Expression::from(v)` for `v : i64` (tree.rs:214-224). -/
def ofI64 (v : Int64) : Expr F := ofNum (SmartNum.ofI64 v)

/-- `Expression::from(v)` for `v : u64` (tree.rs:214-224). -/
def ofU64 (m : Mode) (v : UInt64) : Res (Expr F) := do
  return ofNum (← SmartNum.ofU64 m v)

/-- tree.rs:104-109 -/
def newVariable (name : String) : Expr F := .mk (.operand (.var { name })) []

/-- tree.rs:244-248, `From<Variable>`. -/
def ofVar (v : Variable) : Expr F := newVariable v.name

/-- tree.rs:118-120 -/
def one : Expr F := ofI64 1
/-- tree.rs:129-131 -/
def zero : Expr F := ofI64 0
/-- tree.rs:140-142 -/
def pi [FloatOps F] : Expr F := ofNum SmartNum.pi
/-- tree.rs:151-153 -/
def e [FloatOps F] : Expr F := ofNum SmartNum.e

/-- tree.rs:162-184, `to_smart_num` (both overloads). -/
def toSmartNum (x : Expr F) : Except ExprIsNotNumError (SmartNum F) :=
  match x.root with
  | .operator _ => .error { source := none }
  | .operand o =>
    match o.toSmartNum with
    | .ok n => .ok n
    | .error e => .error { source := some e }

/-- tree.rs:186-212, `to_rational` (both overloads). -/
def toRational (m : Mode) (x : Expr F) : Res (Option RationalNum) :=
  match x.root with
  | .operator _ => .ok none
  | .operand o => match o with
    | .num v => v.toRational m
    | .var _ => .ok none

/-- tree.rs:226-242, both conversions into `Option<Variable>`. -/
def toVariable (x : Expr F) : Option Variable :=
  match x.root with
  | .operator _ => none
  | .operand o => o.toVariable

/-- `?` on a `Result` inside a function returning `Result`. -/
def liftExcept {ε α : Type} : Except ε α → Out ε α
  | .ok a => .ok a
  | .error e => .err e

/-- tree.rs:73-77, `near`. -/
def near [FloatOps F] (m : Mode) (self another : Expr F) (eps : F) : Out ExprIsNotNumError Bool := do
  let x ← liftExcept self.toSmartNum
  let y ← liftExcept another.toSmartNum
  let d ← (x.sub m y).lift
  return FloatOps.lt (FloatOps.abs d.toF64) eps

/-! ## Operators: /repo/src/math_op/*.rs -/

/-- neg.rs:8-14 -/
def genOpNeg : AstOperator := { symbol := "-", priority := 1, descriptor := .neg }
/-- add.rs:8-14 -/
def genOpAdd : AstOperator := { symbol := "+", priority := 2, descriptor := .add }
/-- sub.rs:8-14 -/
def genOpSub : AstOperator := { symbol := "-", priority := 2, descriptor := .sub }
/-- mul.rs:8-14 -/
def genOpMul : AstOperator := { symbol := "*", priority := 3, descriptor := .mul }
/-- div.rs:8-14 -/
def genOpDiv : AstOperator := { symbol := "/", priority := 4, descriptor := .div }
/-- sin.rs:8-14 -/
def genOpSin : AstOperator := { symbol := "sin", priority := 5, descriptor := .sin }
/-- cos.rs:8-14 -/
def genOpCos : AstOperator := { symbol := "cos", priority := 5, descriptor := .cos }
/-- exp.rs:8-14 -/
def genOpExp : AstOperator := { symbol := "exp", priority := 5, descriptor := .exp }
/-- ln.rs:8-14 -/
def genOpLn : AstOperator := { symbol := "ln", priority := 5, descriptor := .ln }
/-- pow.rs:10-16 -/
def genOpPow : AstOperator := { symbol := "^", priority := 4, descriptor := .pow }

/-- neg.rs:16-25 -/
def neg (a : Expr F) : Expr F := .mk (.operator genOpNeg) [a]
/-- add.rs:16-25 -/
def add (a b : Expr F) : Expr F := .mk (.operator genOpAdd) [a, b]
/-- sub.rs:16-25 -/
def sub (a b : Expr F) : Expr F := .mk (.operator genOpSub) [a, b]
/-- mul.rs:16-25 -/
def mul (a b : Expr F) : Expr F := .mk (.operator genOpMul) [a, b]
/-- div.rs:16-25 -/
def div (a b : Expr F) : Expr F := .mk (.operator genOpDiv) [a, b]
/-- sin.rs:16-46 (method on value and reference, and the free function) -/
def sin (a : Expr F) : Expr F := .mk (.operator genOpSin) [a]
/-- cos.rs:16-46 -/
def cos (a : Expr F) : Expr F := .mk (.operator genOpCos) [a]
/-- exp.rs:16-34 -/
def exp (a : Expr F) : Expr F := .mk (.operator genOpExp) [a]
/-- ln.rs:16-34 -/
def ln (a : Expr F) : Expr F := .mk (.operator genOpLn) [a]
/-- pow.rs:18-36, exponent already converted by `Into<Expression>` -/
def pow (a b : Expr F) : Expr F := .mk (.operator genOpPow) [a, b]

/-! ## Display -/

/-- `self.child[i]` on the list of rendered children: out of range panics. -/
def index {α : Type} (l : List (Res α)) (i : Nat) : Res α :=
  match l[i]? with
  | some r => r
  | none => .panic

mutual
/-- tree.rs:79-102, `to_string_raw`. -/
def toStringRaw [FloatOps F] : Expr F → Nat → Res String
  | .mk (.operand v) _, _ => v.display
  | .mk (.operator op) child, upper => do
    let rendered := toStringRawList child op.priority
    let me ←
      if child.length = 2 then
        (index rendered 0).bind fun a => (index rendered 1).bind fun b =>
          .ok (a ++ " " ++ op.symbol ++ " " ++ b)
      else
        (index rendered 0).bind fun a => .ok (op.symbol ++ a)
    if op.priority < upper then return "(" ++ me ++ ")" else return me

/-- `to_string_raw` of each child (only those that are indexed are run in Rust; a panic in another one
is a `Res.panic` entry that is never inspected). -/
def toStringRawList [FloatOps F] : List (Expr F) → Nat → List (Res String)
  | [], _ => []
  | x :: xs, p => toStringRaw x p :: toStringRawList xs p
end

/-- tree.rs:156-160, `Display` / `to_string()`. -/
def display [FloatOps F] (x : Expr F) : Res String := x.toStringRaw 0

end Expr
end SymRust
