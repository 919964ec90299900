import Verif.Model.Main
import Verif.Model.Limit
import Verif.Model.Float64
import Verif.Proofs.Kernel
/-! # The unit tests of the repository, replayed in the model

These are tests, not proofs: they check that the model reads the code as its authors do. Each example is one `#[test]`
with literal data, evaluated by the kernel on doubles in the overflow-checking build (the one `cargo test` uses).
The tests that loop over -100..100 (smart_num/tests.rs:2-289) are left out: the theorems about numbers (C05, C10, C13, C17,
C54, C55) cover all their inputs. -/

namespace SymRust.Replay
open Expr

abbrev E := Expr Float.Model
abbrev Num := SmartNum Float.Model
def nano : Float.Model := Float.Model.ofBits 0x3E112E0BE826D695    -- 1e-9
def tenth : Float.Model := Float.Model.ofBits 0x3FB999999999999A   -- 1e-1
def x : E := newVariable "x"
def y : E := newVariable "y"
def u : E := newVariable "u"
def int (v : Int64) : E := ofI64 v
def pos (n d : UInt64) : Res (Option RationalNum) := RationalNum.newPositive .debug n d
def neg (n d : UInt64) : Res (Option RationalNum) := RationalNum.newNegative .debug n d
/-- `unwrap` -/
def get {α : Type} (a : Res (Option α)) : Res α := do match ← a with | some z => .ok z | none => .panic
/-- `assert_eq!(op(x, y), z)` on rationals. -/
def check (op : Mode → RationalNum → RationalNum → Res RationalNum) (x y z : Res (Option RationalNum)) : Res Bool := do
  return (← op .debug (← get x) (← get y)).eq (← get z)
def sameAs (x y : Res (Option RationalNum)) : Res Bool := do return (← get x).eq (← get y)

/-! smart_num/tests.rs:296-438 -/
example : sameAs (pos 0 3) (neg 0 5) = .ok true := by krfl
example : sameAs (pos 1 2) (pos 1 2) = .ok true := by krfl
example : sameAs (pos 3 9) (pos 1 3) = .ok true := by krfl
example : (do return (← get (pos 1 2)).eq (← (← get (neg 1 2)).neg .debug)) = Res.ok true := by krfl
example : (do return (← get (pos 1 3)).eq (← (← get (neg 1 3)).neg .debug)) = Res.ok true := by krfl
example : check RationalNum.add (pos 1 4) (pos 1 4) (pos 1 2) = .ok true := by krfl
example : check RationalNum.add (neg 1 2) (pos 1 4) (neg 1 4) = .ok true := by krfl
example : check RationalNum.add (neg 1 4) (pos 1 2) (pos 1 4) = .ok true := by krfl
example : check RationalNum.add (neg 1 4) (neg 1 4) (neg 1 2) = .ok true := by krfl
example : check RationalNum.sub (pos 1 2) (pos 1 4) (pos 1 4) = .ok true := by krfl
example : check RationalNum.sub (neg 1 2) (pos 1 3) (neg 5 6) = .ok true := by krfl
example : check RationalNum.sub (pos 1 2) (neg 1 3) (pos 5 6) = .ok true := by krfl
example : check RationalNum.sub (neg 1 2) (neg 1 4) (neg 1 4) = .ok true := by krfl
example : check RationalNum.mul (pos 1 2) (pos 1 4) (pos 1 8) = .ok true := by krfl
example : check RationalNum.mul (neg 1 2) (pos 1 3) (neg 1 6) = .ok true := by krfl
example : check RationalNum.mul (pos 1 2) (neg 1 3) (neg 1 6) = .ok true := by krfl
example : check RationalNum.mul (neg 1 2) (neg 1 4) (pos 1 8) = .ok true := by krfl
example : check RationalNum.div (pos 1 2) (pos 1 4) (pos 2 1) = .ok true := by krfl
example : check RationalNum.div (neg 1 2) (pos 1 3) (neg 3 2) = .ok true := by krfl
example : check RationalNum.div (pos 1 2) (neg 1 3) (neg 3 2) = .ok true := by krfl
example : check RationalNum.div (neg 1 2) (neg 1 4) (pos 2 1) = .ok true := by krfl

/-! smart_num/tests.rs:446-454 -/
example : (SmartNum.pi : Num).display = .ok "pi" := by krfl
example : (SmartNum.pi : Num).isClose (SmartNum.ofF64 (Float.Model.ofBits 0x40091EB851EB851F)) tenth = true := by krfl
example : (SmartNum.e : Num).display = .ok "e" := by krfl
example : (SmartNum.e : Num).isClose (SmartNum.ofF64 (Float.Model.ofBits 0x400599999999999A)) tenth = true := by krfl

/-! ast/tree.rs:264-270, ast/op/operand.rs:175-178 -/
example : (int 0).toSmartNum.isOk = true := by krfl
example : x.toSmartNum.isOk = false := by krfl
example : (AstOperand.num (SmartNum.ofI64 0) : AstOperand Float.Model).toSmartNum.isOk = true := by krfl

/-! math_op/{neg,add,sub,mul,div,sin,cos}.rs -/
def i64Of (a : Res E) : Res (Option Int64) := do
  match (← a).toSmartNum with
  | .ok n => return n.toI64
  | .error _ => .panic
example : i64Of ((int (-1)).neg.numAggregate .debug) = .ok ((int 1).toSmartNum.toOption.bind SmartNum.toI64) := by krfl
def nearTo (a : Res E) (b : E) : Res (Option Bool) := do
  match (← a).near .debug b nano with
  | .ok c => return some c
  | .err _ => return none
  | .panic => .panic
example : (x.add y).display = .ok "x + y" := by krfl
example : nearTo (((int 1).add (int 1)).numAggregate .debug) (int 2) = .ok (some true) := by krfl
example : (x.sub y).display = .ok "x - y" := by krfl
example : nearTo (((int 1).sub (int 1)).numAggregate .debug) (int 0) = .ok (some true) := by krfl
example : (x.mul y).display = .ok "x * y" := by krfl
example : nearTo (((int 2).mul (int 2)).numAggregate .debug) (int 4) = .ok (some true) := by krfl
example : (x.div y).display = .ok "x / y" := by krfl
example : nearTo (((int 2).div (int 2)).numAggregate .debug) (int 1) = .ok (some true) := by krfl
example : x.sin.display = .ok "sinx" := by krfl
example : (int 1).sin.display = .ok "sin1" := by krfl
example : (x.add x).sin.display = .ok "sin(x + x)" := by krfl
example : x.cos.display = .ok "cosx" := by krfl
example : (int 1).cos.display = .ok "cos1" := by krfl
example : (x.add x).cos.display = .ok "cos(x + x)" := by krfl

/-! compute/num_aggregate/mod.rs:52-62: -(1+2)*(3-4)/5 is close to 3/5; rules/ln.rs, rules/exp.rs -/
def eval : E := ((((int 1).add (int 2)).neg.mul ((int 3).sub (int 4))).div (int 5))
example : (do
    let v ← eval.numAggregate .debug
    match v.toSmartNum, ← SmartNum.newRational .debug 1 3 5 with
    | .ok n, some r => return n.isClose r nano
    | _, _ => .panic) = Res.ok true := by krfl
example : (do return (← (one : E).ln.numAggregate .debug).isZero) = Res.ok true := by krfl
example : (do return (← (Expr.e : E).ln.numAggregate .debug).isOne) = Res.ok true := by krfl
example : (do return (← (Expr.pi : E).exp.ln.numAggregate .debug).isPi) = Res.ok true := by krfl
example : (do return (← (zero : E).exp.numAggregate .debug).isOne) = Res.ok true := by krfl
example : (do return (← (one : E).exp.numAggregate .debug).isE) = Res.ok true := by krfl
example : (do return (← (Expr.pi : E).ln.exp.numAggregate .debug).isPi) = Res.ok true := by krfl

/-! compute/substitute/mod.rs:80-88 -/
def text {ε : Type} (a : Out ε E) : Res String := match a with
  | .ok e => e.display
  | _ => .panic
def ab : E := (((newVariable "a").mul (newVariable "a")).add ((newVariable "b").mul (newVariable "b")))
example : (do
    match ab.substituteExpr (newVariable "a") (int 1) with
    | .ok e => (← e.numAggregate .debug).display
    | _ => .panic) = Res.ok "1 + b * b" := by krfl

/-! compute/derivative/mod.rs:110-157 -/
example : text (x.sin.derivativeExpr .debug x) = .ok "cosx" := by krfl
example : text ((x.sin.mul u.cos).derivativeExpr .debug x) = .ok "cosx * cosu" := by krfl
example : text ((x.sin.mul u.cos).derivativeExpr .debug u) = .ok "sinx * (-sinu)" := by krfl
example : text (x.exp.derivativeExpr .debug x) = .ok "expx" := by krfl
example : text (x.ln.derivativeExpr .debug x) = .ok "1 / x" := by krfl

/-! compute/limit/rules/div.rs:46-75 -/
def limitText (a : E) : Res String := match limitExpr .debug x zero 1 10 a with
  | .ok z => z.display
  | _ => .panic
example : limitText (x.sin.div x) = .ok "1" := by krfl
example : limitText (x.sin.div (x.mul x)) = .ok "infinity" := by krfl
example : limitText ((x.sin.mul x.sin).div x) = .ok "0" := by krfl

/-! compute/taylor_expansion/partial_expansion.rs:118-125 (the test prints and asserts nothing) -/
example : (match x.sin.taylorExpansionExpr .debug x zero 10 with
    | .ok e => e.display .debug
    | _ => .panic) =
    .ok "1 * x ^ 1 + -1/6 * x ^ 3 + 1/120 * x ^ 5 + -1/5040 * x ^ 7 + 1/362880 * x ^ 9 + O(x ^ 11)" := by krfl

end SymRust.Replay
