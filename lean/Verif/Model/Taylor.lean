import Verif.Model.Derivative
import Verif.Model.Substitute
/-! # Model of /repo/src/compute/taylor_expansion/partial_expansion.rs -/

namespace SymRust
variable {F : Type}

/-- partial_expansion.rs:12-19 -/
structure PartialExpansion (F : Type) where
  order : UInt64
  of : Expr F
  at_ : Expr F
  coefficient : List (Expr F)
  residual : Expr F

/-- partial_expansion.rs:43-47 -/
structure TaylorExpansionError (F : Type) where
  errExpr : Expr F
  reason : String

/-- partial_expansion.rs:49-56, `Display` -/
def TaylorExpansionError.display [FloatOps F] (e : TaylorExpansionError F) : Res String := do
  return "Cannot expand " ++ (← e.errExpr.display) ++ " due to " ++ e.reason

/-- `.map_err(|_| e)` -/
def Out.mapErr {ε ε' α : Type} (x : Out ε α) (e : ε') : Out ε' α :=
  match x with
  | .ok a => .ok a
  | .err _ => .err e
  | .panic => .panic

@[simp] theorem Out.mapErr_ok {ε ε' α : Type} (a : α) (e : ε') :
    (Out.ok a : Out ε α).mapErr e = .ok a := rfl
@[simp] theorem Out.mapErr_panic {ε ε' α : Type} (e : ε') :
    (Out.panic : Out ε α).mapErr e = .panic := rfl
@[simp] theorem Out.mapErr_err {ε ε' α : Type} (x : ε) (e : ε') :
    (Out.err x : Out ε α).mapErr e = .err e := rfl

namespace Expr
variable [FloatOps F]

/-- The loop body of partial_expansion.rs:66-83 for one `k`: from (residual, factorial) to
(coefficient, next residual, next factorial). -/
def taylorStep (m : Mode) (errExpr : Expr F) (of : Variable) (at_ : Expr F) (k : UInt64)
    (residual : Expr F) (factorial : SmartNum F) :
    Out (TaylorExpansionError F) (Expr F × Expr F × SmartNum F) := do
  let kk ← (SmartNum.ofU64 m (max k 1)).lift
  let factorial ← (factorial.mul m kk).lift
  let s ← (residual.substitute of at_).mapErr { errExpr, reason := "substitute failure" }
  let cur := (← (s.numAggregate m).lift).div (ofNum factorial)
  let c ← (cur.numAggregate m).lift
  let residual ← (residual.derivative m of).mapErr { errExpr, reason := "derivative failure" }
  return (c, residual, factorial)

/-- The loop `for k in 0..=order` (partial_expansion.rs:66-83): `n` iterations are left, the next is
number `k`. -/
def taylorLoop (m : Mode) (errExpr : Expr F) (of : Variable) (at_ : Expr F) :
    Nat → UInt64 → Expr F → SmartNum F → List (Expr F) →
    Out (TaylorExpansionError F) (List (Expr F) × Expr F)
  | 0, _, residual, _, coefficient => .ok (coefficient, residual)
  | n + 1, k, residual, factorial, coefficient => do
    let (c, residual, factorial) ← taylorStep m errExpr of at_ k residual factorial
    taylorLoop m errExpr of at_ n (k + 1) residual factorial (coefficient ++ [c])

/-- partial_expansion.rs:58-92, `taylor_expansion(&Variable, &Expression, u64)`. -/
def taylorExpansion (m : Mode) (self : Expr F) (of : Variable) (at_ : Expr F) (order : UInt64) :
    Out (TaylorExpansionError F) (PartialExpansion F) := do
  let (coefficient, residual) ←
    taylorLoop m self of at_ (order.toNat + 1) 0 self (SmartNum.ofI64 1) []
  return { order, of := ofVar of, at_, coefficient, residual }

/-- partial_expansion.rs:94-109, the overload whose variable is an expression. -/
def taylorExpansionExpr (m : Mode) (self of at_ : Expr F) (order : UInt64) :
    Out (TaylorExpansionError F) (PartialExpansion F) :=
  match of.toVariable with
  | none => .err { errExpr := of, reason := "not a variable" }
  | some of_ => self.taylorExpansion m of_ at_ order

end Expr

namespace PartialExpansion
variable [FloatOps F]

/-- The loop of partial_expansion.rs:25-32; `idx` is the index of the next term. -/
def displayTerms (b : Expr F) : Nat → List (Expr F) → String → Res String
  | _, [], content => .ok content
  | idx, term :: rest, content =>
    if term.isZero then displayTerms b (idx + 1) rest content
    else do
      let t ← term.display
      let p ← (b.pow (Expr.ofI64 (Int64.ofNat idx))).display
      displayTerms b (idx + 1) rest (content ++ (t ++ " * ") ++ p ++ " + ")

/-- partial_expansion.rs:21-36, `Display`. -/
def display (m : Mode) (x : PartialExpansion F) : Res String := do
  let b ← (x.of.sub x.at_).numAggregate m
  let content ← displayTerms b 0 x.coefficient ""
  let o ← u64Add m x.order 1
  let p ← (b.pow (← Expr.ofU64 m o)).display
  return content ++ ("O(" ++ p ++ ")")

end PartialExpansion
end SymRust
