import Verif.Model.Derivative
import Verif.Model.Substitute
/-! # Model of /repo/src/compute/limit/** -/

namespace SymRust
variable {F : Type}

/-- limit_expression.rs:16-22 -/
inductive LimitExpression (F : Type) where
  | infinitesimal
  | infinity
  | boundedFluctuation
  | normal (e : Expr F)

/-! `Result<LimitExpression, NoValidLimitFound>` of the arithmetic operators is `Option`: the error is a
unit struct (limit_expression.rs:24-25). -/
namespace LimitExpression

/-- limit_expression.rs:27-36, `Display`. -/
def display [FloatOps F] : LimitExpression F → Res String
  | .infinitesimal => .ok "0"
  | .infinity => .ok "infinity"
  | .boundedFluctuation => .ok "~"
  | .normal r => r.display

/-- limit_expression.rs:38-47 -/
def neg : LimitExpression F → LimitExpression F
  | .normal r => .normal r.neg
  | x => x

/-- limit_expression.rs:49-80 -/
def add (self rhs : LimitExpression F) : Option (LimitExpression F) :=
  match self with
  | .infinitesimal => match rhs with
    | .infinitesimal => some .infinitesimal
    | .infinity => none
    | .boundedFluctuation => some .boundedFluctuation
    | .normal r => some (.normal r)
  | .infinity => match rhs with
    | .infinitesimal => some .infinity
    | .infinity => none
    | .boundedFluctuation => some .infinity
    | .normal _ => some .infinity
  | .boundedFluctuation => match rhs with
    | .infinitesimal => some .boundedFluctuation
    | .infinity => some .infinity
    | .boundedFluctuation => some .boundedFluctuation
    | .normal _ => some .boundedFluctuation
  | .normal a => match rhs with
    | .infinitesimal => some (.normal a)
    | .infinity => some .infinity
    | .boundedFluctuation => some .boundedFluctuation
    | .normal b => some (.normal (a.add b))

/-- limit_expression.rs:82-88 -/
def sub (self rhs : LimitExpression F) : Option (LimitExpression F) := self.add rhs.neg

/-- limit_expression.rs:90-121 -/
def mul (self rhs : LimitExpression F) : Option (LimitExpression F) :=
  match self with
  | .infinitesimal => match rhs with
    | .infinitesimal => some .infinitesimal
    | .infinity => none
    | .boundedFluctuation => some .infinitesimal
    | .normal _ => some .infinitesimal
  | .infinity => match rhs with
    | .infinitesimal => none
    | .infinity => some .infinity
    | .boundedFluctuation => none
    | .normal _ => some .infinity
  | .boundedFluctuation => match rhs with
    | .infinitesimal => some .infinitesimal
    | .infinity => none
    | .boundedFluctuation => some .boundedFluctuation
    | .normal _ => some .boundedFluctuation
  | .normal a => match rhs with
    | .infinitesimal => some .infinitesimal
    | .infinity => some .infinity
    | .boundedFluctuation => some .boundedFluctuation
    | .normal b => some (.normal (a.mul b))

/-- limit_expression.rs:125-174 -/
def div (self rhs : LimitExpression F) : Option (LimitExpression F) :=
  match self with
  | .infinitesimal => match rhs with
    | .infinitesimal => none
    | .infinity => some .infinitesimal
    | .boundedFluctuation => none
    | .normal r => if r.isZero then none else some .infinitesimal
  | .infinity => match rhs with
    | .infinitesimal => some .infinity
    | .infinity => none
    | .boundedFluctuation => none
    | .normal _ => some .infinity
  | .boundedFluctuation => match rhs with
    | .infinitesimal => none
    | .infinity => some .infinitesimal
    | .boundedFluctuation => none
    | .normal r => if r.isZero then none else some .boundedFluctuation
  | .normal a => match rhs with
    | .infinitesimal => if !a.isZero then some .infinity else none
    | .infinity => some .infinitesimal
    | .boundedFluctuation => none
    | .normal b => some (.normal (a.div b))

end LimitExpression

/-- Outcome of the limit search: `err` is `NoValidLimitFound {}`; `fuel` is not an outcome of the
program but "the recursion bound of the model was too small". -/
inductive LOut (α : Type) where
  | ok (a : α)
  | err
  | panic
  | fuel
deriving DecidableEq, Repr

namespace LOut
variable {α β : Type}

def bind : LOut α → (α → LOut β) → LOut β
  | .ok a, f => f a
  | .err, _ => .err
  | .panic, _ => .panic
  | .fuel, _ => .fuel

instance : Monad LOut where
  pure := LOut.ok
  bind := LOut.bind

@[simp] theorem pure_eq (a : α) : (pure a : LOut α) = .ok a := rfl
@[simp] theorem ok_bind (a : α) (f : α → LOut β) : (LOut.ok a >>= f) = f a := rfl
@[simp] theorem err_bind (f : α → LOut β) : ((LOut.err : LOut α) >>= f) = .err := rfl
@[simp] theorem panic_bind (f : α → LOut β) : ((LOut.panic : LOut α) >>= f) = .panic := rfl
@[simp] theorem fuel_bind (f : α → LOut β) : ((LOut.fuel : LOut α) >>= f) = .fuel := rfl

/-- A call of an infallible function. -/
def ofRes : Res α → LOut α
  | .ok a => .ok a
  | .panic => .panic
@[simp] theorem ofRes_ok (a : α) : LOut.ofRes (.ok a) = .ok a := rfl
@[simp] theorem ofRes_panic : LOut.ofRes (.panic : Res α) = .panic := rfl

/-- `.map_err(|_| NoValidLimitFound {})` -/
def ofOut {ε : Type} : Out ε α → LOut α
  | .ok a => .ok a
  | .err _ => .err
  | .panic => .panic
@[simp] theorem ofOut_ok {ε : Type} (a : α) : LOut.ofOut (.ok a : Out ε α) = .ok a := rfl
@[simp] theorem ofOut_panic {ε : Type} : LOut.ofOut (.panic : Out ε α) = .panic := rfl
@[simp] theorem ofOut_err {ε : Type} (e : ε) : LOut.ofOut (.err e : Out ε α) = .err := rfl

end LOut

namespace Expr
variable [FloatOps F]

omit [FloatOps F] in
mutual
/-- rules/neg.rs:11-18.  The recursive call is to `neg_limit_expr_rule` itself (rules/neg.rs:16), not to
`limit`. -/
def negLimitExprRule : Expr F → Res (LimitExpression F)
  | .mk _ child => do
    let r ← negLimitExprRuleLast child
    return r.neg

/-- `self.child.pop().unwrap()` followed by the recursive call on it. -/
def negLimitExprRuleLast : List (Expr F) → Res (LimitExpression F)
  | [] => .panic
  | [x] => negLimitExprRule x
  | _ :: y :: ys => negLimitExprRuleLast (y :: ys)
end

/-- The type of `limit` at a fixed variable, point and order. -/
abbrev LimitFn (F : Type) := Expr F → LOut (LimitExpression F)

omit [FloatOps F] in
/-- rules/add.rs:17-35; `rec` is `limit(of, to, order_try)`. -/
def addLimitExprRule (rec : LimitFn F) (self : Expr F) : LOut (LimitExpression F) := do
  let (r_, child) ← LOut.ofRes (pop self.child)
  let (l_, _) ← LOut.ofRes (pop child)
  let rLimit ← rec r_
  let lLimit ← rec l_
  match lLimit.add rLimit with
  | some z => return z
  | none => rec (((l_.div r_).add Expr.one).div (Expr.one.div r_))

omit [FloatOps F] in
/-- rules/sub.rs:17-26 -/
def subLimitExprRule (rec : LimitFn F) (self : Expr F) : LOut (LimitExpression F) := do
  let (r, child) ← LOut.ofRes (pop self.child)
  let (l, _) ← LOut.ofRes (pop child)
  rec (l.add r.neg)

omit [FloatOps F] in
/-- rules/mul.rs:27-32 -/
def limIsZero : LimitExpression F → Bool
  | .infinitesimal => true
  | .infinity => false
  | .boundedFluctuation => false
  | .normal r => r.isZero

omit [FloatOps F] in
/-- rules/mul.rs:17-47 -/
def mulLimitExprRule (rec : LimitFn F) (self : Expr F) : LOut (LimitExpression F) := do
  let (r_, child) ← LOut.ofRes (pop self.child)
  let (l_, _) ← LOut.ofRes (pop child)
  let rLimit ← rec r_
  let lLimit ← rec l_
  match lLimit.mul rLimit with
  | some z => return z
  | none =>
    if limIsZero rLimit then rec (r_.div (Expr.one.div l_))
    else rec (l_.div (Expr.one.div r_))

/-- The loop of rules/div.rs:29-39 with `n` iterations left. -/
def divLoop (m : Mode) (rec : LimitFn F) (of : Variable) :
    Nat → Expr F → Expr F → LOut (LimitExpression F)
  | 0, _, _ => .err
  | n + 1, l, r => do
    let a ← rec l
    let b ← rec r
    match a.div b with
    | some z => return z
    | none => do
      let l ← LOut.ofOut (l.derivative m of)
      let r ← LOut.ofOut (r.derivative m of)
      divLoop m rec of n l r

/-- rules/div.rs:20-40 -/
def divLimitExprRule (m : Mode) (rec : LimitFn F) (self : Expr F) (of : Variable)
    (orderTry : UInt64) : LOut (LimitExpression F) := do
  let (r, child) ← LOut.ofRes (pop self.child)
  let (l, _) ← LOut.ofRes (pop child)
  divLoop m rec of (orderTry.toNat + 1) l r

/-- The common part of rules/sin.rs:24-33 and rules/cos.rs:21-30: substitute, aggregate, classify. -/
def substLimit (m : Mode) (self : Expr F) (of : Variable) (to : Expr F) :
    LOut (LimitExpression F) := do
  let expr ← LOut.ofOut (self.substitute of to)
  let z ← LOut.ofRes (expr.numAggregate m)
  if z.isZero then return .infinitesimal else return .normal z

/-- rules/sin.rs:20-35 -/
def sinLimitExprRule (m : Mode) (self : Expr F) (of : Variable) (to : Expr F) :
    LOut (LimitExpression F) :=
  if to.isZero then .ok .infinitesimal else substLimit m self of to

/-- rules/cos.rs:20-31 -/
def cosLimitExprRule (m : Mode) (self : Expr F) (of : Variable) (to : Expr F) :
    LOut (LimitExpression F) :=
  substLimit m self of to

/-- mod.rs:28-73, `limit(&Variable, Expression, u64)`, with a bound on the recursion depth. -/
def limit (m : Mode) (of : Variable) (to : Expr F) (orderTry : UInt64) : Nat → LimitFn F
  | 0, _ => .fuel
  | n + 1, self => do
    let z ← match self.root with
      | .operand o => match o with
        | .num v => LOut.ok (.normal (ofNum v))
        | .var x =>
          if x.name = of.name then
            if to.isZero then LOut.ok .infinitesimal else LOut.ok (.normal to)
          else LOut.ok (.normal (ofVar x))
      | .operator op => match op.descriptor with
        | .neg => LOut.ofRes self.negLimitExprRule
        | .add => addLimitExprRule (limit m of to orderTry n) self
        | .sub => subLimitExprRule (limit m of to orderTry n) self
        | .mul => mulLimitExprRule (limit m of to orderTry n) self
        | .div => divLimitExprRule m (limit m of to orderTry n) self of orderTry
        | .sin => sinLimitExprRule m self of to
        | .cos => cosLimitExprRule m self of to
        | .exp => LOut.panic
        | .ln => LOut.panic
        | .pow => LOut.panic
    match z with
    | .normal expr => do return .normal (← LOut.ofRes (expr.numAggregate m))
    | z => return z

/-- mod.rs:75-83, the overload whose variable is an expression: `unwrap` on a non-variable panics. -/
def limitExpr (m : Mode) (of_ to : Expr F) (orderTry : UInt64) (n : Nat) (self : Expr F) :
    LOut (LimitExpression F) :=
  match of_.toVariable with
  | none => .panic
  | some of => limit m of to orderTry n self

end Expr
end SymRust
