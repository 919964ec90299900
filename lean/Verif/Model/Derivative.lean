import Verif.Model.Aggregate
/-! # Model of /repo/src/compute/derivative/** -/

namespace SymRust
variable {F : Type}

/-- mod.rs:27-30 -/
structure DerivativeError (F : Type) where
  errSrc : Expr F

/-- mod.rs:32-39, `Display` -/
def DerivativeError.display [FloatOps F] (e : DerivativeError F) : Res String := do
  return (← e.errSrc.display) ++ " cannot be used as a variable"

namespace Expr

/-- `child.pop().unwrap()` in a function returning `Result`. -/
def popO {ε α : Type} (l : List α) : Out ε (α × List α) := (pop l).lift

/-- A child together with the outcome of differentiating it.  Rules pop a child and differentiate it;
here the outcome is precomputed and only inspected when Rust would compute it. -/
abbrev DChild (F : Type) := Expr F × Out (DerivativeError F) (Expr F)

/-- rules/neg.rs:6-12 -/
def negDerivativeRule (child : List (DChild F)) : Out (DerivativeError F) (Expr F) := do
  let (c, _) ← popO child
  let sub ← c.2
  return sub.neg

/-- rules/add.rs:6-13 -/
def addDerivativeRule (child : List (DChild F)) : Out (DerivativeError F) (Expr F) := do
  let (c, child) ← popO child
  let r ← c.2
  let (c, _) ← popO child
  let l ← c.2
  return l.add r

/-- rules/sub.rs:6-13 -/
def subDerivativeRule (child : List (DChild F)) : Out (DerivativeError F) (Expr F) := do
  let (c, child) ← popO child
  let r ← c.2
  let (c, _) ← popO child
  let l ← c.2
  return l.sub r

/-- rules/mul.rs:6-16 -/
def mulDerivativeRule (child : List (DChild F)) : Out (DerivativeError F) (Expr F) := do
  let (v, child) ← popO child
  let (u, _) ← popO child
  let vd ← v.2
  let ud ← u.2
  return (ud.mul v.1).add (u.1.mul vd)

/-- rules/div.rs:6-16 -/
def divDerivativeRule (child : List (DChild F)) : Out (DerivativeError F) (Expr F) := do
  let (v, child) ← popO child
  let (u, _) ← popO child
  let vd ← v.2
  let ud ← u.2
  return ((ud.mul v.1).sub (u.1.mul vd)).div (v.1.mul v.1)

/-- rules/sin.rs:7-14 -/
def sinDerivativeRule (child : List (DChild F)) : Out (DerivativeError F) (Expr F) := do
  let (sub, _) ← popO child
  let d ← sub.2
  return sub.1.cos.mul d

/-- rules/cos.rs:7-14 -/
def cosDerivativeRule (child : List (DChild F)) : Out (DerivativeError F) (Expr F) := do
  let (sub, _) ← popO child
  let d ← sub.2
  return sub.1.sin.neg.mul d

/-- rules/exp.rs:7-14 -/
def expDerivativeRule (child : List (DChild F)) : Out (DerivativeError F) (Expr F) := do
  let (u, _) ← popO child
  let d ← u.2
  return d.mul u.1.exp

/-- rules/ln.rs:6-13 -/
def lnDerivativeRule (child : List (DChild F)) : Out (DerivativeError F) (Expr F) := do
  let (u, _) ← popO child
  let d ← u.2
  return d.div u.1

/-- rules/pow.rs:7-19 -/
def powDerivativeRule (child : List (DChild F)) : Out (DerivativeError F) (Expr F) := do
  let (r, child) ← popO child
  let (u, _) ← popO child
  let rd ← r.2
  let ud ← u.2
  let lnu := u.1.ln
  let uPowR := u.1.pow r.1
  return uPowR.mul ((rd.mul lnu).add ((r.1.mul ud).div u.1))

variable [FloatOps F]

mutual
/-- mod.rs:41-78, `derivative(&Variable)` (the `Into<Option<_>>` of a `&Variable` is always `Some`,
so the error of mod.rs:45-47 cannot occur). -/
def derivative (m : Mode) : Expr F → Variable → Out (DerivativeError F) (Expr F)
  | .mk (.operand (.num _)) _, _ => ((ofI64 0 : Expr F).numAggregate m).lift
  | .mk (.operand (.var another)) _, to =>
    ((if to.name = another.name then (ofI64 1 : Expr F) else ofI64 0).numAggregate m).lift
  | .mk (.operator op) child, to => do
    let child := derivativeList m child to
    let result ← match op.descriptor with
      | .neg => negDerivativeRule child
      | .add => addDerivativeRule child
      | .sub => subDerivativeRule child
      | .mul => mulDerivativeRule child
      | .div => divDerivativeRule child
      | .sin => sinDerivativeRule child
      | .cos => cosDerivativeRule child
      | .exp => expDerivativeRule child
      | .ln => lnDerivativeRule child
      | .pow => powDerivativeRule child
    (result.numAggregate m).lift

/-- Each child paired with its derivative. -/
def derivativeList (m : Mode) : List (Expr F) → Variable → List (DChild F)
  | [], _ => []
  | x :: xs, to => (x, derivative m x to) :: derivativeList m xs to
end

/-- mod.rs:80-100, the overloads whose target is an expression (by value and by reference). -/
def derivativeExpr (m : Mode) (self to : Expr F) : Out (DerivativeError F) (Expr F) :=
  match to.toVariable with
  | none => .err { errSrc := to }
  | some v => self.derivative m v

end Expr
end SymRust
