import Verif.Model.Expr
/-! # Model of /repo/src/compute/substitute/mod.rs -/

namespace SymRust
variable {F : Type}

/-- mod.rs:16-17 -/
structure SubstituteError where
deriving DecidableEq, Repr

/-- mod.rs:19-23, `Display` -/
def SubstituteError.display (_ : SubstituteError) : String := "Cannot perform substitution"

/-- The loop `for expr in s.child { c.push(expr.substitute(src, v)?) }` (mod.rs:43-46): stops at the
first error. -/
def collect {ε α : Type} : List (Out ε α) → Out ε (List α)
  | [] => .ok []
  | x :: xs => do
    let a ← x
    let as ← collect xs
    return a :: as

namespace Expr

mutual
/-- mod.rs:25-53, `substitute(&Variable, &Expression)` (the `Into<Option<_>>` of a `&Variable` is
always `Some`). -/
def substitute : Expr F → Variable → Expr F → Out SubstituteError (Expr F)
  | .mk (.operand (.num n)) child, _, _ => .ok (.mk (.operand (.num n)) child)
  | .mk (.operand (.var x)) child, u, v =>
    if x.name = u.name then .ok v else .ok (.mk (.operand (.var x)) child)
  | .mk (.operator op) child, u, v => do
    let c ← collect (substituteList child u v)
    return .mk (.operator op) c

/-- `substitute` of each child. -/
def substituteList : List (Expr F) → Variable → Expr F → List (Out SubstituteError (Expr F))
  | [], _, _ => []
  | x :: xs, u, v => substitute x u v :: substituteList xs u v
end

/-- mod.rs:55-71, the overloads whose target is an expression (by value and by reference). -/
def substituteExpr (self u v : Expr F) : Out SubstituteError (Expr F) :=
  match u.toVariable with
  | none => .err {}
  | some u_ => self.substitute u_ v

end Expr
end SymRust
