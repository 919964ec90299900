import Verif.Spec.Limit
import Verif.Spec.Taylor
/-! # Specification: the attempts of L'Hôpital's rule (C93)

Attempt number `i` at the limit of `a / b` looks at the limits of the `i`-th derivatives of `a` and `b`. -/

namespace SymRust
open Expr
variable {F : Type} [FloatOps F]

/-- Attempt `i` finds the limits `A` and `B`. -/
def Attempt (m : Mode) (x : Variable) (pt : Expr F) (k : UInt64) (a b : Expr F) (i : Nat) (A B : LimitExpression F) : Prop :=
  ∃ a' b' : Expr F, nthDerivative m a x i = .ok a' ∧ nthDerivative m b x i = .ok b' ∧
    LimitIs m a' x pt k A ∧ LimitIs m b' x pt k B

/-- Attempts number 0 to `i - 1` all find limits that are 0/0 or Infinity/Infinity. -/
def NoneBefore (m : Mode) (x : Variable) (pt : Expr F) (k : UInt64) (a b : Expr F) (i : Nat) : Prop :=
  ∀ j < i, ∃ A B, Attempt m x pt k a b j A B ∧ Indeterminate A B

/-- The quotient of two answers that are not 0/0 or Infinity/Infinity. -/
inductive Quotient : LimitExpression F → LimitExpression F → LimitExpression F → Prop
  | byInfinity (A : LimitExpression F) : A ≠ .infinity → Quotient A .infinity .infinitesimal
  | infinity (B : LimitExpression F) : B ≠ .infinity → Quotient .infinity B .infinity
  | zero (d : Expr F) : d.isZero = false → Quotient .infinitesimal (.normal d) .infinitesimal
  | byZero (c : Expr F) : c.isZero = false → Quotient (.normal c) .infinitesimal .infinity
  | normal (c d : Expr F) : Quotient (.normal c) (.normal d) (.normal (c.div d))

/-- What is returned for the class `w`: Normal(c) is simplified first. -/
def Returned (m : Mode) (w z : LimitExpression F) : Prop :=
  match w with
  | .normal c => ∃ c', c.numAggregate m = .ok c' ∧ z = .normal c'
  | w => z = w

end SymRust
