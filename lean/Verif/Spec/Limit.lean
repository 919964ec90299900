import Verif.Model.Limit
/-! # Specification: the observable outcomes of `limit`

The model bounds the recursion depth; an outcome of the program is an outcome of the model for some
(equivalently, by `limit_outcome_unique`, every sufficiently large) bound.  `Diverges`: the recursion does
not end (the program overflows its stack). -/

namespace SymRust
variable {F : Type} [FloatOps F]

/-- `e.limit(x, pt, k)` returns `Ok(z)`. -/
def LimitIs (m : Mode) (e : Expr F) (x : Variable) (pt : Expr F) (k : UInt64) (z : LimitExpression F) : Prop :=
  ∃ n, Expr.limit m x pt k n e = .ok z
/-- `e.limit(x, pt, k)` returns `Err(NoValidLimitFound)`. -/
def LimitErr (m : Mode) (e : Expr F) (x : Variable) (pt : Expr F) (k : UInt64) : Prop :=
  ∃ n, Expr.limit m x pt k n e = .err
/-- `e.limit(x, pt, k)` panics. -/
def LimitPanics (m : Mode) (e : Expr F) (x : Variable) (pt : Expr F) (k : UInt64) : Prop :=
  ∃ n, Expr.limit m x pt k n e = .panic
/-- `e.limit(x, pt, k)` is `Normal` of what `num_aggregate` makes of `c`, or panics if that panics. -/
def LimitSimplified (m : Mode) (e : Expr F) (x : Variable) (pt : Expr F) (k : UInt64) (c : Expr F) : Prop :=
  match c.numAggregate m with
  | .ok c' => LimitIs m e x pt k (.normal c')
  | .panic => LimitPanics m e x pt k
/-- `e.limit(x, pt, k)` recurses forever. -/
def LimitDiverges (m : Mode) (e : Expr F) (x : Variable) (pt : Expr F) (k : UInt64) : Prop :=
  ∀ n, Expr.limit m x pt k n e = .fuel

/-- The answers for which the quotient is 0/0 or Infinity/Infinity. -/
def Indeterminate (A B : LimitExpression F) : Prop :=
  (A = .infinity ∧ B = .infinity) ∨ (A = .infinitesimal ∧ B = .infinitesimal) ∨
  (A = .infinitesimal ∧ ∃ d, B = .normal d ∧ d.isZero = true) ∨ (∃ c, A = .normal c ∧ c.isZero = true ∧ B = .infinitesimal)

end SymRust
