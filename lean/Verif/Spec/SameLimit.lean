import Verif.Spec.LimitSem
/-! # Specification: the number a limit answer names (C84) -/

namespace SymRust
open Expr
variable {F : Type} [FloatOps F]

/-- A finite answer names the number `r`: Infinitesimal names 0, Normal(c) what `c` stands for. -/
def LimitExpression.Names (env : Env) : LimitExpression F → ℝ → Prop
  | .infinitesimal, r => r = 0
  | .normal c, r => StandsFor env c r
  | .infinity, _ => False
  | .boundedFluctuation, _ => False

end SymRust
