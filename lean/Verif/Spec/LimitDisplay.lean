import Verif.Spec.Display
import Verif.Model.Limit
/-! # Specification: which limit answers print alike (C75) -/

namespace SymRust
variable {F : Type}
open Expr

/-- The answers that are printed alike: the same kind of answer (finite ones up to grouping), 0 as an infinitesimal and
as a number, infinity and a variable of that name. -/
def SameText : LimitExpression F → LimitExpression F → Prop
  | .infinitesimal, .infinitesimal => True
  | .infinity, .infinity => True
  | .normal a, .normal b => Regroup a b
  | .infinitesimal, .normal b => b = ofI64 0
  | .normal a, .infinitesimal => a = ofI64 0
  | .infinity, .normal b => b = newVariable "infinity"
  | .normal a, .infinity => a = newVariable "infinity"
  | _, _ => False

/-- The expression in a finite answer, if any, is readable. -/
def ReadableAnswer [FloatOps F] (z : LimitExpression F) : Prop := ∀ a, z = .normal a → Readable a

end SymRust
