import Verif.Model.Taylor
/-! # Specification: iterated derivatives and the text of an expansion -/

namespace SymRust
variable {F : Type}
namespace Expr

/-- `e.derivative(x)` applied `k` times. -/
def nthDerivative [FloatOps F] (m : Mode) (e : Expr F) (x : Variable) : Nat → Out (DerivativeError F) (Expr F)
  | 0 => .ok e
  | k + 1 => do (← nthDerivative m e x k).derivative m x

end Expr

/-- The terms `(index, coefficient)` that are printed: all but the exact zeros. -/
def shownTerms (cs : List (Expr F)) : List (Nat × Expr F) :=
  ((List.range cs.length).zip cs).filter fun t => !t.2.isZero

end SymRust
