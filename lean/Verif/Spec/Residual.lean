import Verif.Spec.Calculus
import Verif.Spec.Exact
/-! # Specification: an expression that has a value on a whole segment -/

namespace SymRust
variable {F : Type}
open Expr

/-- `e` has a value as a function of `x` on the whole segment between `p` and `s`. -/
def ValueBetween (env : Env) (x : Variable) (p s : ℝ) (e : Expr F) : Prop :=
  ∀ u ∈ Set.uIcc p s, (∃ r, denote SmartNum.exactReal (env.set x u) e = some r) ∧
    PowOK SmartNum.exactReal (env.set x u) x e

end SymRust
