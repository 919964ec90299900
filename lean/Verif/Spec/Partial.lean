import Verif.Spec.Exact
import Verif.Model.Derivative
import Mathlib.Analysis.Calculus.Deriv.Basic
/-! # Specification: derivatives by several variables in turn -/

namespace SymRust
variable {F : Type} [FloatOps F]
open Expr

/-- `e.derivative(x₁).derivative(x₂)…` for the variables of the list in order, stopping at the first failure. -/
def partials (m : Mode) (e : Expr F) : List Variable → Out (DerivativeError F) (Expr F)
  | [] => .ok e
  | x :: xs => match e.derivative m x with
    | .ok d => partials m d xs
    | .err r => .err r
    | .panic => .panic

/-- The partial derivative of a function of all variables by the variable `x`. -/
noncomputable def partialBy (x : Variable) (f : Env → ℝ) : Env → ℝ :=
  fun env => deriv (fun t => f (env.set x t)) (env x)

/-- The partial derivatives by the variables of the list, in order. -/
noncomputable def partialsBy : List Variable → (Env → ℝ) → Env → ℝ
  | [], f => f
  | x :: xs, f => partialsBy xs (partialBy x f)

/-- The value of `e` as a function of all variables (0 where undefined). -/
noncomputable def Expr.fnAll (ν : SmartNum F → Option ℝ) (e : Expr F) : Env → ℝ :=
  fun env => (denote ν env e).getD 0

end SymRust
