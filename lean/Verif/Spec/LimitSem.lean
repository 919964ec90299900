import Verif.Spec.Limit
import Verif.Spec.Exact
import Mathlib.Topology.Algebra.Order.Field
/-! # Specification: what a limit class says about a function -/

namespace SymRust
variable {F : Type}
open Filter Topology

/-- What an answer of `limit` says about a real function `f` along a filter `l` (for instance `𝓝[≠] p`,
"as t tends to p, t ≠ p"), at the assignment `env` of the other variables. -/
def LimitExpression.Describes (ν : SmartNum F → Option ℝ) (env : Env) {α : Type} (l : Filter α) (f : α → ℝ) :
    LimitExpression F → Prop
  | .infinitesimal => Tendsto f l (𝓝 0)
  | .infinity => Tendsto (fun t => |f t|) l atTop
  | .boundedFluctuation => ∃ C, ∀ᶠ t in l, |f t| ≤ C
  | .normal c => ∃ v, Expr.denote ν env c = some v ∧ Tendsto f l (𝓝 v)

/-- A `Normal` operand has a value other than 0 (no restriction on the other classes). -/
def LimitExpression.NonzeroNormal (ν : SmartNum F → Option ℝ) (env : Env) : LimitExpression F → Prop
  | .normal c => ∃ v, Expr.denote ν env c = some v ∧ v ≠ 0
  | _ => True

/-- As `Describes`, for every float implementation: a `Normal` answer stands for the limit as far as it has an exact
value (it has one when it contains no rounded float). -/
def LimitExpression.Tells (env : Env) {α : Type} (l : Filter α) (f : α → ℝ) : LimitExpression F → Prop
  | .infinitesimal => Tendsto f l (𝓝 0)
  | .infinity => Tendsto (fun t => |f t|) l atTop
  | .boundedFluctuation => ∃ C, ∀ᶠ t in l, |f t| ≤ C
  | .normal c => ∃ v, StandsFor env c v ∧ Tendsto f l (𝓝 v)

/-- At the literal point 0, every `sin` in `e` has an argument whose sine is 0 there (C43). -/
def SinOK (env : Env) (x : Variable) (pt : Expr F) (p : ℝ) (e : Expr F) : Prop :=
  pt.isZero = true → ∀ a : Expr F, Subterm a.sin e →
    ∃ w, Expr.denote SmartNum.exactReal (env.set x p) a = some w ∧ Real.sin w = 0

/-- The same for the arguments of `sin` and of `cos` (whose derivative contains a `sin`). -/
def TrigOK (env : Env) (x : Variable) (pt : Expr F) (p : ℝ) (e : Expr F) : Prop :=
  pt.isZero = true → ∀ a : Expr F, Subterm a.sin e ∨ Subterm a.cos e →
    ∃ w, Expr.denote SmartNum.exactReal (env.set x p) a = some w ∧ Real.sin w = 0

end SymRust
