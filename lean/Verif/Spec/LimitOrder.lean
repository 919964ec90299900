import Verif.Spec.SameLimit
import Verif.Spec.LimitSearch
/-! # Specification: comparing limits (C92) -/

namespace SymRust
open Expr Filter Topology
variable {F : Type} [FloatOps F]

/-- A finite answer is exactly the number `r`: Infinitesimal is 0, Normal(c) has the exact value `r`. -/
def LimitExpression.Is (env : Env) : LimitExpression F → ℝ → Prop
  | .infinitesimal, r => r = 0
  | .normal c, r => denote SmartNum.exactReal env c = some r
  | .infinity, _ => False
  | .boundedFluctuation, _ => False

/-- The conditions of C51 on one question to `limit` (expression, variable, point, order), at the point `p`. -/
structure Question (env : Env) (x : Variable) (p : ℝ) (e pt : Expr F) (k : UInt64) : Prop where
  builtPoint : ∃ m, Built m pt
  point : denote SmartNum.exactReal env pt = some p
  safePoint : Safe SmartNum.exactReal Set.univ pt
  searchable : ∃ m, Searchable m env x pt p e
  fine : SearchFine .strict x pt k (fun c => StandsFor env c 0) e

/-- Near `p`, but not necessarily at it, the value of `a` is at most that of `b`. -/
def LeqNear (env : Env) (x : Variable) (p : ℝ) (a b : Expr F) : Prop :=
  ∀ᶠ t in 𝓝[≠] p, ∀ u v, denote SmartNum.exactReal (env.set x t) a = some u → denote SmartNum.exactReal (env.set x t) b = some v → u ≤ v

end SymRust
