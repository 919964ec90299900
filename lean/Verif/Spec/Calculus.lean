import Verif.Spec.Semantics
import Mathlib.Analysis.Calculus.Deriv.Basic
/-! # Specification: the function of one variable that an expression denotes, and its derivative -/

namespace SymRust
variable {F : Type}
open Expr Filter Topology

/-- The assignment `env` with `x` set to `t`. -/
noncomputable def Env.set (env : Env) (x : Variable) (t : ℝ) : Env :=
  open Classical in fun y => if y = x then t else env y

/-- Near the point `env`, the value of `e` as a function of `x` (other variables fixed) is defined and has
derivative `d`. -/
def HasDerivative (ν : SmartNum F → Option ℝ) (env : Env) (x : Variable) (e : Expr F) (d : ℝ) : Prop :=
  ∃ g : ℝ → ℝ, (∀ᶠ t in 𝓝 (env x), denote ν (env.set x t) e = some (g t)) ∧ HasDerivAt g d (env x)

/-- The value of `e` as a function of `x`, the other variables as in `env` (0 where undefined). -/
noncomputable def Expr.fn (ν : SmartNum F → Option ℝ) (env : Env) (x : Variable) (e : Expr F) : ℝ → ℝ :=
  fun t => (denote ν (env.set x t) e).getD 0

/-- The assignments in which `x` has the value of `v`. -/
def AtPoint (ν : SmartNum F → Option ℝ) (x : Variable) (v : Expr F) : Set Env :=
  {env' | ∃ env p, denote ν env v = some p ∧ env' = env.set x p}

/-- Every power in `e` has, at `env`, a positive base; or a nonzero base and an exponent without `x`. -/
def PowOK (ν : SmartNum F → Option ℝ) (env : Env) (x : Variable) (e : Expr F) : Prop :=
  Everywhere (fun s => ∀ a b : Expr F, s = a.pow b →
    ∃ u, denote ν env a = some u ∧ (0 < u ∨ (u ≠ 0 ∧ ¬ Occurs x b))) e

end SymRust
