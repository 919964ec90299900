import Verif.Spec.Exact
import Verif.Spec.Calculus
import Verif.Model.Taylor
import Mathlib.Algebra.Polynomial.Eval.Defs
/-! # Specification: expansions with exact coefficients (C81, C82) -/

namespace SymRust
variable {F : Type} [FloatOps F]
open Expr

/-- `v` can serve as a point: built with the API, under the restriction of C20, and with the value `p`. -/
structure PointAt (env : Env) (v : Expr F) (p : ℝ) : Prop where
  built : ∃ m, Built m v
  safe : Safe SmartNum.exactReal Set.univ v
  value : denote SmartNum.exactReal env v = some p

/-- The conditions of C34 on `e`, to be expanded by `x` at `v` with the value `p`. -/
structure Expandable (env : Env) (x : Variable) (v : Expr F) (p : ℝ) (e : Expr F) : Prop where
  built : ∃ m, Built m e
  safe : SafeD SmartNum.exactReal (AtPoint SmartNum.exactReal x v) e
  noLn : NoLnIntoBase x v e
  value : ∃ r, denote SmartNum.exactReal (env.set x p) e = some r
  pow : PowOK SmartNum.exactReal (env.set x p) x e

/-- Expanding `e` by `x` at `v` to order `n` succeeds without overflow, and coefficient `k` has the exact value `y k`. -/
def ExpandsTo (env : Env) (x : Variable) (v : Expr F) (n : UInt64) (e : Expr F) (y : ℕ → ℝ) : Prop :=
  ∃ t, e.taylorExpansion .strict x v n = .ok t ∧
    ∀ k, k ≤ n.toNat → ∃ c, t.coefficient[k]? = some c ∧ denote SmartNum.exactReal env c = some (y k)

/-- The polynomial u 0 + u 1 X + ... + u n X^n. -/
noncomputable def polynomialOf (n : ℕ) (u : ℕ → ℝ) : Polynomial ℝ :=
  ∑ k ∈ Finset.range (n + 1), Polynomial.C (u k) * Polynomial.X ^ k

end SymRust
