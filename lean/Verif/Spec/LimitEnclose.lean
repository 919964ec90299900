import Verif.Spec.Enclose
import Verif.Spec.Limit
import Verif.Spec.Taylor
import Verif.Spec.Exact
/-! # Specification: error propagation through the rules of limits (C76) -/

namespace SymRust
variable {F : Type} [FloatOps F]
open Expr Filter Topology

/-- What error propagation says about a limit. -/
inductive Fate where
  /-- it is finite, and all evaluations, rounding at every step, are in `S` -/
  | within (S : Set ℝ)
  /-- it is infinite -/
  | infinite

namespace Rounding
variable (R : Rounding F)

/-- The setting: the limit of expressions of `x` as `x` tends to the expression `pt`, of value `p`, with order `k`; the
other variables have the values `env` in the ranges `V`, and `T` encloses the evaluations of the point. -/
structure Setting (F : Type) where
  x : Variable
  pt : Expr F
  k : UInt64
  V : Ranges
  T : Set ℝ
  env : Env
  p : ℝ

/-- The setting is consistent: the point is built with the API and meets the restrictions of C20. -/
structure Setting.Ok (s : Setting F) (R : Rounding F) (m : Mode) : Prop where
  built : Built m s.pt
  clear : R.Clear Set.univ s.pt
  encl : R.Encloses s.V s.pt s.T
  mem : s.env ∈ s.V.envs
  val : denote R.real? s.env s.pt = some s.p

/-- Near the point (not necessarily at it) `e` has a value. -/
def DefinedNear (s : Setting F) (e : Expr F) : Prop :=
  ∀ᶠ t in 𝓝[≠] s.p, ∃ r, denote R.real? (s.env.set s.x t) e = some r

/-- Conditions on an expression with a value at the point: those of C65 (there is a value, and near it the expression is
smooth). -/
structure ValueAt (s : Setting F) (m : Mode) (e : Expr F) : Prop where
  built : Built m e
  clear : R.Clear (R.Around s.x s.pt) e
  ln : NoLnIntoBase s.x s.pt e
  pow : PowOK R.real? (s.env.set s.x s.p) s.x e
  sin : R.SinZero s.env s.x s.pt s.p e

/-- The hypotheses of C66 on dividend and divisor: built with the API, with a value at the point, with the restrictions
of C64, and at the literal point 0 with arguments of `sin` and `cos` that visibly vanish (C43). -/
structure Quotable (m : Mode) (env : Env) (x : Variable) (pt : Expr F) (p : ℝ) (e : Expr F) : Prop where
  built : Built m e
  value : ∃ r, denote R.real? (env.set x p) e = some r
  clear : R.Clear (R.Around x pt) e
  ln : NoLnIntoBase x pt e
  pow : PowOK R.real? (env.set x p) x e
  trig : pt.isZero = true → ∀ a : Expr F, Subterm a.sin e ∨ Subterm a.cos e → Vanishes x a

/-- The search for the limit of `l / r` goes on after the `j`-th derivatives: the answers for them cannot be divided. -/
def GoesOn (s : Setting F) (l r : Expr F) (j : ℕ) : Prop :=
  ∃ dl dr a b, nthDerivative .strict l s.x j = .ok dl ∧ nthDerivative .strict r s.x j = .ok dr ∧
    LimitIs .strict dl s.x s.pt s.k a ∧ LimitIs .strict dr s.x s.pt s.k b ∧ a.div b = none

/-- Error propagation: `e` has a value at the point and is evaluated there; or it is a quotient whose `i`-th derivatives
are evaluated there, the search having gone on until then; or a sum, product or quotient of such.  A quotient has a pole
if the dividend differs from 0 and the divisor is answered to be 0. -/
inductive Tracks (s : Setting F) (m : Mode) : Expr F → Fate → Prop
  | value (e S) : R.ValueAt s m e → R.Encloses (s.V.set s.x s.T) e S → Tracks s m e (.within S)
  | lhopital (l r : Expr F) (i : ℕ) (S) : R.Quotable m s.env s.x s.pt s.p l → R.Quotable m s.env s.x s.pt s.p r →
      (∀ j < i, GoesOn s l r j) → R.Encloses (s.V.set s.x s.T) ((l.textbookN s.x i).div (r.textbookN s.x i)) S →
      Tracks s m (l.div r) (.within S)
  | add (a b S₁ S₂ S) : Tracks s m a (.within S₁) → Tracks s m b (.within S₂) →
      (∀ u ∈ S₁, ∀ v ∈ S₂, R.blur (u + v) ⊆ S ∧ |u + v| ≤ R.big) → Tracks s m (a.add b) (.within S)
  | mul (a b S₁ S₂ S) : Tracks s m a (.within S₁) → Tracks s m b (.within S₂) →
      (∀ u ∈ S₁, ∀ v ∈ S₂, R.blur (u * v) ⊆ S ∧ |u * v| ≤ R.big) → Tracks s m (a.mul b) (.within S)
  | div (a b S₁ S₂ S) : Tracks s m a (.within S₁) → Tracks s m b (.within S₂) →
      (∀ u ∈ S₁, ∀ v ∈ S₂, v ≠ 0 ∧ R.blur (u / v) ⊆ S ∧ |u / v| ≤ R.big) → Tracks s m (a.div b) (.within S)
  | overInfinite (a b S₁ S) : Tracks s m a (.within S₁) → Tracks s m b .infinite → (0 : ℝ) ∈ S →
      Tracks s m (a.div b) (.within S)
  | pole (a b S₁ S₂) : Tracks s m a (.within S₁) → (0 : ℝ) ∉ S₁ → Tracks s m b (.within S₂) →
      LimitIs .strict b s.x s.pt s.k .infinitesimal → Tracks s m (a.div b) .infinite
  | infiniteOver (a b S₂) : Tracks s m a .infinite → Tracks s m b (.within S₂) → Tracks s m (a.div b) .infinite
  | infiniteAdd (a b S₂) : Tracks s m a .infinite → Tracks s m b (.within S₂) → Tracks s m (a.add b) .infinite
  | addInfinite (a b S₁) : Tracks s m a (.within S₁) → Tracks s m b .infinite → Tracks s m (a.add b) .infinite
  | infiniteMul (a b S₂) : Tracks s m a .infinite → Tracks s m b (.within S₂) → (0 : ℝ) ∉ S₂ →
      Tracks s m (a.mul b) .infinite
  | mulInfinite (a b S₁) : Tracks s m a (.within S₁) → (0 : ℝ) ∉ S₁ → Tracks s m b .infinite →
      Tracks s m (a.mul b) .infinite
  | infiniteMulInfinite (a b) : Tracks s m a .infinite → Tracks s m b .infinite → Tracks s m (a.mul b) .infinite

end Rounding
end SymRust
