import Verif.Spec.Semantics
/-! # Specification: rounded float arithmetic and propagated error bounds -/

namespace SymRust
variable {F : Type}

/-- The standard model of floating-point arithmetic: finite floats stand for reals, an operation whose exact
result is at most `big` in absolute value (does not overflow) gives a finite float within relative error `u` of
the exact result, plus an absolute error `η` (underflow) for `*` and `/`.  IEEE-754 doubles satisfy this with
`u = 2^-53`, `η = 2^-1075` and `big` the largest finite double (`F64.rounding`). -/
structure Rounding (F : Type) [FloatOps F] where
  /-- the real a float stands for; none for infinities and NaN -/
  val : F → Option ℝ
  u : ℝ
  η : ℝ
  big : ℝ
  u_nonneg : 0 ≤ u
  u_small : u ≤ 1 / 16
  η_nonneg : 0 ≤ η
  η_small : η ≤ 1 / 16
  big_large : 2 ^ 70 ≤ big
  add : ∀ a b x y, val a = some x → val b = some y → |x + y| ≤ big →
    ∃ z, val (FloatOps.add a b) = some z ∧ |z - (x + y)| ≤ u * |x + y|
  sub : ∀ a b x y, val a = some x → val b = some y → |x - y| ≤ big →
    ∃ z, val (FloatOps.sub a b) = some z ∧ |z - (x - y)| ≤ u * |x - y|
  mul : ∀ a b x y, val a = some x → val b = some y → |x * y| ≤ big →
    ∃ z, val (FloatOps.mul a b) = some z ∧ |z - x * y| ≤ u * |x * y| + η
  div : ∀ a b x y, val a = some x → val b = some y → y ≠ 0 → |x / y| ≤ big →
    ∃ z, val (FloatOps.div a b) = some z ∧ |z - x / y| ≤ u * |x / y| + η
  neg : ∀ a x, val a = some x → val (FloatOps.neg a) = some (-x)
  abs : ∀ a x, val a = some x → val (FloatOps.abs a) = some |x|
  lt : ∀ a b x y, val a = some x → val b = some y → (FloatOps.lt a b = true ↔ x < y)
  ofI64 : ∀ v : Int64, ∃ z, val (FloatOps.ofI64 v) = some z ∧ |z - v.toInt| ≤ u * |(v.toInt : ℝ)|
  ofU64 : ∀ v : UInt64, ∃ z, val (FloatOps.ofU64 v) = some z ∧ |z - v.toNat| ≤ u * (v.toNat : ℝ)
  pi : ∃ z, val FloatOps.pi = some z ∧ |z - Real.pi| ≤ u * Real.pi
  e : ∃ z, val FloatOps.e = some z ∧ |z - Real.exp 1| ≤ u * Real.exp 1

namespace Rounding
variable [FloatOps F] (R : Rounding F)

/-- The real number a `SmartNum` stands for: `pi` is π, `e` is e, integers and fractions are themselves, other
finite floats stand for their value. -/
noncomputable def real? (x : SmartNum F) : Option ℝ :=
  match x.tag, x.value with
  | .pi, _ => some Real.pi
  | .e, _ => some (Real.exp 1)
  | _, .real f => R.val f
  | _, _ => x.exact?.map fun q : ℚ => (q : ℝ)

/-- The error bound of a result that was within `D` of `r` before being rounded (at most: a fraction converted to
a float, which takes five float operations). -/
noncomputable def widen (r D : ℝ) : ℝ := D + (8 * R.u * (|r| + D) + 4 * R.η)

/-- The operators that are computed in floats. -/
def Computed : OperatorType → Prop
  | .add => True
  | .sub => True
  | .mul => True
  | .div => True
  | _ => False

/-- `Within env e r E`: the exact value of `e` at `env` is `r`, and error propagation bounds by `E` what rounding
can do to it.  At each operator, `D` bounds the effect of the errors of the operands: on operands anywhere within
their bounds the operation stays defined, within `D` of its exact result, and does not overflow. -/
inductive Within (env : Env) : Expr F → ℝ → ℝ → Prop
  | num (n : SmartNum F) (r : ℝ) : R.real? n = some r → Within env (Expr.ofNum n) r (R.widen r 0)
  | var (v : Variable) : Within env (Expr.ofVar v) (env v) 0
  | unary (op : AstOperator) (a : Expr F) (r₁ E₁ r D : ℝ) : Within env a r₁ E₁ →
      opValue op.descriptor [some r₁] = some r →
      (∀ x, |x - r₁| ≤ E₁ → ∃ w, opValue op.descriptor [some x] = some w ∧ |w - r| ≤ D) →
      Within env (.mk (.operator op) [a]) r (R.widen r D)
  | binary (op : AstOperator) (a b : Expr F) (r₁ E₁ r₂ E₂ r D : ℝ) : Within env a r₁ E₁ → Within env b r₂ E₂ →
      opValue op.descriptor [some r₁, some r₂] = some r →
      (∀ x y, |x - r₁| ≤ E₁ → |y - r₂| ≤ E₂ →
        ∃ w, opValue op.descriptor [some x, some y] = some w ∧ |w - r| ≤ D ∧ (Computed op.descriptor → |w| ≤ R.big)) →
      Within env (.mk (.operator op) [a, b]) r (R.widen r D)

/-- A magnitude in the range without overflow and underflow. -/
def InRange (A : ℝ) : Prop := 2 * A ≤ R.big ∧ 4 * R.η ≤ R.u * A

/-- `Arith e r A k`: `e` is built from numbers by arithmetic, its exact value is `r`, `A` bounds what it would be
if nothing cancelled (the value with every number replaced by its absolute value and `-` by `+`), and `k` counts
operations and numbers (those of a divisor twice).  Divisors may not contain cancellation. -/
inductive Arith : Expr F → ℝ → ℝ → ℕ → Prop
  | num (n : SmartNum F) (r A : ℝ) : R.real? n = some r → |r| ≤ A → R.InRange A → Arith (Expr.ofNum n) r A 1
  | neg (a : Expr F) (r A : ℝ) (k : ℕ) : Arith a r A k → Arith a.neg (-r) A (k + 1)
  | add (a b : Expr F) (r₁ r₂ A₁ A₂ A : ℝ) (k₁ k₂ : ℕ) : Arith a r₁ A₁ k₁ → Arith b r₂ A₂ k₂ →
      A₁ + A₂ ≤ A → R.InRange A → Arith (a.add b) (r₁ + r₂) A (k₁ + k₂ + 1)
  | sub (a b : Expr F) (r₁ r₂ A₁ A₂ A : ℝ) (k₁ k₂ : ℕ) : Arith a r₁ A₁ k₁ → Arith b r₂ A₂ k₂ →
      A₁ + A₂ ≤ A → R.InRange A → Arith (a.sub b) (r₁ - r₂) A (k₁ + k₂ + 1)
  | mul (a b : Expr F) (r₁ r₂ A₁ A₂ A : ℝ) (k₁ k₂ : ℕ) : Arith a r₁ A₁ k₁ → Arith b r₂ A₂ k₂ →
      A₁ * A₂ ≤ A → R.InRange A → Arith (a.mul b) (r₁ * r₂) A (k₁ + k₂ + 1)
  | div (a b : Expr F) (r₁ r₂ A₁ A : ℝ) (k₁ k₂ : ℕ) : Arith a r₁ A₁ k₁ → Arith b r₂ |r₂| k₂ → r₂ ≠ 0 →
      A₁ / |r₂| ≤ A → R.InRange A → Arith (a.div b) (r₁ / r₂) A (k₁ + 2 * k₂ + 1)

end Rounding
end SymRust
