import Verif.Spec.Number
import Verif.Spec.Normal
import Mathlib.Analysis.SpecialFunctions.Pow.Real
import Mathlib.Analysis.SpecialFunctions.Trigonometric.Basic
/-! # Specification: the real number an expression stands for

The meaning of an expression at an assignment of real numbers to the variables, independent of the code
under test.  It is partial: division by 0, the logarithm of a number `≤ 0`, and a power without a real value
are undefined. -/

namespace SymRust
variable {F : Type}

/-- A float type whose arithmetic is exact: each float stands for a real number and the operations compute
without rounding.  (Real doubles round; theorems that assume this class are about the algorithm, and are
transferred to arbitrary floats by `Spec/Exact.lean` for results that contain no rounded float.) -/
class ExactFloat (F : Type) extends FloatOps F where
  val : F → ℝ
  val_add : ∀ a b, val (add a b) = val a + val b
  val_sub : ∀ a b, val (sub a b) = val a - val b
  val_mul : ∀ a b, val (mul a b) = val a * val b
  val_div : ∀ a b, val b ≠ 0 → val (div a b) = val a / val b
  val_neg : ∀ a, val (neg a) = -val a
  val_ofI64 : ∀ v : Int64, val (ofI64 v) = (v.toInt : ℝ)
  val_ofU64 : ∀ v : UInt64, val (ofU64 v) = (v.toNat : ℝ)
  val_pi : val pi = Real.pi
  val_e : val e = Real.exp 1

/-- The real number a `SmartNum` stands for: floats stand for `ExactFloat.val`, a fraction n/0 for nothing. -/
def SmartNum.value? [ExactFloat F] (x : SmartNum F) : Option ℝ :=
  match x.value with
  | .real f => some (ExactFloat.val f)
  | .integer _ => x.exact?.map fun q : ℚ => (q : ℝ)
  | .rational _ => x.exact?.map fun q : ℚ => (q : ℝ)

/-- `a ^ b` over the reals: a positive base with any exponent, base 0 with a nonnegative exponent, a negative
base with an integer exponent.  (On these, Mathlib's total real power is the usual one: `0 ^ 0 = 1`,
`0 ^ b = 0` for `b > 0`, and for an integer `n` it is the `n`-th power.) -/
noncomputable def powValue (a b : ℝ) : Option ℝ :=
  open Classical in
  if 0 < a ∨ (a = 0 ∧ 0 ≤ b) ∨ (a < 0 ∧ ∃ n : ℤ, b = n) then some (a ^ b) else none

/-- The real operation of each operator on the values of its operands. -/
noncomputable def opValue : OperatorType → List (Option ℝ) → Option ℝ
  | .neg, [some a] => some (-a)
  | .add, [some a, some b] => some (a + b)
  | .sub, [some a, some b] => some (a - b)
  | .mul, [some a, some b] => some (a * b)
  | .div, [some a, some b] => open Classical in if b = 0 then none else some (a / b)
  | .sin, [some a] => some (Real.sin a)
  | .cos, [some a] => some (Real.cos a)
  | .exp, [some a] => some (Real.exp a)
  | .ln, [some a] => open Classical in if 0 < a then some (Real.log a) else none
  | .pow, [some a, some b] => powValue a b
  | _, _ => none

/-- An assignment of real numbers to the variables. -/
abbrev Env := Variable → ℝ

namespace Expr

mutual
/-- The value of an expression at an assignment, given the value `ν` of each number. -/
noncomputable def denote (ν : SmartNum F → Option ℝ) (env : Env) : Expr F → Option ℝ
  | .mk (.operand (.num n)) _ => ν n
  | .mk (.operand (.var v)) _ => some (env v)
  | .mk (.operator op) child => opValue op.descriptor (denoteList ν env child)
noncomputable def denoteList (ν : SmartNum F → Option ℝ) (env : Env) : List (Expr F) → List (Option ℝ)
  | [] => []
  | e :: es => denote ν env e :: denoteList ν env es
end

end Expr

open Expr

/-- `e` takes, at some assignment in `E`, a value other than `c`. -/
def Avoids (ν : SmartNum F → Option ℝ) (E : Set Env) (e : Expr F) (c : ℝ) : Prop :=
  ∃ env ∈ E, ∃ r, denote ν env e = some r ∧ r ≠ c

/-- There is no `ln` in `e`. -/
def NoLn (e : Expr F) : Prop := ∀ a : Expr F, ¬ Subterm a.ln e

/-- The restriction of C20 at one subexpression: a `cos` argument is not constantly π on `E`; a power base is
not constantly 0 and not constantly 1 on `E`, and contains no `ln`. -/
structure SafeAt (ν : SmartNum F → Option ℝ) (E : Set Env) (s : Expr F) : Prop where
  cos : ∀ a : Expr F, s = a.cos → Avoids ν E a Real.pi
  pow_zero : ∀ a b : Expr F, s = a.pow b → Avoids ν E a 0
  pow_one : ∀ a b : Expr F, s = a.pow b → Avoids ν E a 1
  pow_ln : ∀ a b : Expr F, s = a.pow b → NoLn a

/-- The restriction of C20. -/
def Safe (ν : SmartNum F → Option ℝ) (E : Set Env) (e : Expr F) : Prop := Everywhere (SafeAt ν E) e

/-- The exact criterion: none of the four value-changing rewrites (C21) fires at `s`. -/
structure RuleSafeAt [FloatOps F] (m : Mode) (s : Expr F) : Prop where
  cos : ∀ a a' : Expr F, s = a.cos → a.numAggregate m = .ok a' → a'.isPi = false
  pow : ∀ a b a' : Expr F, s = a.pow b → a.numAggregate m = .ok a' →
    a'.isZero = false ∧ a'.isOne = false ∧ ∀ c : Expr F, a' ≠ c.ln

/-- None of the four value-changing rewrites (C21) fires anywhere in `e`. -/
def RuleSafe [FloatOps F] (m : Mode) (e : Expr F) : Prop := Everywhere (RuleSafeAt m) e

/-- The restriction of C30: as in C20, and no `sin` argument is constantly π on `E` either (its derivative
contains a `cos`). -/
def SafeD (ν : SmartNum F → Option ℝ) (E : Set Env) (e : Expr F) : Prop :=
  Safe ν E e ∧ Everywhere (fun s => ∀ a : Expr F, s = a.sin → Avoids ν E a Real.pi) e

end SymRust
