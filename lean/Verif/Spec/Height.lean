import Verif.Spec.Normal
import Verif.Spec.Number
import Verif.Spec.Subst
/-! # Specification: how large the fractions of an exact evaluation can get -/

namespace SymRust
variable {F : Type}
open Expr

/-- Nominator and denominator of a stored value written as a fraction without sign; at least 1 each, (1, 1) for
floats. -/
def SmartNumVal.height : SmartNumVal F → ℕ × ℕ
  | .integer v => (max 1 v.toInt.natAbs, 1)
  | .rational r => (max 1 r.nominator.toNat, max 1 r.denominator.toNat)
  | .real _ => (1, 1)

/-- Bounds for nominator and denominator of the result of an operation, from those of the arguments: the fractions of
schoolbook arithmetic before reduction. -/
def opHeight : OperatorType → List (ℕ × ℕ) → ℕ × ℕ
  | .neg, [a] => a
  | .exp, [a] => a
  | .ln, [a] => a
  | .add, [a, b] => (a.1 * b.2 + b.1 * a.2, a.2 * b.2)
  | .sub, [a, b] => (a.1 * b.2 + b.1 * a.2, a.2 * b.2)
  | .mul, [a, b] => (a.1 * b.1, a.2 * b.2)
  | .div, [a, b] => (a.1 * b.2, a.2 * b.1)
  | .pow, [a, b] => (max a.1 b.1, max a.2 b.2)
  | _, _ => (1, 1)

mutual
/-- Bounds for nominator and denominator of every number the expression can be folded to. -/
def Expr.height : Expr F → ℕ × ℕ
  | .mk (.operand (.num n)) _ => n.value.height
  | .mk (.operand (.var _)) _ => (1, 1)
  | .mk (.operator op) child => opHeight op.descriptor (heightList child)
def Expr.heightList : List (Expr F) → List (ℕ × ℕ)
  | [] => []
  | e :: es => height e :: heightList es
end

/-- The bounds are below 2^63. -/
def SmallAt (e : Expr F) : Prop := e.height.1 < 9223372036854775808 ∧ e.height.2 < 9223372036854775808

/-- The bounds of every subexpression are below 2^63. -/
def Small (e : Expr F) : Prop := Everywhere SmallAt e

mutual
/-- The derivative by the product, quotient, power and chain rules, without any simplification. -/
def Expr.rawDer (x : Variable) : Expr F → Expr F
  | .mk (.operand (.num _)) _ => ofI64 0
  | .mk (.operand (.var v)) _ => if x.name = v.name then ofI64 1 else ofI64 0
  | .mk (.operator op) child => match op.descriptor, child, rawDerList x child with
    | .neg, [_], [a'] => a'.neg
    | .add, [_, _], [a', b'] => a'.add b'
    | .sub, [_, _], [a', b'] => a'.sub b'
    | .mul, [a, b], [a', b'] => (a'.mul b).add (a.mul b')
    | .div, [a, b], [a', b'] => ((a'.mul b).sub (a.mul b')).div (b.mul b)
    | .sin, [a], [a'] => a.cos.mul a'
    | .cos, [a], [a'] => a.sin.neg.mul a'
    | .exp, [a], [a'] => a'.mul a.exp
    | .ln, [a], [a'] => a'.div a
    | .pow, [a, b], [a', b'] => (a.pow b).mul ((b'.mul a.ln).add ((b.mul a').div a))
    | _, _, _ => ofI64 0
def Expr.rawDerList (x : Variable) : List (Expr F) → List (Expr F)
  | [] => []
  | e :: es => rawDer x e :: rawDerList x es
end

/-- The `k`-th derivative by these rules. -/
def Expr.rawDerN (x : Variable) (e : Expr F) : Nat → Expr F
  | 0 => e
  | k + 1 => (rawDerN x e k).rawDer x

/-- The fractions met when the point `pt` is put into the quotient of the `n`-th derivatives of `f` and `g` stay below
2^63. -/
def StepSmall (f g pt : Expr F) (x : Variable) (n : Nat) : Prop :=
  Small (((f.rawDerN x n).div (g.rawDerN x n)).replace x pt)

mutual
/-- Number of leaves of the tree. -/
def Expr.leaves : Expr F → ℕ
  | .mk (.operand _) _ => 1
  | .mk (.operator _) child => leavesList child
def Expr.leavesList : List (Expr F) → ℕ
  | [] => 0
  | e :: es => leaves e + leavesList es
end

/-- An integer at most `B` in absolute value, a fraction with nominator and denominator at most `B`, or a float. -/
def SmartNum.UpTo (B : ℕ) (n : SmartNum F) : Prop :=
  (∀ v, n.value = .integer v → v.toInt.natAbs ≤ B) ∧
  (∀ r, n.value = .rational r → r.nominator.toNat ≤ B ∧ r.denominator.toNat ≤ B)

/-- All numbers in `e` are of that kind. -/
def NumbersUpTo (B : ℕ) (e : Expr F) : Prop := ∀ n : SmartNum F, Subterm (ofNum n) e → n.UpTo B

end SymRust
