import Verif.Spec.Number
import Verif.Spec.Expr
import Verif.Spec.Semantics
/-! # Specification: polynomials with positive coefficients and their lowest power of a variable -/

namespace SymRust
variable {F : Type}
open Expr

/-- `e` is written with positive exact numbers, variables, `+` and `*`; multiplied out, the lowest power of `x` in it is
the `n`-th. -/
inductive PosPoly (x : Variable) : Nat → Expr F → Prop
  | num (n : SmartNum F) (q : ℚ) : n.exact? = some q → 0 < q → PosPoly x 0 (ofNum n)
  | self : PosPoly x 1 (ofVar x)
  | other (v : Variable) : x ≠ v → PosPoly x 0 (ofVar v)
  | add {i j : Nat} {a b : Expr F} : PosPoly x i a → PosPoly x j b → PosPoly x (min i j) (a.add b)
  | mul {i j : Nat} {a b : Expr F} : PosPoly x i a → PosPoly x j b → PosPoly x (i + j) (a.mul b)

end SymRust
