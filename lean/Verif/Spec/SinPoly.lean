import Verif.Spec.PosPoly
import Verif.Spec.Normal
/-! # Specification: positive polynomials in a variable and sines that vanish with it -/

namespace SymRust
variable {F : Type}
open Expr

/-- `e` is written with positive exact numbers, variables, `+`, `*`, and sines of such expressions that are 0 at x = 0;
`n` is the order of vanishing at x = 0 (the lowest power of `x` in the power series). -/
inductive SinPoly (x : Variable) : Nat → Expr F → Prop
  | num (n : SmartNum F) (q : ℚ) : n.exact? = some q → 0 < q → SinPoly x 0 (ofNum n)
  | self : SinPoly x 1 (ofVar x)
  | other (v : Variable) : x ≠ v → SinPoly x 0 (ofVar v)
  | add {i j : Nat} {a b : Expr F} : SinPoly x i a → SinPoly x j b → SinPoly x (min i j) (a.add b)
  | mul {i j : Nat} {a b : Expr F} : SinPoly x i a → SinPoly x j b → SinPoly x (i + j) (a.mul b)
  | sin {i : Nat} {a : Expr F} : SinPoly x i a → 0 < i → SinPoly x i a.sin

/-- A sine occurs in `e`. -/
def HasSin (e : Expr F) : Prop := ∃ a : Expr F, Subterm a.sin e

end SymRust
