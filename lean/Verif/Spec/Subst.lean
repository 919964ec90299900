import Verif.Spec.Expr
/-! # Specification: replacing a variable -/

namespace SymRust
variable {F : Type}
namespace Expr

mutual
/-- `e` with every leaf `x` replaced by `v`. -/
def replace : Expr F → Variable → Expr F → Expr F
  | .mk (.operand (.num n)) child, _, _ => .mk (.operand (.num n)) child
  | .mk (.operand (.var y)) child, x, v => if y = x then v else .mk (.operand (.var y)) child
  | .mk (.operator op) child, x, v => .mk (.operator op) (replaceList child x v)
def replaceList : List (Expr F) → Variable → Expr F → List (Expr F)
  | [], _, _ => []
  | e :: es, x, v => replace e x v :: replaceList es x v
end

mutual
/-- Number of leaves `x` in the expression. -/
def count (x : Variable) : Expr F → Nat
  | .mk (.operand (.num _)) _ => 0
  | .mk (.operand (.var y)) _ => if y = x then 1 else 0
  | .mk (.operator _) child => countList x child
def countList (x : Variable) : List (Expr F) → Nat
  | [] => 0
  | e :: es => count x e + countList x es
end

end Expr
end SymRust
