import Verif.Spec.Expr
/-! # Specification: expressions that are written as polynomials in one variable -/

namespace SymRust
variable {F : Type}
open Expr

/-- `e` is written as a polynomial in `x` of degree at most `n`: built from `x` and expressions without `x` (of any
kind) by `-`, `+`, `*` and division by expressions without `x`; degrees add up under `*`. -/
inductive PolyIn (x : Variable) : Nat → Expr F → Prop
  | free {n : Nat} {e : Expr F} : ¬ Occurs x e → PolyIn x n e
  | var {n : Nat} : 1 ≤ n → PolyIn x n (ofVar x)
  | neg {n : Nat} {a : Expr F} : PolyIn x n a → PolyIn x n a.neg
  | add {n : Nat} {a b : Expr F} : PolyIn x n a → PolyIn x n b → PolyIn x n (a.add b)
  | sub {n : Nat} {a b : Expr F} : PolyIn x n a → PolyIn x n b → PolyIn x n (a.sub b)
  | mul {i j n : Nat} {a b : Expr F} : PolyIn x i a → PolyIn x j b → i + j ≤ n → PolyIn x n (a.mul b)
  | div {n : Nat} {a b : Expr F} : PolyIn x n a → ¬ Occurs x b → PolyIn x n (a.div b)

end SymRust
