import Verif.Spec.Overflow
import Verif.Spec.Expr
import Mathlib.Algebra.MvPolynomial.CommRing
/-! # Specification: expressions that write a polynomial with integer coefficients (C80) -/

namespace SymRust
variable {F : Type}
open Expr MvPolynomial

/-- `e` is made of integers, variables, unary `-`, `+`, `-` and `*`, and read in the commutative ring `R` it is the
polynomial `P`.  `R` is ℤ for the ordinary reading and ℤ/2^64 for the reading modulo 2^64. -/
inductive Writes (R : Type) [CommRing R] : Expr F → MvPolynomial Variable R → Prop
  | int (v : Int64) : Writes R (ofI64 v) (C (v.toInt : R))
  | var (v : Variable) : Writes R (ofVar v) (X v)
  | neg {a : Expr F} {p} : Writes R a p → Writes R a.neg (-p)
  | add {a b : Expr F} {p q} : Writes R a p → Writes R b q → Writes R (a.add b) (p + q)
  | sub {a b : Expr F} {p q} : Writes R a p → Writes R b q → Writes R (a.sub b) (p - q)
  | mul {a b : Expr F} {p q} : Writes R a p → Writes R b q → Writes R (a.mul b) (p * q)

end SymRust
