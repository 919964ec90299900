import Verif.Spec.Taylor
/-! # Specification: the polynomial that a printed expansion shows -/

namespace SymRust
variable {F : Type}
open Expr

/-- One term of a printed expansion as an expression: `c * b^k`. -/
def monomial (b : Expr F) (t : Nat × Expr F) : Expr F := t.2.mul (b.pow (ofI64 (Int64.ofNat t.1)))

/-- The sum of the terms, as `+` written without parentheses groups them: to the left. -/
def polynomial (b : Expr F) (t : Nat × Expr F) (ts : List (Nat × Expr F)) : Expr F :=
  ts.foldl (fun p u => p.add (monomial b u)) (monomial b t)

end SymRust
