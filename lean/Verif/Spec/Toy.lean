import Verif.Model.Limit
import Verif.Model.Main
/-! A one-element float type and decidable equality of expressions, used only to evaluate concrete
float-free examples. -/
namespace SymRust

instance toyFloat : FloatOps Unit where
  add _ _ := ()
  sub _ _ := ()
  mul _ _ := ()
  div _ _ := ()
  neg _ := ()
  abs _ := ()
  lt _ _ := true
  ofI64 _ := ()
  ofU64 _ := ()
  pi := ()
  e := ()
  signumI64 _ := 0
  fmt3 _ := "?"

variable {F : Type} [DecidableEq F]

mutual
/-- equality test on trees -/
def Expr.decEq : (a b : Expr F) → Decidable (a = b)
  | .mk r c, .mk r' c' =>
    if h : r = r' then
      match Expr.decEqList c c' with
      | isTrue h' => isTrue (by rw [h, h'])
      | isFalse h' => isFalse (by intro he; cases he; exact h' rfl)
    else isFalse (by intro he; cases he; exact h rfl)
def Expr.decEqList : (a b : List (Expr F)) → Decidable (a = b)
  | [], [] => isTrue rfl
  | [], _ :: _ => isFalse (by simp)
  | _ :: _, [] => isFalse (by simp)
  | x :: xs, y :: ys =>
    match Expr.decEq x y with
    | isTrue h =>
      match Expr.decEqList xs ys with
      | isTrue h' => isTrue (by rw [h, h'])
      | isFalse h' => isFalse (by intro he; cases he; exact h' rfl)
    | isFalse h => isFalse (by intro he; cases he; exact h rfl)
end

instance : DecidableEq (Expr F) := Expr.decEq
deriving instance DecidableEq for LimitExpression
deriving instance DecidableEq for PartialExpansion
deriving instance DecidableEq for DerivativeError
deriving instance DecidableEq for TaylorExpansionError

end SymRust
