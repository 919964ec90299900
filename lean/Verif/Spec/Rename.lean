import Verif.Spec.Expr
import Verif.Model.Taylor
import Verif.Model.Limit
/-! # Specification: renaming variables -/

namespace SymRust
variable {F : Type}

mutual
/-- The expression with every variable `v` replaced by the variable `σ v`. -/
def Expr.rename (σ : Variable → Variable) : Expr F → Expr F
  | .mk (.operand (.num n)) c => .mk (.operand (.num n)) (renameList σ c)
  | .mk (.operand (.var v)) c => .mk (.operand (.var (σ v))) (renameList σ c)
  | .mk (.operator op) c => .mk (.operator op) (renameList σ c)
def Expr.renameList (σ : Variable → Variable) : List (Expr F) → List (Expr F)
  | [] => []
  | e :: es => rename σ e :: renameList σ es
end

/-- The expression in an error renamed. -/
def DerivativeError.rename (σ : Variable → Variable) (x : DerivativeError F) : DerivativeError F :=
  { errSrc := x.errSrc.rename σ }
def TaylorExpansionError.rename (σ : Variable → Variable) (x : TaylorExpansionError F) : TaylorExpansionError F :=
  { errExpr := x.errExpr.rename σ, reason := x.reason }

/-- Every expression in an expansion renamed. -/
def PartialExpansion.rename (σ : Variable → Variable) (p : PartialExpansion F) : PartialExpansion F :=
  { order := p.order, of := p.of.rename σ, at_ := p.at_.rename σ, coefficient := p.coefficient.map (Expr.rename σ),
    residual := p.residual.rename σ }

/-- The expression in a limit answer renamed. -/
def LimitExpression.rename (σ : Variable → Variable) : LimitExpression F → LimitExpression F
  | .infinitesimal => .infinitesimal
  | .infinity => .infinity
  | .boundedFluctuation => .boundedFluctuation
  | .normal e => .normal (e.rename σ)

end SymRust
