import Verif.Model.Expr
import Verif.Spec.Number
/-! # Specification: expressions built with the API, their variables, size and depth -/

namespace SymRust
variable {F : Type}

/-- Well-formed trees over leaves whose numbers satisfy `P`: exactly what the public constructors
(`from`, `new_variable`, the operators and `sin`, `cos`, `exp`, `ln`, `pow`) build. -/
inductive WF (P : SmartNum F → Prop) : Expr F → Prop
  | num (n : SmartNum F) : P n → WF P (.ofNum n)
  | var (v : Variable) : WF P (.ofVar v)
  | neg (a) : WF P a → WF P a.neg
  | add (a b) : WF P a → WF P b → WF P (a.add b)
  | sub (a b) : WF P a → WF P b → WF P (a.sub b)
  | mul (a b) : WF P a → WF P b → WF P (a.mul b)
  | div (a b) : WF P a → WF P b → WF P (a.div b)
  | sin (a) : WF P a → WF P a.sin
  | cos (a) : WF P a → WF P a.cos
  | exp (a) : WF P a → WF P a.exp
  | ln (a) : WF P a → WF P a.ln
  | pow (a b) : WF P a → WF P b → WF P (a.pow b)

/-- Expressions a program can build in build `m` with the public constructors. -/
def Built [FloatOps F] (m : Mode) (e : Expr F) : Prop := WF (SmartNum.Reachable m) e

/-- Well-formed, any numbers. -/
abbrev Tree (e : Expr F) : Prop := WF (fun _ => True) e

namespace Expr

mutual
/-- The variable `x` occurs in the expression. -/
def Occurs (x : Variable) : Expr F → Prop
  | .mk (.operand (.num _)) _ => False
  | .mk (.operand (.var y)) _ => y = x
  | .mk (.operator _) child => OccursList x child
def OccursList (x : Variable) : List (Expr F) → Prop
  | [] => False
  | e :: es => Occurs x e ∨ OccursList x es
end

mutual
/-- Number of nodes. -/
def size : Expr F → Nat
  | .mk _ child => 1 + sizeList child
def sizeList : List (Expr F) → Nat
  | [] => 0
  | e :: es => size e + sizeList es
end

mutual
/-- Height of the tree (a leaf has depth 1). -/
def depth : Expr F → Nat
  | .mk _ child => 1 + depthList child
def depthList : List (Expr F) → Nat
  | [] => 0
  | e :: es => max (depth e) (depthList es)
end

end Expr
end SymRust
