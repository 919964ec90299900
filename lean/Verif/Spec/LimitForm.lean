import Verif.Spec.Normal
/-! # Specification: the expressions the limit rules cover -/

namespace SymRust
variable {F : Type}
open Expr

/-- Outside the arguments of `sin` and `cos`, `e` is made of numbers, variables, sums, products, and quotients by
expressions satisfying `D`.  (`sin` and `cos` may have any argument.) -/
inductive LimitForm (D : Expr F → Prop) : Expr F → Prop
  | num (n : SmartNum F) : LimitForm D (ofNum n)
  | var (v : Variable) : LimitForm D (ofVar v)
  | sin (a : Expr F) : LimitForm D a.sin
  | cos (a : Expr F) : LimitForm D a.cos
  | add {a b : Expr F} : LimitForm D a → LimitForm D b → LimitForm D (a.add b)
  | mul {a b : Expr F} : LimitForm D a → LimitForm D b → LimitForm D (a.mul b)
  | div {a b : Expr F} : LimitForm D a → LimitForm D b → D b → LimitForm D (a.div b)

/-- The same without any quotient outside the arguments of `sin` and `cos`. -/
def QuotientFree (e : Expr F) : Prop := LimitForm (fun _ => False) e

/-- `e` is made of numbers, variables, sums, products and quotients. -/
inductive FieldForm : Expr F → Prop
  | num (n : SmartNum F) : FieldForm (ofNum n)
  | var (v : Variable) : FieldForm (ofVar v)
  | add {a b : Expr F} : FieldForm a → FieldForm b → FieldForm (a.add b)
  | mul {a b : Expr F} : FieldForm a → FieldForm b → FieldForm (a.mul b)
  | div {a b : Expr F} : FieldForm a → FieldForm b → FieldForm (a.div b)

/-- `e` is made of numbers, variables, sums and products. -/
inductive RingForm : Expr F → Prop
  | num (n : SmartNum F) : RingForm (ofNum n)
  | var (v : Variable) : RingForm (ofVar v)
  | add {a b : Expr F} : RingForm a → RingForm b → RingForm (a.add b)
  | mul {a b : Expr F} : RingForm a → RingForm b → RingForm (a.mul b)

end SymRust
