import Verif.Spec.Expr
/-! # Specification: which expressions print alike (C47) -/

namespace SymRust
variable {F : Type}

/-- The five binary operators. -/
inductive BinOp where
  | add | sub | mul | div | pow
deriving DecidableEq, Repr

/-- The API operator. -/
def BinOp.app : BinOp → Expr F → Expr F → Expr F
  | .add => Expr.add
  | .sub => Expr.sub
  | .mul => Expr.mul
  | .div => Expr.div
  | .pow => Expr.pow

/-- How tightly an operator binds in the printed text. -/
def BinOp.level : BinOp → Nat
  | .add | .sub => 2
  | .mul => 3
  | .div | .pow => 4

/-- `Regroup a b`: `a` and `b` differ only in the grouping of operators that bind equally tightly:
`a o (b o' c)` against `(a o b) o' c`. -/
inductive Regroup : Expr F → Expr F → Prop
  | refl (a) : Regroup a a
  | symm {a b} : Regroup a b → Regroup b a
  | trans {a b c} : Regroup a b → Regroup b c → Regroup a c
  | shift (o o' : BinOp) (a b c) : o.level = o'.level → Regroup (o.app a (o'.app b c)) (o'.app (o.app a b) c)
  | bin (o : BinOp) {a a' b b'} : Regroup a a' → Regroup b b' → Regroup (o.app a b) (o.app a' b')
  | neg {a a'} : Regroup a a' → Regroup a.neg a'.neg
  | sin {a a'} : Regroup a a' → Regroup a.sin a'.sin
  | cos {a a'} : Regroup a a' → Regroup a.cos a'.cos
  | exp {a a'} : Regroup a a' → Regroup a.exp a'.exp
  | ln {a a'} : Regroup a a' → Regroup a.ln a'.ln

/-- A variable name that can be told from everything else: not empty, no space or parenthesis in it, not beginning
with a digit, a minus sign or the name of a function, and not the name of a constant. -/
def ReadableName (s : String) : Prop :=
  s.toList ≠ [] ∧ (∀ c ∈ s.toList, c ≠ ' ' ∧ c ≠ '(' ∧ c ≠ ')') ∧
  (∀ c ∈ s.toList.head?, c.isDigit = false ∧ c ≠ '-') ∧ s ≠ "pi" ∧ s ≠ "e" ∧
  ∀ k ∈ ["sin", "cos", "exp", "ln"], ¬ k.toList <+: s.toList

/-- Numbers whose text is not that of a negation and not rounded: integers from 0 on, pi, e and positive fractions. -/
def ReadableNum [FloatOps F] (n : SmartNum F) : Prop :=
  (∃ v : Int64, 0 ≤ v.toInt ∧ n = SmartNum.ofI64 v) ∨ n = SmartNum.pi ∨ n = SmartNum.e ∨
  ∃ a d : UInt64, n = ⟨.rational ⟨1, a, d⟩, .nothing⟩

/-- All leaves of the expression are readable. -/
inductive Readable [FloatOps F] : Expr F → Prop
  | num (n : SmartNum F) : ReadableNum n → Readable (.ofNum n)
  | var (v : Variable) : ReadableName v.name → Readable (.ofVar v)
  | bin (o : BinOp) (a b) : Readable a → Readable b → Readable (o.app a b)
  | neg (a) : Readable a → Readable a.neg
  | sin (a) : Readable a → Readable a.sin
  | cos (a) : Readable a → Readable a.cos
  | exp (a) : Readable a → Readable a.exp
  | ln (a) : Readable a → Readable a.ln

/-- No operator has a right operand whose outermost operator binds equally tightly. -/
inductive LeftGrouped : Expr F → Prop
  | num (n : SmartNum F) : LeftGrouped (.ofNum n)
  | var (v : Variable) : LeftGrouped (.ofVar v)
  | bin (o : BinOp) (a b) : LeftGrouped a → LeftGrouped b →
      (∀ (o' : BinOp) (c d : Expr F), b = o'.app c d → o'.level ≠ o.level) → LeftGrouped (o.app a b)
  | neg (a) : LeftGrouped a → LeftGrouped a.neg
  | sin (a) : LeftGrouped a → LeftGrouped a.sin
  | cos (a) : LeftGrouped a → LeftGrouped a.cos
  | exp (a) : LeftGrouped a → LeftGrouped a.exp
  | ln (a) : LeftGrouped a → LeftGrouped a.ln

/-- The same only for the operators for which the grouping matters: the right operand of a subtraction is not a sum or
a difference, the right operand of a division or power is not a quotient or a power. -/
inductive Unambiguous : Expr F → Prop
  | num (n : SmartNum F) : Unambiguous (.ofNum n)
  | var (v : Variable) : Unambiguous (.ofVar v)
  | bin (o : BinOp) (a b) : Unambiguous a → Unambiguous b →
      (o = .add ∨ o = .mul ∨ ∀ (o' : BinOp) (c d : Expr F), b = o'.app c d → o'.level ≠ o.level) →
      Unambiguous (o.app a b)
  | neg (a) : Unambiguous a → Unambiguous a.neg
  | sin (a) : Unambiguous a → Unambiguous a.sin
  | cos (a) : Unambiguous a → Unambiguous a.cos
  | exp (a) : Unambiguous a → Unambiguous a.exp
  | ln (a) : Unambiguous a → Unambiguous a.ln

end SymRust
