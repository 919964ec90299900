import Verif.Spec.Expr
import Verif.Model.Aggregate
/-! # Specification: subterms, normal forms, repeated passes, constant expressions -/

namespace SymRust
variable {F : Type}

/-- `s` occurs in `e` as a subtree. -/
inductive Subterm (s : Expr F) : Expr F → Prop
  | refl : Subterm s s
  | child (r : AstNode F) (c : List (Expr F)) (a : Expr F) : a ∈ c → Subterm s a → Subterm s (.mk r c)

/-- No simplification of the list in the documentation applies at the root of `s`. -/
structure NormalAt (s : Expr F) : Prop where
  neg : ∀ a : Expr F, s = a.neg → a.isNum = false
  add : ∀ a b : Expr F, s = a.add b → (a.isNum && b.isNum) = false ∧ a.isZero = false ∧ b.isZero = false
  sub : ∀ a b : Expr F, s = a.sub b → (a.isNum && b.isNum) = false ∧ a.isZero = false ∧ b.isZero = false
  mul : ∀ a b : Expr F, s = a.mul b → (a.isNum && b.isNum) = false ∧ a.isZero = false ∧
    b.isZero = false ∧ a.isOne = false ∧ b.isOne = false
  div : ∀ a b : Expr F, s = a.div b → (a.isNum && b.isNum) = false ∧ a.isZero = false
  sin : ∀ a : Expr F, s = a.sin → a.isZero = false ∧ a.isPi = false
  cos : ∀ a : Expr F, s = a.cos → a.isZero = false ∧ a.isPi = false
  exp : ∀ a : Expr F, s = a.exp → a.isZero = false ∧ a.isOne = false ∧ ∀ c : Expr F, a ≠ c.ln
  ln : ∀ a : Expr F, s = a.ln → a.isE = false ∧ a.isOne = false ∧ ∀ c : Expr F, a ≠ c.exp
  pow : ∀ a b : Expr F, s = a.pow b → a.isZero = false ∧ a.isOne = false ∧ ∀ c : Expr F, a ≠ c.ln

/-- No double negation at the root of `s`. -/
def NoDoubleNegAt (s : Expr F) : Prop := ∀ c : Expr F, s ≠ c.neg.neg

/-- No subtraction at the root of `s`. -/
def NoSubAt (s : Expr F) : Prop := ∀ a b : Expr F, s ≠ a.sub b

/-- Every subtree of `e` satisfies `P`. -/
def Everywhere (P : Expr F → Prop) (e : Expr F) : Prop := ∀ s, Subterm s e → P s

/-- `n` passes of `num_aggregate`. -/
def passes [FloatOps F] (m : Mode) : Nat → Expr F → Res (Expr F)
  | 0, e => .ok e
  | n + 1, e => do passes m n (← e.numAggregate m)

/-- Expressions made of exact numbers with `-`, `+`, `-`, `*`, `/`, and their exact rational value
(`none` if a divisor is 0 or a fraction has denominator 0). -/
inductive ConstValue : Expr F → Option ℚ → Prop
  | num (n : SmartNum F) : n.NonFloat → ConstValue (.ofNum n) n.exact?
  | neg {a p} : ConstValue a p → ConstValue a.neg (p.map (- ·))
  | add {a b p q} : ConstValue a p → ConstValue b q →
      ConstValue (a.add b) (p.bind fun x => q.map (x + ·))
  | sub {a b p q} : ConstValue a p → ConstValue b q →
      ConstValue (a.sub b) (p.bind fun x => q.map (x - ·))
  | mul {a b p q} : ConstValue a p → ConstValue b q →
      ConstValue (a.mul b) (p.bind fun x => q.map (x * ·))
  | div {a b p q} : ConstValue a p → ConstValue b q →
      ConstValue (a.div b) (p.bind fun x => q.bind fun y => if y = 0 then none else some (x / y))

end SymRust
