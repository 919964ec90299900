import Verif.Spec.LimitSem
/-! # Specification: which limits the search for one limit asks for (C51)

`limit` computes the limit of an expression from the limits of other expressions: operands, rewritten forms, and
derivatives of dividend and divisor.  `Asks` says which. -/

namespace SymRust
open Expr Filter Topology
variable {F : Type} [FloatOps F]

/-- The pairs (dividend, divisor) the L'Hôpital loop for `l / r` looks at: the operands themselves and, as long as the
quotient of the two answers is refused, their derivatives. -/
inductive Stage (m : Mode) (x : Variable) (pt : Expr F) (k : UInt64) (l r : Expr F) : Expr F → Expr F → Prop
  | start : Stage m x pt k l r l r
  | next {l' r' l'' r'' : Expr F} {a b : LimitExpression F} : Stage m x pt k l r l' r' →
      LimitIs m l' x pt k a → LimitIs m r' x pt k b → a.div b = none →
      l'.derivative m x = .ok l'' → r'.derivative m x = .ok r'' → Stage m x pt k l r l'' r''

/-- The limits that the search for the limit of the first expression asks for directly. -/
inductive AsksNow (m : Mode) (x : Variable) (pt : Expr F) (k : UInt64) : Expr F → Expr F → Prop
  | addLeft (l r : Expr F) : AsksNow m x pt k (l.add r) l
  | addRight (l r : Expr F) : AsksNow m x pt k (l.add r) r
  /-- ... + Infinity: `(l / r + 1) / (1 / r)` -/
  | addAgain (l r : Expr F) (a : LimitExpression F) : LimitIs m l x pt k a → LimitIs m r x pt k .infinity →
      a.add .infinity = none → AsksNow m x pt k (l.add r) (((l.div r).add one).div (one.div r))
  | mulLeft (l r : Expr F) : AsksNow m x pt k (l.mul r) l
  | mulRight (l r : Expr F) : AsksNow m x pt k (l.mul r) r
  /-- Infinity * Infinitesimal: `r / (1 / l)` -/
  | mulAgainLeft (l r : Expr F) : LimitIs m l x pt k .infinity → LimitIs m r x pt k .infinitesimal →
      AsksNow m x pt k (l.mul r) (r.div (one.div l))
  /-- Infinitesimal * Infinity: `l / (1 / r)` -/
  | mulAgainRight (l r : Expr F) : LimitIs m l x pt k .infinitesimal → LimitIs m r x pt k .infinity →
      AsksNow m x pt k (l.mul r) (l.div (one.div r))
  | dividend (l r l' r' : Expr F) : Stage m x pt k l r l' r' → AsksNow m x pt k (l.div r) l'
  | divisor (l r l' r' : Expr F) : Stage m x pt k l r l' r' → AsksNow m x pt k (l.div r) r'

/-- The limits that the search for the limit of the first expression asks for, directly or indirectly. -/
inductive Asks (m : Mode) (x : Variable) (pt : Expr F) (k : UInt64) : Expr F → Expr F → Prop
  | refl (e : Expr F) : Asks m x pt k e e
  | step {e d d' : Expr F} : AsksNow m x pt k e d → Asks m x pt k d d' → Asks m x pt k e d'

/-- The product of the answers for `l` and `r` is not Infinity times a Normal answer in `Z`. -/
def MulFine (m : Mode) (x : Variable) (pt : Expr F) (k : UInt64) (Z : Expr F → Prop) (l r : Expr F) : Prop :=
  ∀ c, (LimitIs m l x pt k .infinity ∧ LimitIs m r x pt k (.normal c)) ∨
    (LimitIs m l x pt k (.normal c) ∧ LimitIs m r x pt k .infinity) → ¬ Z c

/-- The quotient of the answers for `l` and `r` is not one of: Infinitesimal or Normal over a Normal answer in `Z`;
a Normal answer in `Z` over Infinitesimal.  (Quotients that are refused are fine.) -/
def DivFine (m : Mode) (x : Variable) (pt : Expr F) (k : UInt64) (Z : Expr F → Prop) (l r : Expr F) : Prop :=
  (∀ a c, LimitIs m l x pt k a → a ≠ .infinity → LimitIs m r x pt k (.normal c) → a.div (.normal c) ≠ none → ¬ Z c) ∧
  (∀ c, LimitIs m l x pt k (.normal c) → c.isZero = false → LimitIs m r x pt k .infinitesimal → ¬ Z c)

/-- No step of the search for the limit of `e` multiplies or divides by a Normal answer in `Z` (taken to be: a Normal
answer of value 0) in one of the combinations that `MulFine` and `DivFine` exclude. -/
structure SearchFine (m : Mode) (x : Variable) (pt : Expr F) (k : UInt64) (Z : Expr F → Prop) (e : Expr F) : Prop where
  mul : ∀ l r, Asks m x pt k e (l.mul r) → MulFine m x pt k Z l r
  div : ∀ l r l' r', Asks m x pt k e (l.div r) → Stage m x pt k l r l' r' → DivFine m x pt k Z l' r'

/-- The hypotheses of C51 on an expression: built with the API; near the point (but not necessarily at it) it has a
value; arguments of `sin` and `cos` also have a value at the point (and at the literal point 0 that value has sine 0,
see C43); and the restrictions of C30 and C34. -/
structure Searchable (m : Mode) (env : Env) (x : Variable) (pt : Expr F) (p : ℝ) (e : Expr F) : Prop where
  built : Built m e
  defined : ∀ᶠ t in 𝓝[≠] p, ∃ r, denote SmartNum.exactReal (env.set x t) e = some r
  pow : ∀ᶠ t in 𝓝[≠] p, PowOK SmartNum.exactReal (env.set x t) x e
  safe : SafeD SmartNum.exactReal (AtPoint SmartNum.exactReal x pt) e
  ln : NoLnIntoBase x pt e
  trig : ∀ a : Expr F, Subterm a.sin e ∨ Subterm a.cos e → PowOK SmartNum.exactReal (env.set x p) x a ∧
    ∃ w, denote SmartNum.exactReal (env.set x p) a = some w ∧ (pt.isZero = true → Real.sin w = 0)

end SymRust
