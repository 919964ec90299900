import Verif.Spec.Rounding
import Verif.Spec.Calculus
/-! # Specification: enclosures of rounded evaluations, derivatives by the textbook rules -/

namespace SymRust
variable {F : Type}
open Expr

/-- Ranges for the variables. -/
abbrev Ranges := Variable → Set ℝ

/-- The ranges `V` with that of `x` replaced by `S`. -/
noncomputable def Ranges.set (V : Ranges) (x : Variable) (S : Set ℝ) : Ranges :=
  open Classical in fun y => if y = x then S else V y

/-- The assignments with every variable in its range. -/
def Ranges.envs (V : Ranges) : Set Env := {env | ∀ v, env v ∈ V v}

namespace Rounding
variable [FloatOps F] (R : Rounding F)

/-- What rounding can make of the exact result `w` (at most: a fraction converted to a float, which takes five
float operations). -/
def blur (w : ℝ) : Set ℝ := {z | |z - w| ≤ 8 * R.u * |w| + 4 * R.η}

/-- `Encloses V e S`: with the variables anywhere in their ranges `V` and rounding at every number and every operator,
every evaluation of `e` is defined, does not overflow and ends in `S`. -/
inductive Encloses (V : Ranges) : Expr F → Set ℝ → Prop
  | num (n : SmartNum F) (r : ℝ) (S : Set ℝ) : R.real? n = some r → R.blur r ⊆ S → Encloses V (ofNum n) S
  | var (v : Variable) (S : Set ℝ) : V v ⊆ S → Encloses V (ofVar v) S
  | unary (op : AstOperator) (a : Expr F) (S₁ S : Set ℝ) : Encloses V a S₁ →
      (∀ x ∈ S₁, ∃ w, opValue op.descriptor [some x] = some w ∧ R.blur w ⊆ S) →
      Encloses V (.mk (.operator op) [a]) S
  | binary (op : AstOperator) (a b : Expr F) (S₁ S₂ S : Set ℝ) : Encloses V a S₁ → Encloses V b S₂ →
      (∀ x ∈ S₁, ∀ y ∈ S₂, ∃ w, opValue op.descriptor [some x, some y] = some w ∧ R.blur w ⊆ S ∧
        (Computed op.descriptor → |w| ≤ R.big)) →
      Encloses V (.mk (.operator op) [a, b]) S

/-- Error propagation shows, for some ranges in `𝒱`, that `e` is not `c`. -/
def Differs (𝒱 : Set Ranges) (e : Expr F) (c : ℝ) : Prop :=
  ∃ V ∈ 𝒱, V.envs.Nonempty ∧ ∃ S, R.Encloses V e S ∧ c ∉ S

/-- The C30 restrictions in the presence of rounding: arguments of `cos` and `sin` differ from π, bases of powers differ
from 0 and 1 and contain no `ln`. -/
structure ClearAt (𝒱 : Set Ranges) (s : Expr F) : Prop where
  cos : ∀ a : Expr F, s = a.cos → R.Differs 𝒱 a Real.pi
  sin : ∀ a : Expr F, s = a.sin → R.Differs 𝒱 a Real.pi
  pow_zero : ∀ a b : Expr F, s = a.pow b → R.Differs 𝒱 a 0
  pow_one : ∀ a b : Expr F, s = a.pow b → R.Differs 𝒱 a 1
  pow_ln : ∀ a b : Expr F, s = a.pow b → NoLn a

/-- `ClearAt` at every subexpression. -/
def Clear (𝒱 : Set Ranges) (e : Expr F) : Prop := Everywhere (R.ClearAt 𝒱) e

/-- The ranges in which that of `x` encloses the evaluations of `v`. -/
def Around (x : Variable) (v : Expr F) : Set Ranges :=
  {V' | ∃ V T, V.envs.Nonempty ∧ R.Encloses V v T ∧ V' = V.set x T}

/-- `e` is 0 whenever `x` is, by inspection. -/
inductive Vanishes (x : Variable) : Expr F → Prop
  | num (n : SmartNum F) : n.isZero = true → Vanishes x (ofNum n)
  | var : Vanishes x (ofVar x)
  | neg (a : Expr F) : Vanishes x a → Vanishes x a.neg
  | sin (a : Expr F) : Vanishes x a → Vanishes x a.sin
  | add (a b : Expr F) : Vanishes x a → Vanishes x b → Vanishes x (a.add b)
  | sub (a b : Expr F) : Vanishes x a → Vanishes x b → Vanishes x (a.sub b)
  | mul_left (a b : Expr F) : Vanishes x a → Vanishes x (a.mul b)
  | mul_right (a b : Expr F) : Vanishes x b → Vanishes x (a.mul b)
  | div (a b : Expr F) : Vanishes x a → Vanishes x (a.div b)

/-- At the literal point 0, every `sin` in `e` has an argument whose sine is exactly 0 there (C43). -/
def SinZero (env : Env) (x : Variable) (pt : Expr F) (p : ℝ) (e : Expr F) : Prop :=
  pt.isZero = true → ∀ a : Expr F, Subterm a.sin e → ∃ w, denote R.real? (env.set x p) a = some w ∧ Real.sin w = 0

end Rounding

open Classical in
mutual
/-- The derivative by the textbook rules, without any simplification. -/
noncomputable def Expr.textbook (x : Variable) : Expr F → Expr F
  | .mk (.operand (.num _)) _ => ofI64 0
  | .mk (.operand (.var v)) _ => if x.name = v.name then ofI64 1 else ofI64 0
  | .mk (.operator op) child => match op.descriptor, child, textbookList x child with
    | .neg, [_], [a'] => a'.neg
    | .add, [_, _], [a', b'] => a'.add b'
    | .sub, [_, _], [a', b'] => a'.sub b'
    | .mul, [a, b], [a', b'] => (a'.mul b).add (a.mul b')
    | .div, [a, b], [a', b'] => ((a'.mul b).sub (a.mul b')).div (b.mul b)
    | .sin, [a], [a'] => a.cos.mul a'
    | .cos, [a], [a'] => a.sin.neg.mul a'
    | .exp, [a], [a'] => a'.mul a.exp
    | .ln, [a], [a'] => a'.div a
    | .pow, [a, b], [a', b'] => if Occurs x b then (a.pow b).mul ((b'.mul a.ln).add ((b.mul a').div a))
        else (a.pow b).mul ((b.mul a').div a)
    | _, _, _ => ofI64 0
noncomputable def Expr.textbookList (x : Variable) : List (Expr F) → List (Expr F)
  | [] => []
  | e :: es => textbook x e :: textbookList x es
end

/-- `e` is written with numbers, `x`, negation, `+`, `-`, `*` and `/`. -/
inductive Arithmetic (x : Variable) : Expr F → Prop
  | num (n : SmartNum F) : Arithmetic x (ofNum n)
  | var : Arithmetic x (ofVar x)
  | neg {a : Expr F} : Arithmetic x a → Arithmetic x a.neg
  | add {a b : Expr F} : Arithmetic x a → Arithmetic x b → Arithmetic x (a.add b)
  | sub {a b : Expr F} : Arithmetic x a → Arithmetic x b → Arithmetic x (a.sub b)
  | mul {a b : Expr F} : Arithmetic x a → Arithmetic x b → Arithmetic x (a.mul b)
  | div {a b : Expr F} : Arithmetic x a → Arithmetic x b → Arithmetic x (a.div b)

/-- The `k`-th derivative by the textbook rules. -/
noncomputable def Expr.textbookN (x : Variable) (e : Expr F) : Nat → Expr F
  | 0 => e
  | k + 1 => (textbookN x e k).textbook x

end SymRust
