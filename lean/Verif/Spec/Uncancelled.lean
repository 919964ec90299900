import Verif.Spec.Number
import Verif.Spec.Expr
import Verif.Spec.Semantics
import Mathlib.Data.Sign.Basic
/-! # Specification: polynomials, their terms in a variable, and the absence of cancellation -/

namespace SymRust
variable {F : Type}
open Expr

/-- `e` is written with exact numbers other than 0, variables, `+` and `*`. -/
inductive PolyForm : Expr F → Prop
  | num (n : SmartNum F) (q : ℚ) : n.exact? = some q → q ≠ 0 → PolyForm (ofNum n)
  | var (v : Variable) : PolyForm (ofVar v)
  | add {a b : Expr F} : PolyForm a → PolyForm b → PolyForm (a.add b)
  | mul {a b : Expr F} : PolyForm a → PolyForm b → PolyForm (a.mul b)

/-- A sign, + or -, for every variable. -/
structure Signs where
  sign : Variable → SignType
  ne : ∀ v, sign v ≠ 0

/-- All variables positive. -/
def Signs.positive : Signs := ⟨fun _ => 1, fun _ => one_ne_zero⟩

/-- Multiplied out, and nothing collected, `e` has a term with `x` to the power `d`, whose coefficient has the sign `s`
when the variables have the signs `σ`. -/
inductive HasTerm (σ : Signs) (x : Variable) : SignType → Nat → Expr F → Prop
  | num (n : SmartNum F) (q : ℚ) : n.exact? = some q → q ≠ 0 → HasTerm σ x (SignType.sign q) 0 (ofNum n)
  | self : HasTerm σ x 1 1 (ofVar x)
  | other (v : Variable) : x ≠ v → HasTerm σ x (σ.sign v) 0 (ofVar v)
  | left {s : SignType} {d : Nat} {a b : Expr F} : HasTerm σ x s d a → HasTerm σ x s d (a.add b)
  | right {s : SignType} {d : Nat} {a b : Expr F} : HasTerm σ x s d b → HasTerm σ x s d (a.add b)
  | mul {s t : SignType} {i j : Nat} {a b : Expr F} : HasTerm σ x s i a → HasTerm σ x t j b → HasTerm σ x (s * t) (i + j) (a.mul b)

/-- When the variables have the signs `σ`, the terms of `e` with the same power of `x` have the same sign (so none of them
cancel), and `i` is the lowest power that occurs. -/
structure Uncancelled (σ : Signs) (x : Variable) (i : Nat) (e : Expr F) : Prop where
  form : PolyForm e
  signs : ∀ s t d, HasTerm σ x s d e → HasTerm σ x t d e → s = t
  occurs : ∃ s, HasTerm σ x s i e
  lowest : ∀ s d, HasTerm σ x s d e → i ≤ d

end SymRust
