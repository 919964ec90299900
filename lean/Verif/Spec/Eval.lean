import Verif.Spec.Number
import Verif.Spec.Expr
import Verif.Model.Substitute
/-! # Specification: evaluating an arithmetic expression over the rationals -/

namespace SymRust
variable {F : Type}
open Expr

/-- `e` is written with numbers that have an exact value, variables, `-`, `+`, `-`, `*` and `/`, and its value is `q`
when each variable `v` has the value `ρ v`.  No division by 0 occurs. -/
inductive RatValue (ρ : Variable → ℚ) : Expr F → ℚ → Prop
  | num (n : SmartNum F) (q : ℚ) : n.exact? = some q → RatValue ρ (ofNum n) q
  | var (v : Variable) : RatValue ρ (ofVar v) (ρ v)
  | neg {a : Expr F} {p : ℚ} : RatValue ρ a p → RatValue ρ a.neg (-p)
  | add {a b : Expr F} {p q : ℚ} : RatValue ρ a p → RatValue ρ b q → RatValue ρ (a.add b) (p + q)
  | sub {a b : Expr F} {p q : ℚ} : RatValue ρ a p → RatValue ρ b q → RatValue ρ (a.sub b) (p - q)
  | mul {a b : Expr F} {p q : ℚ} : RatValue ρ a p → RatValue ρ b q → RatValue ρ (a.mul b) (p * q)
  | div {a b : Expr F} {p q : ℚ} : RatValue ρ a p → RatValue ρ b q → q ≠ 0 → RatValue ρ (a.div b) (p / q)

/-- `e.substitute(x₁, n₁)?.substitute(x₂, n₂)?…` -/
def substituteAll (e : Expr F) : List (Variable × SmartNum F) → Out SubstituteError (Expr F)
  | [] => .ok e
  | (x, n) :: bs => e.substitute x (ofNum n) >>= fun s => substituteAll s bs

/-- The numbers given to the variables of `e` have the values `ρ`; for a variable given twice the first counts. -/
def Covers (ρ : Variable → ℚ) (bs : List (Variable × SmartNum F)) (e : Expr F) : Prop :=
  ∀ v, Occurs v e → ∃ n, (bs.find? fun b => b.1.name == v.name) = some (v, n) ∧ n.exact? = some (ρ v)

end SymRust
