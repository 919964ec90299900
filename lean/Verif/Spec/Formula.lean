import Verif.Spec.Eval
/-! # Specification: computing a formula with the operators of numbers -/

namespace SymRust
variable {F : Type}

/-- A formula written with numbers, variables, `-`, `+`, `-`, `*` and `/`. -/
inductive Formula (F : Type) where
  | num (n : SmartNum F)
  | var (v : Variable)
  | neg (a : Formula F)
  | add (a b : Formula F)
  | sub (a b : Formula F)
  | mul (a b : Formula F)
  | div (a b : Formula F)

namespace Formula

/-- The formula built as an expression. -/
def expr : Formula F → Expr F
  | num n => .ofNum n
  | var v => .ofVar v
  | neg a => a.expr.neg
  | add a b => a.expr.add b.expr
  | sub a b => a.expr.sub b.expr
  | mul a b => a.expr.mul b.expr
  | div a b => a.expr.div b.expr

variable [FloatOps F]

/-- Computing the formula directly with the operators of numbers, variable `v` being `ρ v`; a panic of one operation is a
panic of the whole. -/
def compute (m : Mode) (ρ : Variable → SmartNum F) : Formula F → Res (SmartNum F)
  | num n => .ok n
  | var v => .ok (ρ v)
  | neg a => do (← a.compute m ρ).neg m
  | add a b => do (← a.compute m ρ).add m (← b.compute m ρ)
  | sub a b => do (← a.compute m ρ).sub m (← b.compute m ρ)
  | mul a b => do (← a.compute m ρ).mul m (← b.compute m ρ)
  | div a b => do (← a.compute m ρ).div m (← b.compute m ρ)

/-- Computing a formula whose numbers are all floats with the operations of f64. -/
def float? (ρ : Variable → F) : Formula F → Option F
  | num n => match n.value with
    | .real f => some f
    | _ => none
  | var v => some (ρ v)
  | neg a => do return FloatOps.neg (← a.float? ρ)
  | add a b => do return FloatOps.add (← a.float? ρ) (← b.float? ρ)
  | sub a b => do return FloatOps.sub (← a.float? ρ) (← b.float? ρ)
  | mul a b => do return FloatOps.mul (← a.float? ρ) (← b.float? ρ)
  | div a b => do return FloatOps.div (← a.float? ρ) (← b.float? ρ)

end Formula

/-- Not a fraction worth 0, 1 or -1 (such as 3/3). -/
def Tidy (x : SmartNum F) : Prop :=
  ∀ r, x.value = .rational r → x.exact? ≠ some 0 ∧ x.exact? ≠ some 1 ∧ x.exact? ≠ some (-1)

/-- All numbers that occur while computing the formula are tidy. -/
def Formula.AllTidy [FloatOps F] (m : Mode) (ρ : Variable → SmartNum F) : Formula F → Prop
  | .num n => Tidy n
  | .var v => Tidy (ρ v)
  | .neg a => a.AllTidy m ρ ∧ ∀ n, (Formula.neg a).compute m ρ = .ok n → Tidy n
  | .add a b => a.AllTidy m ρ ∧ b.AllTidy m ρ ∧ ∀ n, (Formula.add a b).compute m ρ = .ok n → Tidy n
  | .sub a b => a.AllTidy m ρ ∧ b.AllTidy m ρ ∧ ∀ n, (Formula.sub a b).compute m ρ = .ok n → Tidy n
  | .mul a b => a.AllTidy m ρ ∧ b.AllTidy m ρ ∧ ∀ n, (Formula.mul a b).compute m ρ = .ok n → Tidy n
  | .div a b => a.AllTidy m ρ ∧ b.AllTidy m ρ ∧ ∀ n, (Formula.div a b).compute m ρ = .ok n → Tidy n

/-- The list gives every variable of `e` the number `ρ` says; for a variable given twice the first counts. -/
def Gives (ρ : Variable → SmartNum F) (bs : List (Variable × SmartNum F)) (e : Expr F) : Prop :=
  ∀ v, Expr.Occurs v e → (bs.find? fun b => b.1.name == v.name) = some (v, ρ v)

end SymRust
