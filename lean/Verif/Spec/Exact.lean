import Verif.Spec.Calculus
/-! # Specification: the exact meaning of numbers, for every float implementation

An `f64` that is not one of the two named constants is a rounded quantity: it has no exact meaning here.
Everything else does, so an expression over integers, fractions, `pi` and `e` has an exact real value, whatever
the float implementation does. -/

namespace SymRust
variable {F : Type}

/-- The exact real number a `SmartNum` stands for: `pi` is π, `e` is e, integers and fractions are themselves;
other floats, and fractions n/0, have none. -/
noncomputable def SmartNum.exactReal (x : SmartNum F) : Option ℝ :=
  match x.tag with
  | .pi => some Real.pi
  | .e => some (Real.exp 1)
  | _ => x.exact?.map fun q : ℚ => (q : ℝ)

/-- `e` contains no float other than the named constants `pi` and `e`. -/
def NoFloat (e : Expr F) : Prop :=
  ∀ n : SmartNum F, Subterm (Expr.ofNum n) e → n.tag = .pi ∨ n.tag = .e ∨ n.NonFloat

/-- `v` may be substituted for `x` without putting an `ln` into a power base of `e`. -/
def NoLnIntoBase (x : Variable) (v e : Expr F) : Prop :=
  ∀ a b : Expr F, Subterm (a.pow b) e → Expr.Occurs x a → NoLn v

/-- `e` stands for `r` at `env`: if `e` has an exact value it is `r`, and it does have one when it contains no
rounded float.  (Nothing is said about the digits of rounded floats.) -/
def StandsFor (env : Env) (e : Expr F) (r : ℝ) : Prop :=
  (∀ r', Expr.denote SmartNum.exactReal env e = some r' → r' = r) ∧
  (NoFloat e → Expr.denote SmartNum.exactReal env e = some r)

end SymRust
