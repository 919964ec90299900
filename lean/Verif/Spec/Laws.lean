import Verif.Spec.Normal
/-! # Specification: equal results up to how the constants 0, 1 and e are stored -/

namespace SymRust
variable {F : Type}

/-- Equal, or both a number recognised as 0, or both as 1, or both as e. -/
def SameUpToConst (a b : Expr F) : Prop :=
  a = b ∨ (a.isZero = true ∧ b.isZero = true) ∨ (a.isOne = true ∧ b.isOne = true) ∨ (a.isE = true ∧ b.isE = true)

/-- Both panic, or both succeed with the same expression up to how the constants 0, 1 and e are stored. -/
def SameResult (x y : Res (Expr F)) : Prop :=
  (x = .panic ∧ y = .panic) ∨ ∃ a b, x = .ok a ∧ y = .ok b ∧ SameUpToConst a b

/-- Both panic, or `x` succeeds and `y` gives a number recognised as 0. -/
def ZeroIfOk (x y : Res (Expr F)) : Prop :=
  (x = .panic ∧ y = .panic) ∨ ∃ a b, x = .ok a ∧ y = .ok b ∧ b.isZero = true

end SymRust
