import Lean.Elab.Tactic.Basic
import Lean.Meta.AppBuilder
/-! `krfl` closes `a = b` by `rfl`, leaving the computation to the kernel (which is what checks it): the
elaborator does not unfold well-founded recursion such as `gcd`, the kernel does.  No axiom is involved. -/
open Lean Elab Tactic Meta in
elab "krfl" : tactic => do
  let g ← getMainGoal
  let t ← instantiateMVars (← g.getType)
  let some (_, l, _) := t.eq? | throwError "krfl: not an equality"
  g.assign (← mkExpectedTypeHint (← mkEqRefl l) t)
