import Verif.Model.Taylor
/-! # Model of /repo/src/main.rs -/

namespace SymRust

/-- `.unwrap()` on a `Result` -/
def Out.unwrap {ε α : Type} : Out ε α → Res α
  | .ok a => .ok a
  | .err _ => .panic
  | .panic => .panic

/-- main.rs:12-21: the first block, with the variable, function, point and order of the source. -/
def mainBlock {F : Type} [FloatOps F] (m : Mode) (f : Expr F → Expr F) (point : Expr F) :
    Res String := do
  let x := Expr.newVariable "x"
  let fx := f x
  let s ← fx.display
  let t ← (fx.taylorExpansionExpr m x point 5).unwrap
  let d ← t.display m
  return "Taylor expansion of " ++ s ++ ": " ++ d

/-- main.rs:10-32: the printed lines. -/
def main (F : Type) [FloatOps F] (m : Mode) : Res (List String) := do
  let a ← mainBlock (F := F) m Expr.exp Expr.zero
  let b ← mainBlock (F := F) m Expr.ln Expr.one
  return ["Hello, world!", a, b]

end SymRust
