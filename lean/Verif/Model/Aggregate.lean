import Verif.Model.Expr
/-! # Model of /repo/src/compute/num_aggregate/** -/

namespace SymRust
variable {F : Type}

/-- `child.pop().unwrap()`: the last element and the remaining vector, or a panic. -/
def pop {α : Type} (l : List α) : Res (α × List α) :=
  match l.getLast? with
  | some a => .ok (a, l.dropLast)
  | none => .panic

namespace Expr

/-- `x.to_smart_num().unwrap()` -/
def numUnwrap (x : Expr F) : Res (SmartNum F) :=
  match x.toSmartNum with
  | .ok n => .ok n
  | .error _ => .panic

variable [FloatOps F]

/-! The rules take the list of *aggregated* children: `child.pop().unwrap().num_aggregate()` becomes
popping the already aggregated (possibly `panic`) entry and binding it.  Entries that Rust never pops
are never inspected, so the behaviour is the same. -/

/-- rules/neg.rs:6-19 -/
def negEvalRule (m : Mode) (child : List (Res (Expr F))) : Res (Expr F) := do
  let (sub, _) ← pop child
  let sub ← sub
  if sub.isNum then
    return ofNum (← (← sub.numUnwrap).neg m)
  else
    match sub.root with
    | .operator op => match op.descriptor with
      | .neg => do
        let (c, _) ← pop sub.child
        return c
      | _ => return sub.neg
    | .operand _ => return sub.neg

/-- rules/add.rs:5-17 -/
def addEvalRule (m : Mode) (child : List (Res (Expr F))) : Res (Expr F) := do
  let (r, child) ← pop child
  let r ← r
  let (l, _) ← pop child
  let l ← l
  if l.isNum && r.isNum then
    return ofNum (← (← l.numUnwrap).add m (← r.numUnwrap))
  else if l.isZero then return r
  else if r.isZero then return l
  else return l.add r

/-- rules/sub.rs:5-17 -/
def subEvalRule (m : Mode) (child : List (Res (Expr F))) : Res (Expr F) := do
  let (r, child) ← pop child
  let r ← r
  let (l, _) ← pop child
  let l ← l
  if l.isNum && r.isNum then
    return ofNum (← (← l.numUnwrap).sub m (← r.numUnwrap))
  else if l.isZero then return r.neg
  else if r.isZero then return l
  else return l.sub r

/-- rules/mul.rs:5-19 -/
def mulEvalRule (m : Mode) (child : List (Res (Expr F))) : Res (Expr F) := do
  let (r, child) ← pop child
  let r ← r
  let (l, _) ← pop child
  let l ← l
  if l.isNum && r.isNum then
    return ofNum (← (← l.numUnwrap).mul m (← r.numUnwrap))
  else if l.isZero || r.isZero then return ofI64 0
  else if l.isOne then return r
  else if r.isOne then return l
  else return l.mul r

/-- rules/div.rs:5-15 -/
def divEvalRule (m : Mode) (child : List (Res (Expr F))) : Res (Expr F) := do
  let (r, child) ← pop child
  let r ← r
  let (l, _) ← pop child
  let l ← l
  if l.isNum && r.isNum then
    return ofNum (← (← l.numUnwrap).div m (← r.numUnwrap))
  else if l.isZero then return ofI64 0
  else return l.div r

omit [FloatOps F] in
/-- rules/sin.rs:5-19 -/
def sinEvalRule (child : List (Res (Expr F))) : Res (Expr F) := do
  let (sub, _) ← pop child
  let sub ← sub
  match sub.root with
  | .operand o => if o.isZero || o.isPi then return ofI64 0 else return sub.sin
  | .operator _ => return sub.sin

omit [FloatOps F] in
/-- rules/cos.rs:5-19 -/
def cosEvalRule (child : List (Res (Expr F))) : Res (Expr F) := do
  let (sub, _) ← pop child
  let sub ← sub
  match sub.root with
  | .operand o => if o.isZero || o.isPi then return ofI64 1 else return sub.cos
  | .operator _ => return sub.cos

/-- rules/exp.rs:7-27 -/
def expEvalRule (child : List (Res (Expr F))) : Res (Expr F) := do
  let (sub, _) ← pop child
  let sub ← sub
  match sub.root with
  | .operand o => match o with
    | .var _ => return sub.exp
    | .num v =>
      if v.isZero then return ofI64 1
      else if v.isOne then return Expr.e
      else return sub.exp
  | .operator op => match op.descriptor with
    | .ln => do
      let (c, _) ← pop sub.child
      return c
    | _ => return sub.exp

omit [FloatOps F] in
/-- rules/ln.rs:7-27 -/
def lnEvalRule (child : List (Res (Expr F))) : Res (Expr F) := do
  let (sub, _) ← pop child
  let sub ← sub
  match sub.root with
  | .operand o => match o with
    | .var _ => return sub.ln
    | .num v =>
      if v.isE then return Expr.one
      else if v.isOne then return Expr.zero
      else return sub.ln
  | .operator op => match op.descriptor with
    | .exp => do
      let (c, _) ← pop sub.child
      return c
    | _ => return sub.ln

omit [FloatOps F] in
/-- rules/pow.rs:7-28 -/
def powEvalRule (child : List (Res (Expr F))) : Res (Expr F) := do
  let (r, child) ← pop child
  let r ← r
  let (sub, _) ← pop child
  let sub ← sub
  match sub.root with
  | .operand o => match o with
    | .var _ => return sub.pow r
    | .num v =>
      if v.isZero then return ofI64 1
      else if v.isOne then return r
      else return sub.pow r
  | .operator op => match op.descriptor with
    | .ln => do
      let (c, _) ← pop sub.child
      return c
    | _ => return sub.pow r

mutual
/-- mod.rs:22-40, `num_aggregate`. -/
def numAggregate (m : Mode) : Expr F → Res (Expr F)
  | .mk (.operand o) child => .ok (.mk (.operand o) child)
  | .mk (.operator op) child =>
    let aggregated := numAggregateList m child
    match op.descriptor with
    | .neg => negEvalRule m aggregated
    | .add => addEvalRule m aggregated
    | .sub => subEvalRule m aggregated
    | .mul => mulEvalRule m aggregated
    | .div => divEvalRule m aggregated
    | .sin => sinEvalRule aggregated
    | .cos => cosEvalRule aggregated
    | .exp => expEvalRule aggregated
    | .ln => lnEvalRule aggregated
    | .pow => powEvalRule aggregated

/-- `num_aggregate` of each child. -/
def numAggregateList (m : Mode) : List (Expr F) → List (Res (Expr F))
  | [] => []
  | x :: xs => numAggregate m x :: numAggregateList m xs
end

end Expr
end SymRust
