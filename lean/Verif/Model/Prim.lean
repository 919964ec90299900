/-!
# Machine-level primitives

Outcomes (value / error / panic), build modes, and the `i64`/`u64` operations used by /repo.
Nothing here is specific to one Rust file; it models the Rust operators that the cited files use.
-/

namespace SymRust

/-- How integer overflow behaves.  Cargo.toml (/repo/Cargo.toml:1-8) sets no profile options, so
`cargo build`/`cargo test` panics on overflow (`debug`) and `cargo build --release` wraps (`release`).
`strict` is not a build: it is `debug` plus an abort on every `u64 as i64` cast that changes the
number, and is used to say "nothing wrapped in this run". -/
inductive Mode where
  | debug
  | release
  | strict
deriving DecidableEq, Repr

/-- Result of a Rust function that may panic. -/
inductive Res (α : Type) where
  | ok (a : α)
  | panic
deriving DecidableEq, Repr

namespace Res
variable {α β : Type}

def bind : Res α → (α → Res β) → Res β
  | .ok a, f => f a
  | .panic, _ => .panic

instance : Monad Res where
  pure := Res.ok
  bind := Res.bind

@[simp] theorem pure_eq (a : α) : (pure a : Res α) = .ok a := rfl
@[simp] theorem ok_bind (a : α) (f : α → Res β) : (Res.ok a >>= f) = f a := rfl
@[simp] theorem panic_bind (f : α → Res β) : ((Res.panic : Res α) >>= f) = .panic := rfl

end Res

/-- Result of a Rust function returning `Result<α, ε>` that may also panic. -/
inductive Out (ε α : Type) where
  | ok (a : α)
  | err (e : ε)
  | panic
deriving DecidableEq, Repr

namespace Out
variable {ε α β : Type}

/-- Sequencing with the `?` operator. -/
def bind : Out ε α → (α → Out ε β) → Out ε β
  | .ok a, f => f a
  | .err e, _ => .err e
  | .panic, _ => .panic

instance : Monad (Out ε) where
  pure := Out.ok
  bind := Out.bind

@[simp] theorem pure_eq (a : α) : (pure a : Out ε α) = .ok a := rfl
@[simp] theorem ok_bind (a : α) (f : α → Out ε β) : (Out.ok a >>= f) = f a := rfl
@[simp] theorem err_bind (e : ε) (f : α → Out ε β) : ((Out.err e : Out ε α) >>= f) = .err e := rfl
@[simp] theorem panic_bind (f : α → Out ε β) : ((Out.panic : Out ε α) >>= f) = .panic := rfl

end Out

/-- A call of an infallible function inside a fallible one. -/
def Res.lift {ε α : Type} : Res α → Out ε α
  | .ok a => .ok a
  | .panic => .panic

@[simp] theorem Res.lift_ok {ε α : Type} (a : α) : (Res.ok a).lift (ε := ε) = .ok a := rfl
@[simp] theorem Res.lift_panic {ε α : Type} : (Res.panic : Res α).lift (ε := ε) = .panic := rfl

/-- `z` fits in an `i64`. -/
def InI64 (z : Int) : Prop := -9223372036854775808 ≤ z ∧ z ≤ 9223372036854775807
instance (z : Int) : Decidable (InI64 z) := inferInstanceAs (Decidable (_ ∧ _))

/-- `n` fits in a `u64`. -/
def InU64 (n : Nat) : Prop := n ≤ 18446744073709551615
instance (n : Nat) : Decidable (InU64 n) := inferInstanceAs (Decidable (_ ≤ _))

/-- An arithmetic result: `wrapped` if the exact result fits; otherwise a panic, or `wrapped` in
release builds. -/
def checked {α : Type} (m : Mode) (fits : Prop) [Decidable fits] (wrapped : α) : Res α :=
  if fits then .ok wrapped
  else match m with
    | .release => .ok wrapped
    | .debug => .panic
    | .strict => .panic

/-- `a + b` on `i64` (e.g. /repo/src/smart_num/val_holder.rs:207, rational.rs:99). -/
def i64Add (m : Mode) (a b : Int64) : Res Int64 := checked m (InI64 (a.toInt + b.toInt)) (a + b)
/-- `a - b` on `i64` (e.g. val_holder.rs:231, rational.rs:118). -/
def i64Sub (m : Mode) (a b : Int64) : Res Int64 := checked m (InI64 (a.toInt - b.toInt)) (a - b)
/-- `a * b` on `i64` (e.g. val_holder.rs:258, rational.rs:97). -/
def i64Mul (m : Mode) (a b : Int64) : Res Int64 := checked m (InI64 (a.toInt * b.toInt)) (a * b)
/-- `-a` on `i64` (val_holder.rs:312, rational.rs:87). -/
def i64Neg (m : Mode) (a : Int64) : Res Int64 := checked m (InI64 (-a.toInt)) (-a)
/-- `a.abs()` on `i64` (rational.rs:58,101,120,177): overflows exactly at `i64::MIN`. -/
def i64Abs (m : Mode) (a : Int64) : Res Int64 :=
  checked m (InI64 a.toInt.natAbs) (if a < 0 then -a else a)
/-- `a.signum()` on `i64` (rational.rs:100,119,176; mod.rs:101). -/
def i64Signum (a : Int64) : Int64 := if a < 0 then -1 else if a = 0 then 0 else 1
/-- `a * b` on `u64` (rational.rs:97,98,102,136,137,152,153). -/
def u64Mul (m : Mode) (a b : UInt64) : Res UInt64 := checked m (InU64 (a.toNat * b.toNat)) (a * b)
/-- `a + b` on `u64` (/repo/src/compute/taylor_expansion/partial_expansion.rs:33). -/
def u64Add (m : Mode) (a b : UInt64) : Res UInt64 := checked m (InU64 (a.toNat + b.toNat)) (a + b)
/-- `a as i64` for `a : u64` (rational.rs:97,98; val_holder.rs:197): keeps the bits, never panics in
Rust.  The instrumented mode aborts when the number changes. -/
def castI64 (m : Mode) (a : UInt64) : Res Int64 :=
  match m with
  | .strict => if a.toNat ≤ 9223372036854775807 then .ok a.toInt64 else .panic
  | .debug => .ok a.toInt64
  | .release => .ok a.toInt64
/-- `a as u64` for `a : i64` (rational.rs:101,120,177): keeps the bits. -/
def castU64 (a : Int64) : UInt64 := a.toUInt64

/-- The operations on `f64` used by /repo.  The float type is a parameter of the whole model, so every
theorem holds for every implementation of these operations, in particular IEEE-754 doubles. -/
class FloatOps (F : Type) where
  add : F → F → F
  sub : F → F → F
  mul : F → F → F
  div : F → F → F
  neg : F → F
  abs : F → F
  /-- `x < y` -/
  lt : F → F → Bool
  /-- `v as f64` for `v : i64` -/
  ofI64 : Int64 → F
  /-- `v as f64` for `v : u64` -/
  ofU64 : UInt64 → F
  /-- `std::f64::consts::PI` -/
  pi : F
  /-- `std::f64::consts::E` -/
  e : F
  /-- `v.signum() as i64` -/
  signumI64 : F → Int64
  /-- `format!("{:.3}", v)` -/
  fmt3 : F → String

end SymRust
