import Verif.Proofs.EndLink
/-! # Theorems: `limit` terminates (C53) -/

namespace SymRust
open Expr
variable {F : Type} [FloatOps F]

theorem ends_outcome {m : Mode} {x : Variable} {pt e : Expr F} {k : UInt64} (h : End.Ends m x pt k e) :
    (∃ z, LimitIs m e x pt k z) ∨ LimitErr m e x pt k ∨ LimitPanics m e x pt k := by
  obtain ⟨n, hn⟩ := h
  cases hl : limit m x pt k n e with
  | ok z => exact .inl ⟨z, n, hl⟩
  | err => exact .inr (.inl ⟨n, hl⟩)
  | panic => exact .inr (.inr ⟨n, hl⟩)
  | fuel => exact absurd hl hn

/-- C53: `limit` ends, with an answer, an error or a panic: on every expression, at every point, for every variable
and every `order_try`, in every build. -/
theorem C53_terminates (m : Mode) (e pt : Expr F) (he : Built m e) (ht : Built m pt) (x : Variable) (k : UInt64) :
    (∃ z, LimitIs m e x pt k z) ∨ LimitErr m e x pt k ∨ LimitPanics m e x pt k :=
  ends_outcome (End.ends ht.tree (he.mono fun _ h => h.valid))

theorem C53_not_diverges (m : Mode) (e pt : Expr F) (he : Built m e) (ht : Built m pt) (x : Variable) (k : UInt64) :
    ¬ LimitDiverges m e x pt k := by
  obtain ⟨n, hn⟩ : End.Ends m x pt k e := End.ends ht.tree (he.mono fun _ h => h.valid)
  exact fun h => hn (h n)

/-- Non-vacuous: exponentials, logarithms, negations and powers inside sines, and the number 0/3, which the arithmetic
never builds, meet the hypotheses. On the second expression every sum and product is rewritten. -/
theorem C53_example (m : Mode) :
    let x : Expr F := newVariable "x"
    let e : Expr F := ((x.exp.neg.sub (ofNum ⟨.rational ⟨1, 0, 3⟩, .zero⟩)).sin.div (x.pow x.ln).sin).mul (one.div x.exp.sin)
    let d : Expr F := ((one.div x).add (one.div x)).mul (x.mul (x.exp.neg.sin.div x))
    Built m e ∧ Built m d := by
  intro x e d
  have w1 : Built m (one : Expr F) := .num _ (.ofI64 1)
  have w0 : Built m (ofNum ⟨.rational ⟨1, 0, 3⟩, .zero⟩ : Expr F) := .num _ (.newRational 1 0 3 _ (by
    simp only [SmartNum.newRational, SmartNumVal.newRational, RationalNum.new]
    have : i64Abs m 1 = .ok 1 := by cases m <;> decide +kernel
    rw [this]; rfl))
  have wx : Built m x := .var _
  exact ⟨.mul _ _ (.div _ _ (.sin _ (.sub _ _ (.neg _ (.exp _ wx)) w0)) (.sin _ (.pow _ _ wx (.ln _ wx))))
      (.div _ _ w1 (.sin _ (.exp _ wx))),
    .mul _ _ (.add _ _ (.div _ _ w1 wx) (.div _ _ w1 wx)) (.mul _ _ wx (.div _ _ (.sin _ (.neg _ (.exp _ wx))) wx))⟩

end SymRust
