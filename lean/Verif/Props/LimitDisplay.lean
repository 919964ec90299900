import Verif.Props.Readback
import Verif.Props.LimitShape
import Verif.Props.Structure
import Verif.Props.Display
import Verif.Spec.LimitDisplay
import Verif.Spec.LimitSem
import Verif.Props.Semantics
/-! # The text of a limit answer (C75) -/

namespace SymRust
variable {F : Type}
open Expr

theorem Regroup.leaf {a b : Expr F} (h : Regroup a b) (o : AstOperand F) :
    a = .mk (.operand o) [] ↔ b = .mk (.operand o) [] := by
  induction h with
  | refl a => rfl
  | symm _ ih => exact ih.symm
  | trans _ _ i j => exact i.trans j
  | shift o o' a b c _ => cases o <;> cases o' <;> constructor <;> intro h <;> cases h
  | bin o _ _ _ _ => cases o <;> constructor <;> intro h <;> cases h
  | neg _ _ => constructor <;> intro h <;> cases h
  | sin _ _ => constructor <;> intro h <;> cases h
  | cos _ _ => constructor <;> intro h <;> cases h
  | exp _ _ => constructor <;> intro h <;> cases h
  | ln _ _ => constructor <;> intro h <;> cases h

variable [FloatOps F]

theorem readable_zero : Readable (ofI64 0 : Expr F) := .num _ (.inl ⟨0, by decide, rfl⟩)

theorem readable_infinity : Readable (newVariable "infinity" : Expr F) :=
  .var ⟨"infinity"⟩ ⟨by decide, by decide, by decide, by decide, by decide, by decide⟩

theorem display_eq_zero {a : Expr F} (ha : Readable a) : a.display = .ok "0" ↔ a = ofI64 0 := by
  have h0 : (ofI64 0 : Expr F).display = .ok "0" := by krfl
  rw [← h0, C47_iff _ _ ha readable_zero]
  refine ⟨fun h => (h.leaf _).2 rfl, ?_⟩
  rintro rfl; exact .refl _

theorem display_eq_infinity {a : Expr F} (ha : Readable a) : a.display = .ok "infinity" ↔ a = newVariable "infinity" := by
  have h0 : (newVariable "infinity" : Expr F).display = .ok "infinity" := rfl
  rw [← h0, C47_iff _ _ ha readable_infinity]
  refine ⟨fun h => (h.leaf _).2 rfl, ?_⟩
  rintro rfl; exact .refl _

/-- C75: what is printed for each kind of answer. -/
theorem C75_text : (LimitExpression.infinitesimal : LimitExpression F).display = .ok "0" ∧
    (LimitExpression.infinity : LimitExpression F).display = .ok "infinity" ∧
    ∀ a : Expr F, (LimitExpression.normal a).display = a.display := ⟨rfl, rfl, fun _ => rfl⟩

/-- C75: the answer of a limit can always be printed. -/
theorem C75_total (m : Mode) (e pt : Expr F) (x : Variable) (k : UInt64) (he : Built m e) (hp : Built m pt)
    (z : LimitExpression F) (h : LimitIs m e x pt k z) : ∃ s, z.display = .ok s := by
  cases z with
  | infinitesimal => exact ⟨_, rfl⟩
  | infinity => exact ⟨_, rfl⟩
  | boundedFluctuation => exact ⟨_, rfl⟩
  | normal a => exact C46_never_panics m a (C19_limit m e pt x k he hp a h)

/-- C75: which answers are printed alike. -/
theorem C75_iff (m m' : Mode) (e f pt qt : Expr F) (x y : Variable) (j k : UInt64) (z w : LimitExpression F)
    (he : Built m e) (hf : Built m' f) (h : LimitIs m e x pt j z) (h' : LimitIs m' f y qt k w)
    (hz : ReadableAnswer z) (hw : ReadableAnswer w) : z.display = w.display ↔ SameText z w := by
  obtain ⟨n, h⟩ := h
  obtain ⟨n', h'⟩ := h'
  have nz := limit_not_bf n e z he.tree h
  have nw := limit_not_bf n' f w hf.tree h'
  cases z with
  | boundedFluctuation => exact absurd rfl nz
  | infinitesimal =>
    cases w with
    | boundedFluctuation => exact absurd rfl nw
    | infinitesimal => simp [SameText]
    | infinity => simp [SameText, LimitExpression.display]
    | normal b => rw [SameText, ← display_eq_zero (hw b rfl)]; exact eq_comm
  | infinity =>
    cases w with
    | boundedFluctuation => exact absurd rfl nw
    | infinitesimal => simp [SameText, LimitExpression.display]
    | infinity => simp [SameText]
    | normal b => rw [SameText, ← display_eq_infinity (hw b rfl)]; exact eq_comm
  | normal a =>
    cases w with
    | boundedFluctuation => exact absurd rfl nw
    | infinitesimal => rw [SameText, ← display_eq_zero (hz a rfl)]; rfl
    | infinity => rw [SameText, ← display_eq_infinity (hz a rfl)]; rfl
    | normal b => exact C47_iff a b (hz a rfl) (hw b rfl)

/-- C75: so the text tells the limit apart from every other, unless a finite answer is the variable called infinity:
two answers printed alike describe the same limit. -/
theorem C75_meaning (m m' : Mode) (e f pt qt : Expr F) (x y : Variable) (j k : UInt64) (z w : LimitExpression F)
    (he : Built m e) (hf : Built m' f) (h : LimitIs m e x pt j z) (h' : LimitIs m' f y qt k w)
    (hz : ∀ a, z = .normal a → Readable a ∧ Unambiguous a ∧ a ≠ newVariable "infinity")
    (hw : ∀ a, w = .normal a → Readable a ∧ Unambiguous a ∧ a ≠ newVariable "infinity")
    (t : z.display = w.display) (env : Env) (l : Filter ℝ) (g : ℝ → ℝ) :
    z.Describes SmartNum.exactReal env l g ↔ w.Describes SmartNum.exactReal env l g := by
  have s := (C75_iff m m' e f pt qt x y j k z w he hf h h' (fun a ha => (hz a ha).1) (fun a ha => (hw a ha).1)).1 t
  have h0 : denote SmartNum.exactReal env (ofI64 0 : Expr F) = some 0 := by
    rw [denote_int]; simp [show (0 : Int64).toInt = 0 by decide]
  cases z <;> cases w <;> first | exact Iff.rfl | exact s.elim | skip
  · cases s; simp [LimitExpression.Describes, h0]
  · cases s; exact absurd rfl (hw _ rfl).2.2
  · cases s; simp [LimitExpression.Describes, h0]
  · cases s; exact absurd rfl (hz _ rfl).2.2
  · obtain ⟨ra, ua, -⟩ := hz _ rfl
    obtain ⟨rb, ub, -⟩ := hw _ rfl
    simp only [LimitExpression.Describes, C47_value _ _ ra rb ua ub t]

/-- C75: the two coincidences happen. -/
theorem C75_examples (m : Mode) (k : UInt64) :
    let x : Expr F := newVariable "x"
    LimitIs m x ⟨"x"⟩ zero k .infinitesimal ∧ LimitIs m (zero : Expr F) ⟨"x"⟩ zero k (.normal zero) ∧
    (LimitExpression.infinitesimal : LimitExpression F).display = (LimitExpression.normal (zero : Expr F)).display ∧
    LimitIs m (one.div x) ⟨"x"⟩ zero k .infinity ∧
    LimitIs m (newVariable "infinity") ⟨"x"⟩ zero k (.normal (newVariable "infinity" : Expr F)) ∧
    (LimitExpression.infinity : LimitExpression F).display = (LimitExpression.normal (newVariable "infinity" : Expr F)).display := by
  intro x
  refine ⟨⟨1, by cases m <;> krfl⟩, ⟨1, by cases m <;> krfl⟩, by krfl, ⟨2, by cases m <;> krfl⟩, ⟨1, by cases m <;> krfl⟩, rfl⟩

/-- The hypotheses of `C75_iff` hold with two different searches printing the same finite answer. -/
example (m : Mode) : let x : Expr F := newVariable "x"; let y : Expr F := newVariable "y"
    LimitIs m (x.add (y.add y)) ⟨"x"⟩ y 0 (.normal (y.add (y.add y))) ∧
    LimitIs m ((x.add y).add y) ⟨"x"⟩ y 0 (.normal ((y.add y).add y)) ∧
    ReadableAnswer (.normal (y.add (y.add y))) ∧ SameText (.normal (y.add (y.add y))) (.normal ((y.add y).add y)) := by
  intro x y
  have hy : Readable y := .var ⟨"y"⟩ ⟨by decide, by decide, by decide, by decide, by decide, by decide⟩
  refine ⟨⟨3, by cases m <;> krfl⟩, ⟨3, by cases m <;> krfl⟩, ?_, .shift .add .add y y y rfl⟩
  rintro a ⟨⟩
  exact .bin .add _ _ hy (.bin .add _ _ hy hy)

end SymRust
