import Verif.Proofs.Rename
import Verif.Proofs.Poly
import Verif.Props.Main
import Verif.Spec.Limit
import Verif.Spec.Taylor
/-! # The names of the variables do not matter (C58) -/

namespace SymRust
variable {F : Type} [FloatOps F]
open Expr

/-- C58: simplifying commutes with every renaming of the variables, also one that identifies variables: the same
panics, and the renamed results. -/
theorem C58_num_aggregate (m m' : Mode) (σ : Variable → Variable) (e : Expr F) (he : Built m' e) :
    (e.rename σ).numAggregate m = (e.numAggregate m).map (Expr.rename σ) :=
  numAggregate_rename m he.tree

/-- C58: substitution commutes with every renaming that keeps different variables different. -/
theorem C58_substitute (m' : Mode) (σ : Variable → Variable) (hσ : Function.Injective σ) (e v : Expr F)
    (he : Built m' e) (x : Variable) :
    (e.rename σ).substitute (σ x) (v.rename σ) = (e.substitute x v).bimap id (Expr.rename σ) := by
  rw [substitute_eq, substitute_eq, replace_rename hσ he.tree]; rfl

/-- C58: so does differentiation, -/
theorem C58_derivative (m m' : Mode) (σ : Variable → Variable) (hσ : Function.Injective σ) (e : Expr F)
    (he : Built m' e) (x : Variable) :
    (e.rename σ).derivative m (σ x) = (e.derivative m x).bimap (DerivativeError.rename σ) (Expr.rename σ) :=
  derivative_rename hσ m x he.tree

/-- C58: repeated differentiation, -/
theorem C58_nth_derivative (m m' : Mode) (σ : Variable → Variable) (hσ : Function.Injective σ) (e : Expr F)
    (he : Built m' e) (x : Variable) (k : Nat) :
    nthDerivative m (e.rename σ) (σ x) k = (nthDerivative m e x k).bimap (DerivativeError.rename σ) (Expr.rename σ) := by
  induction k with
  | zero => rfl
  | succ k ih =>
    rw [nthDerivative, nthDerivative, ih]
    cases h : nthDerivative m e x k with
    | ok d => exact derivative_rename hσ m x (nthDerivative_tree he.tree k h)
    | err _ => rfl
    | panic => rfl

/-- C58: Taylor expansion (the coefficients, the residual, the recorded variable and point are renamed), -/
theorem C58_taylor (m m₁ m₂ : Mode) (σ : Variable → Variable) (hσ : Function.Injective σ) (e v : Expr F)
    (he : Built m₁ e) (hv : Built m₂ v) (x : Variable) (n : UInt64) :
    (e.rename σ).taylorExpansion m (σ x) (v.rename σ) n =
      (e.taylorExpansion m x v n).bimap (TaylorExpansionError.rename σ) (PartialExpansion.rename σ) :=
  taylorExpansion_rename hσ m x he.tree hv.tree n

/-- C58: and limits: the same answers up to renaming, the same errors and the same panics. -/
theorem C58_limit (m m₁ m₂ : Mode) (σ : Variable → Variable) (hσ : Function.Injective σ) (e pt : Expr F)
    (he : Built m₁ e) (hp : Built m₂ pt) (x : Variable) (k : UInt64) :
    (∀ w, LimitIs m (e.rename σ) (σ x) (pt.rename σ) k w ↔ ∃ z, LimitIs m e x pt k z ∧ w = z.rename σ) ∧
    (LimitErr m (e.rename σ) (σ x) (pt.rename σ) k ↔ LimitErr m e x pt k) ∧
    (LimitPanics m (e.rename σ) (σ x) (pt.rename σ) k ↔ LimitPanics m e x pt k) := by
  have key := fun n => limit_rename hσ m x hp.tree k n he.tree
  refine ⟨fun w => ⟨?_, ?_⟩, ?_, ?_⟩
  · rintro ⟨n, h⟩
    rw [key] at h
    cases h' : limit m x pt k n e with
    | ok z => rw [h'] at h; cases h; exact ⟨z, ⟨n, h'⟩, rfl⟩
    | _ => rw [h'] at h; cases h
  · rintro ⟨z, ⟨n, h⟩, rfl⟩
    exact ⟨n, by rw [key, h]; rfl⟩
  · refine exists_congr fun n => ?_
    rw [key]
    cases limit m x pt k n e <;> simp
  · refine exists_congr fun n => ?_
    rw [key]
    cases limit m x pt k n e <;> simp

/-- C58: differentiation does not commute with identifying variables: y differentiated by x is 0, but x by x is 1. -/
theorem C58_injective_needed (m : Mode) :
    let σ : Variable → Variable := fun _ => ⟨"x"⟩
    ∃ d : Expr F, (newVariable "y" : Expr F).derivative m ⟨"x"⟩ = .ok d ∧
      ((newVariable "y" : Expr F).rename σ).derivative m (σ ⟨"x"⟩) ≠ .ok (d.rename σ) := by
  intro σ
  refine ⟨ofI64 0, ?_, ?_⟩
  · rw [show (newVariable "y" : Expr F) = ofVar ⟨"y"⟩ from rfl, derivative_ofVar, if_neg (by decide)]
  · rw [show (newVariable "y" : Expr F) = ofVar ⟨"y"⟩ from rfl, rename_ofVar, derivative_ofVar, if_pos rfl, rename_ofI64]
    intro h
    have := congrArg (fun o : Out (DerivativeError F) (Expr F) => match o with | .ok d => d.isZero | _ => false) h
    cases this

/-- C58: an instance: swapping x and y is such a renaming and turns sin(x)*y into sin(y)*x; so the derivative of
sin(y)*x by y is that of sin(x)*y by x, renamed. -/
theorem C58_example (m : Mode) :
    let σ : Variable → Variable := Equiv.swap ⟨"x"⟩ ⟨"y"⟩
    let x : Expr F := newVariable "x"
    let y : Expr F := newVariable "y"
    Function.Injective σ ∧ (x.sin.mul y).rename σ = y.sin.mul x ∧
    (x.sin.mul y).derivative m ⟨"x"⟩ = .ok (x.cos.mul y) ∧ (y.sin.mul x).derivative m ⟨"y"⟩ = .ok (y.cos.mul x) := by
  intro σ x y
  have hx : σ ⟨"x"⟩ = ⟨"y"⟩ := Equiv.swap_apply_left _ _
  have hy : σ ⟨"y"⟩ = ⟨"x"⟩ := Equiv.swap_apply_right _ _
  have e1 : (x.sin.mul y).rename σ = y.sin.mul x := by
    rw [rename_mul, rename_sin, show x = ofVar ⟨"x"⟩ from rfl, show y = ofVar ⟨"y"⟩ from rfl, rename_ofVar, rename_ofVar,
      hx, hy]
  have d1 : (x.sin.mul y).derivative m ⟨"x"⟩ = .ok (x.cos.mul y) := by cases m <;> krfl
  refine ⟨(Equiv.swap _ _).injective, e1, d1, ?_⟩
  have := C58_derivative m m σ (Equiv.swap _ _).injective (x.sin.mul y) (.mul _ _ (.sin _ (.var _)) (.var _)) ⟨"x"⟩
  rw [e1, d1, hx] at this
  rw [this]
  show Out.ok ((x.cos.mul y).rename σ) = _
  rw [rename_mul, rename_cos, show x = ofVar ⟨"x"⟩ from rfl, show y = ofVar ⟨"y"⟩ from rfl, rename_ofVar, rename_ofVar,
      hx, hy]

end SymRust
