import Mathlib.RingTheory.PowerSeries.WellKnown
import Mathlib.RingTheory.PowerSeries.Derivative
import Mathlib.RingTheory.PowerSeries.Inverse
import Mathlib.RingTheory.PowerSeries.Exp
import Verif.Spec.Number
import Verif.Spec.Expr
/-! # Specification: the formal power series of an expression at a rational point -/

namespace SymRust
variable {F : Type}
open Expr PowerSeries

/-- `f` is the formal power series, with rational coefficients, of `e` in `x` at `x = p`: the expansion of `e` in powers
of `X = x - p`.  Numbers must have an exact value, divisors a constant term that is not 0; the arguments of sin, cos and
exp must be 0 at the point and those of ln 1, so that the values there are rational.  Powers are not covered. -/
inductive HasSeries (x : Variable) (p : ℚ) : Expr F → ℚ⟦X⟧ → Prop
  | num (n : SmartNum F) (q : ℚ) : n.exact? = some q → HasSeries x p (ofNum n) (C q)
  | var : HasSeries x p (ofVar x) (C p + X)
  | neg {a : Expr F} {f : ℚ⟦X⟧} : HasSeries x p a f → HasSeries x p a.neg (-f)
  | add {a b : Expr F} {f g : ℚ⟦X⟧} : HasSeries x p a f → HasSeries x p b g → HasSeries x p (a.add b) (f + g)
  | sub {a b : Expr F} {f g : ℚ⟦X⟧} : HasSeries x p a f → HasSeries x p b g → HasSeries x p (a.sub b) (f - g)
  | mul {a b : Expr F} {f g : ℚ⟦X⟧} : HasSeries x p a f → HasSeries x p b g → HasSeries x p (a.mul b) (f * g)
  | div {a b : Expr F} {f g : ℚ⟦X⟧} : HasSeries x p a f → HasSeries x p b g → constantCoeff g ≠ 0 →
      HasSeries x p (a.div b) (f * g⁻¹)
  | sin {a : Expr F} {f : ℚ⟦X⟧} : HasSeries x p a f → constantCoeff f = 0 →
      HasSeries x p a.sin ((PowerSeries.sin ℚ).subst f)
  | cos {a : Expr F} {f : ℚ⟦X⟧} : HasSeries x p a f → constantCoeff f = 0 →
      HasSeries x p a.cos ((PowerSeries.cos ℚ).subst f)
  | exp {a : Expr F} {f : ℚ⟦X⟧} : HasSeries x p a f → constantCoeff f = 0 →
      HasSeries x p a.exp ((PowerSeries.exp ℚ).subst f)
  | ln {a : Expr F} {f l : ℚ⟦X⟧} : HasSeries x p a f → constantCoeff l = 0 → (PowerSeries.exp ℚ).subst l = f →
      HasSeries x p a.ln l

end SymRust
