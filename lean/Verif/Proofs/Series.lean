import Verif.Spec.Series
import Verif.Spec.Taylor
import Verif.Proofs.Deriv
import Verif.Proofs.Subst
import Verif.Props.Number
import Verif.Props.Aggregate
/-! Formal power series of expressions. -/

namespace SymRust
variable {F : Type}
open Expr PowerSeries

/-! ### sin, cos and exp as formal power series -/

theorem derivative_sin_series : d⁄dX ℚ (PowerSeries.sin ℚ) = PowerSeries.cos ℚ := by
  ext n
  rw [coeff_derivative, PowerSeries.sin, PowerSeries.cos, coeff_mk, coeff_mk]
  by_cases h : Even n
  · have h' : ¬ Even (n + 1) := by rw [Nat.even_add_one]; exact fun g => g h
    obtain ⟨k, rfl⟩ := h
    rw [if_neg h', if_pos ⟨k, rfl⟩, show (k + k + 1) / 2 = (k + k) / 2 by omega, Nat.factorial_succ]
    have : ((k + k).factorial : ℚ) ≠ 0 := by exact_mod_cast Nat.factorial_ne_zero _
    have h2 : ((k + k : ℕ) : ℚ) + 1 ≠ 0 := by positivity
    simp only [eq_ratCast, Rat.cast_id]
    push_cast at *
    field_simp
  · rw [if_pos (Nat.even_add_one.2 h), if_neg h, zero_mul]

theorem derivative_cos_series : d⁄dX ℚ (PowerSeries.cos ℚ) = -PowerSeries.sin ℚ := by
  ext n
  rw [coeff_derivative, _root_.map_neg, PowerSeries.sin, PowerSeries.cos, coeff_mk, coeff_mk]
  by_cases h : Even n
  · have h' : ¬ Even (n + 1) := by rw [Nat.even_add_one]; exact fun g => g h
    rw [if_neg h', if_pos h]; simp
  · rw [if_pos (Nat.even_add_one.2 h), if_neg h]
    obtain ⟨k, rfl⟩ := Nat.not_even_iff_odd.1 h
    rw [show (2 * k + 1 + 1) / 2 = (2 * k + 1) / 2 + 1 by omega, Nat.factorial_succ]
    have : ((2 * k + 1).factorial : ℚ) ≠ 0 := by exact_mod_cast Nat.factorial_ne_zero _
    have h2 : ((2 * k + 1 : ℕ) : ℚ) + 1 ≠ 0 := by positivity
    simp only [eq_ratCast, Rat.cast_id]
    push_cast at *
    rw [pow_succ]
    field_simp

theorem constantCoeff_sin_series : constantCoeff (PowerSeries.sin ℚ) = 0 := by
  rw [← coeff_zero_eq_constantCoeff_apply, PowerSeries.sin, coeff_mk]; simp

theorem constantCoeff_cos_series : constantCoeff (PowerSeries.cos ℚ) = 1 := by
  rw [← coeff_zero_eq_constantCoeff_apply, PowerSeries.cos, coeff_mk]; simp

section
variable {f : ℚ⟦X⟧} (hf : constantCoeff f = 0)
include hf

theorem der_sin_subst : d⁄dX ℚ ((PowerSeries.sin ℚ).subst f) = (PowerSeries.cos ℚ).subst f * d⁄dX ℚ f := by
  rw [derivative_subst (HasSubst.of_constantCoeff_zero' hf), derivative_sin_series]

theorem der_cos_subst : d⁄dX ℚ ((PowerSeries.cos ℚ).subst f) = -(PowerSeries.sin ℚ).subst f * d⁄dX ℚ f := by
  have h := HasSubst.of_constantCoeff_zero' hf
  rw [derivative_subst h, derivative_cos_series, ← coe_substAlgHom h, _root_.map_neg]

theorem der_exp_subst : d⁄dX ℚ ((PowerSeries.exp ℚ).subst f) = (PowerSeries.exp ℚ).subst f * d⁄dX ℚ f := by
  rw [derivative_subst (HasSubst.of_constantCoeff_zero' hf), PowerSeries.derivative_exp]

theorem constantCoeff_subst_of_zero (g : ℚ⟦X⟧) : constantCoeff (g.subst f) = constantCoeff g := by
  have h := HasSubst.of_constantCoeff_zero' hf
  have : g = C (constantCoeff g) + (g - C (constantCoeff g)) := by ring
  rw [this, subst_add h]
  have h0 : constantCoeff ((g - C (constantCoeff g)).subst f) = 0 :=
    constantCoeff_subst_eq_zero hf _ (by simp)
  rw [_root_.map_add, h0, subst_C]
  simp
  rfl
end

/-! ### inversion -/

section
variable {x : Variable} {p : ℚ} {a b : Expr F} {h : ℚ⟦X⟧}

theorem hasSeries_num {n : SmartNum F} : HasSeries x p (ofNum n) h → ∃ q, n.exact? = some q ∧ h = C q := by
  intro hs
  generalize he : ofNum n = e at hs
  cases hs <;> expr_inj at he
  subst he; exact ⟨_, by assumption, rfl⟩
theorem hasSeries_var {y : Variable} : HasSeries x p (ofVar y : Expr F) h → y = x ∧ h = C p + X := by
  intro hs
  generalize he : (ofVar y : Expr F) = e at hs
  cases hs <;> expr_inj at he
  have he : y = x := by cases y; cases x; exact congrArg _ he
  subst he; exact ⟨rfl, rfl⟩
theorem hasSeries_neg : HasSeries x p a.neg h → ∃ f, HasSeries x p a f ∧ h = -f := by
  intro hs
  generalize he : a.neg = e at hs
  cases hs <;> expr_inj at he
  subst he; exact ⟨_, by assumption, rfl⟩
theorem hasSeries_add : HasSeries x p (a.add b) h → ∃ f g, HasSeries x p a f ∧ HasSeries x p b g ∧ h = f + g := by
  intro hs
  generalize he : a.add b = e at hs
  cases hs <;> expr_inj at he
  obtain ⟨rfl, rfl⟩ := he; exact ⟨_, _, by assumption, by assumption, rfl⟩
theorem hasSeries_sub : HasSeries x p (a.sub b) h → ∃ f g, HasSeries x p a f ∧ HasSeries x p b g ∧ h = f - g := by
  intro hs
  generalize he : a.sub b = e at hs
  cases hs <;> expr_inj at he
  obtain ⟨rfl, rfl⟩ := he; exact ⟨_, _, by assumption, by assumption, rfl⟩
theorem hasSeries_mul : HasSeries x p (a.mul b) h → ∃ f g, HasSeries x p a f ∧ HasSeries x p b g ∧ h = f * g := by
  intro hs
  generalize he : a.mul b = e at hs
  cases hs <;> expr_inj at he
  obtain ⟨rfl, rfl⟩ := he; exact ⟨_, _, by assumption, by assumption, rfl⟩
theorem hasSeries_div : HasSeries x p (a.div b) h → ∃ f g, HasSeries x p a f ∧ HasSeries x p b g ∧
    constantCoeff g ≠ 0 ∧ h = f * g⁻¹ := by
  intro hs
  generalize he : a.div b = e at hs
  cases hs <;> expr_inj at he
  obtain ⟨rfl, rfl⟩ := he; exact ⟨_, _, by assumption, by assumption, by assumption, rfl⟩
theorem hasSeries_sin : HasSeries x p a.sin h → ∃ f, HasSeries x p a f ∧ constantCoeff f = 0 ∧
    h = (PowerSeries.sin ℚ).subst f := by
  intro hs
  generalize he : a.sin = e at hs
  cases hs <;> expr_inj at he
  subst he; exact ⟨_, by assumption, by assumption, rfl⟩
theorem hasSeries_cos : HasSeries x p a.cos h → ∃ f, HasSeries x p a f ∧ constantCoeff f = 0 ∧
    h = (PowerSeries.cos ℚ).subst f := by
  intro hs
  generalize he : a.cos = e at hs
  cases hs <;> expr_inj at he
  subst he; exact ⟨_, by assumption, by assumption, rfl⟩
theorem hasSeries_exp : HasSeries x p a.exp h → ∃ f, HasSeries x p a f ∧ constantCoeff f = 0 ∧
    h = (PowerSeries.exp ℚ).subst f := by
  intro hs
  generalize he : a.exp = e at hs
  cases hs <;> expr_inj at he
  subst he; exact ⟨_, by assumption, by assumption, rfl⟩
theorem hasSeries_ln : HasSeries x p a.ln h → HasSeries x p a ((PowerSeries.exp ℚ).subst h) ∧ constantCoeff h = 0 := by
  intro hs
  generalize he : a.ln = e at hs
  cases hs <;> expr_inj at he
  rename_i h3
  subst he h3; exact ⟨by assumption, by assumption⟩
theorem hasSeries_pow : ¬ HasSeries x p (a.pow b) h := by
  intro hs
  generalize he : a.pow b = e at hs
  cases hs <;> expr_inj at he

theorem HasSeries.congr {f : ℚ⟦X⟧} (hs : HasSeries x p a f) (e : f = h) : HasSeries x p a h := e ▸ hs

theorem HasSeries.tree {e : Expr F} {f : ℚ⟦X⟧} (h : HasSeries x p e f) : Tree e := by
  induction h with
  | num n => exact .num _ trivial
  | var => exact .var _
  | neg _ i => exact .neg _ i
  | add _ _ i j => exact .add _ _ i j
  | sub _ _ i j => exact .sub _ _ i j
  | mul _ _ i j => exact .mul _ _ i j
  | div _ _ _ i j => exact .div _ _ i j
  | sin _ _ i => exact .sin _ i
  | cos _ _ i => exact .cos _ i
  | exp _ _ i => exact .exp _ i
  | ln _ _ _ i => exact .ln _ i
end

/-! ### the constants -/

theorem sin_subst_zero : (PowerSeries.sin ℚ).subst (0 : ℚ⟦X⟧) = (0 : ℚ⟦X⟧) := by
  have := subst_zero_of_constantCoeff_zero (τ := Unit) (S := ℚ) constantCoeff_sin_series
  exact this

theorem subst_zero_one {g : ℚ⟦X⟧} (h : constantCoeff g = 1) : g.subst (0 : ℚ⟦X⟧) = (1 : ℚ⟦X⟧) := by
  have := subst_zero_eq_C_constantCoeff (τ := Unit) (S := ℚ) (f := g)
  rw [h] at this
  simpa using this

/-- The logarithm is determined by its exponential. -/
theorem exp_subst_inj {f g : ℚ⟦X⟧} (hf : constantCoeff f = 0) (hg : constantCoeff g = 0)
    (h : (PowerSeries.exp ℚ).subst f = ((PowerSeries.exp ℚ).subst g : ℚ⟦X⟧)) : f = g := by
  refine derivative.ext ?_ (hf.trans hg.symm)
  have h1 := der_exp_subst hf
  have h2 := der_exp_subst hg
  rw [h, h2] at h1
  refine (mul_left_cancel₀ ?_ h1).symm
  intro h0
  have := constantCoeff_subst_of_zero hg (PowerSeries.exp ℚ)
  rw [h0] at this
  simp at this

/-! ### simplification, differentiation and evaluation -/

variable [FloatOps F]

theorem exact_zero {n : SmartNum F} {q : ℚ} (hv : n.Valid) (hq : n.exact? = some q) (h : n.isZero = true) : q = 0 := by
  have := hv.zero_iff.1 h
  rw [hq] at this; exact Option.some.inj this

theorem exact_one {n : SmartNum F} {q : ℚ} (hv : n.Valid) (hq : n.exact? = some q) (h : n.isOne = true) : q = 1 := by
  have := hv.one_iff.1 h
  rw [hq] at this; exact Option.some.inj this

theorem exact_not_pi {n : SmartNum F} {q : ℚ} (hv : n.Valid) (hq : n.exact? = some q) : n.isPi = false := by
  cases h : n.isPi
  · rfl
  · simp [SmartNum.exact?, hv.pi_val h, SmartNumVal.exact?] at hq

theorem exact_not_e {n : SmartNum F} {q : ℚ} (hv : n.Valid) (hq : n.exact? = some q) : n.isE = false := by
  cases h : n.isE
  · rfl
  · simp [SmartNum.exact?, hv.e_val h, SmartNumVal.exact?] at hq

theorem HasSeries.zero {x : Variable} {p : ℚ} : HasSeries x p (ofI64 0 : Expr F) 0 :=
  (HasSeries.num _ 0 rfl).congr (by simp)

theorem HasSeries.one {x : Variable} {p : ℚ} : HasSeries x p (ofI64 1 : Expr F) 1 :=
  (HasSeries.num _ 1 rfl).congr (by simp)

theorem HasSeries.agg {x : Variable} {p : ℚ} {e e' : Expr F} (h : Agg .strict e e') :
    ∀ {f : ℚ⟦X⟧}, WF SmartNum.Valid e → HasSeries x p e f → HasSeries x p e' f := by
  have wf : ∀ {a n}, WF SmartNum.Valid a → Agg (F := F) .strict a (ofNum n) → n.Valid := fun ha h =>
    WF.num_iff.1 (h.wf (numClosed_valid _) ha)
  induction h with
  | num | var => exact fun _ h => h
  | neg_num h1 h2 i =>
    intro f w hs
    have w := WF.neg_iff.1 w
    obtain ⟨f, hf, rfl⟩ := hasSeries_neg hs
    obtain ⟨q, hq, rfl⟩ := hasSeries_num (i w hf)
    exact (HasSeries.num _ _ (SmartNum.neg_exact (by simp) (wf w h1) hq h2)).congr (by simp)
  | neg_neg h1 i =>
    intro f w hs
    obtain ⟨f, hf, rfl⟩ := hasSeries_neg hs
    obtain ⟨g, hg, rfl⟩ := hasSeries_neg (i (WF.neg_iff.1 w) hf)
    exact hg.congr (by simp)
  | neg h1 _ _ i =>
    intro f w hs
    obtain ⟨f, hf, rfl⟩ := hasSeries_neg hs
    exact .neg (i (WF.neg_iff.1 w) hf)
  | add_num h1 h2 h3 i j =>
    intro f w hs
    obtain ⟨w1, w2⟩ := WF.add_iff.1 w
    obtain ⟨f, g, hf, hg, rfl⟩ := hasSeries_add hs
    obtain ⟨q, hq, rfl⟩ := hasSeries_num (i w1 hf)
    obtain ⟨r, hr, rfl⟩ := hasSeries_num (j w2 hg)
    exact (HasSeries.num _ _ (SmartNum.add_exact (wf w1 h1) (wf w2 h2) hq hr h3)).congr (by simp)
  | add_zero_l h1 h2 h3 _ i j =>
    intro f w hs
    obtain ⟨w1, w2⟩ := WF.add_iff.1 w
    obtain ⟨f, g, hf, hg, rfl⟩ := hasSeries_add hs
    obtain ⟨q, hq, rfl⟩ := hasSeries_num (i w1 hf)
    obtain rfl := exact_zero (wf w1 h1) hq h3
    exact (j w2 hg).congr (by simp)
  | add_zero_r h1 h2 h3 _ i j =>
    intro f w hs
    obtain ⟨w1, w2⟩ := WF.add_iff.1 w
    obtain ⟨f, g, hf, hg, rfl⟩ := hasSeries_add hs
    obtain ⟨q, hq, rfl⟩ := hasSeries_num (j w2 hg)
    obtain rfl := exact_zero (wf w2 h2) hq h3
    exact (i w1 hf).congr (by simp)
  | add h1 h2 _ _ _ i j =>
    intro f w hs
    obtain ⟨w1, w2⟩ := WF.add_iff.1 w
    obtain ⟨f, g, hf, hg, rfl⟩ := hasSeries_add hs
    exact .add (i w1 hf) (j w2 hg)
  | sub_num h1 h2 h3 i j =>
    intro f w hs
    obtain ⟨w1, w2⟩ := WF.sub_iff.1 w
    obtain ⟨f, g, hf, hg, rfl⟩ := hasSeries_sub hs
    obtain ⟨q, hq, rfl⟩ := hasSeries_num (i w1 hf)
    obtain ⟨r, hr, rfl⟩ := hasSeries_num (j w2 hg)
    exact (HasSeries.num _ _ (SmartNum.sub_exact (wf w1 h1) (wf w2 h2) hq hr h3)).congr (by simp)
  | sub_zero_l h1 h2 h3 _ i j =>
    intro f w hs
    obtain ⟨w1, w2⟩ := WF.sub_iff.1 w
    obtain ⟨f, g, hf, hg, rfl⟩ := hasSeries_sub hs
    obtain ⟨q, hq, rfl⟩ := hasSeries_num (i w1 hf)
    obtain rfl := exact_zero (wf w1 h1) hq h3
    exact (HasSeries.neg (j w2 hg)).congr (by simp)
  | sub_zero_r h1 h2 h3 _ i j =>
    intro f w hs
    obtain ⟨w1, w2⟩ := WF.sub_iff.1 w
    obtain ⟨f, g, hf, hg, rfl⟩ := hasSeries_sub hs
    obtain ⟨q, hq, rfl⟩ := hasSeries_num (j w2 hg)
    obtain rfl := exact_zero (wf w2 h2) hq h3
    exact (i w1 hf).congr (by simp)
  | sub h1 h2 _ _ _ i j =>
    intro f w hs
    obtain ⟨w1, w2⟩ := WF.sub_iff.1 w
    obtain ⟨f, g, hf, hg, rfl⟩ := hasSeries_sub hs
    exact .sub (i w1 hf) (j w2 hg)
  | mul_num h1 h2 h3 i j =>
    intro f w hs
    obtain ⟨w1, w2⟩ := WF.mul_iff.1 w
    obtain ⟨f, g, hf, hg, rfl⟩ := hasSeries_mul hs
    obtain ⟨q, hq, rfl⟩ := hasSeries_num (i w1 hf)
    obtain ⟨r, hr, rfl⟩ := hasSeries_num (j w2 hg)
    exact (HasSeries.num _ _ (SmartNum.mul_exact (by simp) (wf w1 h1) (wf w2 h2) hq hr h3)).congr (by simp)
  | mul_zero_l h1 h2 h3 _ i j =>
    intro f w hs
    obtain ⟨w1, w2⟩ := WF.mul_iff.1 w
    obtain ⟨f, g, hf, hg, rfl⟩ := hasSeries_mul hs
    obtain ⟨q, hq, rfl⟩ := hasSeries_num (i w1 hf)
    obtain rfl := exact_zero (wf w1 h1) hq h3
    exact HasSeries.zero.congr (by simp)
  | mul_zero_r h1 h2 h3 _ i j =>
    intro f w hs
    obtain ⟨w1, w2⟩ := WF.mul_iff.1 w
    obtain ⟨f, g, hf, hg, rfl⟩ := hasSeries_mul hs
    obtain ⟨q, hq, rfl⟩ := hasSeries_num (j w2 hg)
    obtain rfl := exact_zero (wf w2 h2) hq h3
    exact HasSeries.zero.congr (by simp)
  | mul_one_l h1 h2 h3 _ i j =>
    intro f w hs
    obtain ⟨w1, w2⟩ := WF.mul_iff.1 w
    obtain ⟨f, g, hf, hg, rfl⟩ := hasSeries_mul hs
    obtain ⟨q, hq, rfl⟩ := hasSeries_num (i w1 hf)
    obtain rfl := exact_one (wf w1 h1) hq h3
    exact (j w2 hg).congr (by simp)
  | mul_one_r h1 h2 h3 _ i j =>
    intro f w hs
    obtain ⟨w1, w2⟩ := WF.mul_iff.1 w
    obtain ⟨f, g, hf, hg, rfl⟩ := hasSeries_mul hs
    obtain ⟨q, hq, rfl⟩ := hasSeries_num (j w2 hg)
    obtain rfl := exact_one (wf w2 h2) hq h3
    exact (i w1 hf).congr (by simp)
  | mul h1 h2 _ _ _ _ _ i j =>
    intro f w hs
    obtain ⟨w1, w2⟩ := WF.mul_iff.1 w
    obtain ⟨f, g, hf, hg, rfl⟩ := hasSeries_mul hs
    exact .mul (i w1 hf) (j w2 hg)
  | div_num h1 h2 h3 i j =>
    intro f w hs
    obtain ⟨w1, w2⟩ := WF.div_iff.1 w
    obtain ⟨f, g, hf, hg, h0, rfl⟩ := hasSeries_div hs
    obtain ⟨q, hq, rfl⟩ := hasSeries_num (i w1 hf)
    obtain ⟨r, hr, rfl⟩ := hasSeries_num (j w2 hg)
    have h0 : r ≠ 0 := by simpa using h0
    exact (HasSeries.num _ _ (SmartNum.div_exact (by simp) (wf w1 h1) (wf w2 h2) hq hr h0 h3)).congr (by
      rw [C_inv, div_eq_mul_inv, _root_.map_mul])
  | div_zero_l h1 h2 h3 _ i j =>
    intro f w hs
    obtain ⟨w1, w2⟩ := WF.div_iff.1 w
    obtain ⟨f, g, hf, hg, h0, rfl⟩ := hasSeries_div hs
    obtain ⟨q, hq, rfl⟩ := hasSeries_num (i w1 hf)
    obtain rfl := exact_zero (wf w1 h1) hq h3
    exact HasSeries.zero.congr (by simp)
  | div h1 h2 _ _ i j =>
    intro f w hs
    obtain ⟨w1, w2⟩ := WF.div_iff.1 w
    obtain ⟨f, g, hf, hg, h0, rfl⟩ := hasSeries_div hs
    exact .div (i w1 hf) (j w2 hg) h0
  | sin_num h1 h2 i =>
    intro f w hs
    have w := WF.sin_iff.1 w
    obtain ⟨f, hf, h0, rfl⟩ := hasSeries_sin hs
    obtain ⟨q, hq, rfl⟩ := hasSeries_num (i w hf)
    obtain rfl : q = 0 := by simpa using h0
    exact HasSeries.zero.congr (by rw [map_zero, sin_subst_zero])
  | sin h1 _ _ i =>
    intro f w hs
    obtain ⟨f, hf, h0, rfl⟩ := hasSeries_sin hs
    exact .sin (i (WF.sin_iff.1 w) hf) h0
  | cos_num h1 h2 i =>
    intro f w hs
    have w := WF.cos_iff.1 w
    obtain ⟨f, hf, h0, rfl⟩ := hasSeries_cos hs
    obtain ⟨q, hq, rfl⟩ := hasSeries_num (i w hf)
    obtain rfl : q = 0 := by simpa using h0
    exact HasSeries.one.congr (by rw [map_zero, subst_zero_one constantCoeff_cos_series])
  | cos h1 _ _ i =>
    intro f w hs
    obtain ⟨f, hf, h0, rfl⟩ := hasSeries_cos hs
    exact .cos (i (WF.cos_iff.1 w) hf) h0
  | exp_zero h1 h2 i =>
    intro f w hs
    have w := WF.exp_iff.1 w
    obtain ⟨f, hf, h0, rfl⟩ := hasSeries_exp hs
    obtain ⟨q, hq, rfl⟩ := hasSeries_num (i w hf)
    obtain rfl : q = 0 := by simpa using h0
    exact HasSeries.one.congr (by rw [map_zero, subst_zero_one (by simp)])
  | exp_one h1 h2 i =>
    intro f w hs
    have w := WF.exp_iff.1 w
    obtain ⟨f, hf, h0, rfl⟩ := hasSeries_exp hs
    obtain ⟨q, hq, rfl⟩ := hasSeries_num (i w hf)
    obtain rfl := exact_one (wf w h1) hq h2
    simp at h0
  | exp_ln h1 i =>
    intro f w hs
    obtain ⟨f, hf, h0, rfl⟩ := hasSeries_exp hs
    exact (hasSeries_ln (i (WF.exp_iff.1 w) hf)).1
  | exp h1 _ _ _ i =>
    intro f w hs
    obtain ⟨f, hf, h0, rfl⟩ := hasSeries_exp hs
    exact .exp (i (WF.exp_iff.1 w) hf) h0
  | ln_e h1 h2 i =>
    intro f w hs
    have w := WF.ln_iff.1 w
    obtain ⟨hf, h0⟩ := hasSeries_ln hs
    obtain ⟨q, hq, -⟩ := hasSeries_num (i w hf)
    rw [exact_not_e (wf w h1) hq] at h2; cases h2
  | ln_one h1 h2 i =>
    intro f w hs
    have w := WF.ln_iff.1 w
    obtain ⟨hf, h0⟩ := hasSeries_ln hs
    obtain ⟨q, hq, he⟩ := hasSeries_num (i w hf)
    obtain rfl := exact_one (wf w h1) hq h2
    refine HasSeries.zero.congr (exp_subst_inj (by simp) h0 ?_)
    rw [he, subst_zero_one (by simp), map_one]
  | ln_exp h1 i =>
    intro f w hs
    obtain ⟨hf, h0⟩ := hasSeries_ln hs
    obtain ⟨g, hg, g0, he⟩ := hasSeries_exp (i (WF.ln_iff.1 w) hf)
    exact hg.congr (exp_subst_inj g0 h0 he.symm)
  | ln h1 _ _ _ i =>
    intro f w hs
    obtain ⟨hf, h0⟩ := hasSeries_ln hs
    exact .ln (i (WF.ln_iff.1 w) hf) h0 rfl
  | pow_zero | pow_one | pow_ln | pow => exact fun _ h => absurd h hasSeries_pow

theorem HasSeries.der {x : Variable} {p : ℚ} {e e' : Expr F} (h : Der .strict x e e') :
    ∀ {f : ℚ⟦X⟧}, WF SmartNum.Valid e → HasSeries x p e f → HasSeries x p e' (d⁄dX ℚ f) := by
  have wf : ∀ {a a' : Expr F}, WF SmartNum.Valid a → Der .strict x a a' → WF SmartNum.Valid a' := fun ha h =>
    h.wf (numClosed_valid _) ha
  induction h with
  | num n =>
    intro f w hs
    obtain ⟨q, -, rfl⟩ := hasSeries_num hs
    exact HasSeries.zero.congr (by simp)
  | var =>
    intro f w hs
    obtain ⟨-, rfl⟩ := hasSeries_var hs
    exact HasSeries.one.congr (by simp)
  | var_ne y hy =>
    intro f w hs
    exact absurd (hasSeries_var hs).1.symm hy
  | neg h1 hg i =>
    intro f w hs
    have w := WF.neg_iff.1 w
    obtain ⟨f, hf, rfl⟩ := hasSeries_neg hs
    exact HasSeries.agg hg (.neg _ (wf w h1)) ((HasSeries.neg (i w hf)).congr (by simp))
  | add h1 h2 hg i j =>
    intro f w hs
    obtain ⟨w1, w2⟩ := WF.add_iff.1 w
    obtain ⟨f, g, hf, hg', rfl⟩ := hasSeries_add hs
    exact HasSeries.agg hg (.add _ _ (wf w1 h1) (wf w2 h2)) ((HasSeries.add (i w1 hf) (j w2 hg')).congr (by simp))
  | sub h1 h2 hg i j =>
    intro f w hs
    obtain ⟨w1, w2⟩ := WF.sub_iff.1 w
    obtain ⟨f, g, hf, hg', rfl⟩ := hasSeries_sub hs
    exact HasSeries.agg hg (.sub _ _ (wf w1 h1) (wf w2 h2)) ((HasSeries.sub (i w1 hf) (j w2 hg')).congr (by simp))
  | mul h1 h2 hg i j =>
    intro f w hs
    obtain ⟨w1, w2⟩ := WF.mul_iff.1 w
    obtain ⟨f, g, hf, hg', rfl⟩ := hasSeries_mul hs
    exact HasSeries.agg hg (.add _ _ (.mul _ _ (wf w1 h1) w2) (.mul _ _ w1 (wf w2 h2)))
      ((HasSeries.add (.mul (i w1 hf) hg') (.mul hf (j w2 hg'))).congr (by
        rw [Derivation.leibniz]; simp only [smul_eq_mul]; ring))
  | div h1 h2 hg i j =>
    intro f w hs
    obtain ⟨w1, w2⟩ := WF.div_iff.1 w
    obtain ⟨f, g, hf, hg', h0, rfl⟩ := hasSeries_div hs
    have h2' : constantCoeff (g * g) ≠ 0 := by rw [_root_.map_mul]; exact mul_ne_zero h0 h0
    refine HasSeries.agg hg (.div _ _ (.sub _ _ (.mul _ _ (wf w1 h1) w2) (.mul _ _ w1 (wf w2 h2))) (.mul _ _ w2 w2))
      ((HasSeries.div (.sub (.mul (i w1 hf) hg') (.mul hf (j w2 hg'))) (.mul hg' hg') h2').congr ?_)
    symm
    rw [PowerSeries.eq_mul_inv_iff_mul_eq h2', Derivation.leibniz, PowerSeries.derivative_inv']
    simp only [smul_eq_mul]
    have hc := PowerSeries.inv_mul_cancel g h0
    linear_combination (-f * d⁄dX ℚ g * (g⁻¹ * g + 1) + d⁄dX ℚ f * g) * hc
  | sin h1 hg i =>
    intro f w hs
    have w := WF.sin_iff.1 w
    obtain ⟨f, hf, h0, rfl⟩ := hasSeries_sin hs
    exact HasSeries.agg hg (.mul _ _ (.cos _ w) (wf w h1)) ((HasSeries.mul (.cos hf h0) (i w hf)).congr (der_sin_subst h0).symm)
  | cos h1 hg i =>
    intro f w hs
    have w := WF.cos_iff.1 w
    obtain ⟨f, hf, h0, rfl⟩ := hasSeries_cos hs
    exact HasSeries.agg hg (.mul _ _ (.neg _ (.sin _ w)) (wf w h1))
      ((HasSeries.mul (.neg (.sin hf h0)) (i w hf)).congr (der_cos_subst h0).symm)
  | exp h1 hg i =>
    intro f w hs
    have w := WF.exp_iff.1 w
    obtain ⟨f, hf, h0, rfl⟩ := hasSeries_exp hs
    exact HasSeries.agg hg (.mul _ _ (wf w h1) (.exp _ w))
      ((HasSeries.mul (i w hf) (.exp hf h0)).congr (by rw [der_exp_subst h0, mul_comm]))
  | ln h1 hg i =>
    intro f w hs
    have w := WF.ln_iff.1 w
    obtain ⟨hf, h0⟩ := hasSeries_ln hs
    have hc : constantCoeff ((PowerSeries.exp ℚ).subst f) = 1 := by
      rw [constantCoeff_subst_of_zero h0]; simp
    have hne : constantCoeff ((PowerSeries.exp ℚ).subst f) ≠ 0 := by rw [hc]; exact one_ne_zero
    refine HasSeries.agg hg (.div _ _ (wf w h1) w) ((HasSeries.div (i w hf) hf hne).congr ?_)
    symm
    rw [PowerSeries.eq_mul_inv_iff_mul_eq hne, der_exp_subst h0, mul_comm]
  | pow => exact fun _ h => absurd h hasSeries_pow

theorem HasSeries.nth {x : Variable} {p : ℚ} {e : Expr F} {f : ℚ⟦X⟧} (w : WF SmartNum.Valid e) (hs : HasSeries x p e f)
    (k : ℕ) {d : Expr F} (h : nthDerivative .strict e x k = .ok d) :
    WF SmartNum.Valid d ∧ HasSeries x p d ((d⁄dX ℚ)^[k] f) := by
  induction k generalizing d with
  | zero => cases h; exact ⟨w, hs⟩
  | succ k ih =>
    obtain ⟨c, h1, h2⟩ := Out.bind_eq_ok.1 h
    obtain ⟨wc, hc⟩ := ih h1
    have hd := der_of_derivative wc.tree h2
    refine ⟨hd.wf (numClosed_valid _) wc, ?_⟩
    rw [Function.iterate_succ_apply']
    exact HasSeries.der hd wc hc

/-- Evaluation at the point gives a number. -/
theorem HasSeries.eval {x : Variable} {p : ℚ} {e : Expr F} {f : ℚ⟦X⟧} {v : SmartNum F} (hv : v.Valid)
    (hp : v.exact? = some p) (hs : HasSeries x p e f) (w : WF SmartNum.Valid e) :
    ∀ {e'}, (e.replace x (ofNum v)).numAggregate .strict = .ok e' →
      ∃ n : SmartNum F, e' = ofNum n ∧ n.Valid ∧ n.exact? = some (constantCoeff f) := by
  induction hs with
  | num n q hq =>
    intro e' h
    rw [replace_ofNum, numAggregate_ofNum] at h; cases h
    exact ⟨n, rfl, WF.num_iff.1 w, by simpa using hq⟩
  | var =>
    intro e' h
    rw [replace_ofVar, if_pos rfl, numAggregate_ofNum] at h; cases h
    exact ⟨v, rfl, hv, by simpa using hp⟩
  | neg _ i =>
    intro e' h
    rw [replace_neg, numAggregate_neg, negEvalRule_bind, Res.bind_eq_ok] at h
    obtain ⟨a', h1, h2⟩ := h
    obtain ⟨y, rfl, vy, ey⟩ := i (WF.neg_iff.1 w) h1
    obtain ⟨z, hz, h2⟩ := Res.bind_eq_ok.mp (show (y.neg .strict >>= fun z => .ok (ofNum z)) = .ok e' from h2)
    cases h2
    exact ⟨z, rfl, (numClosed_valid _).neg _ _ vy hz, by rw [SmartNum.neg_exact (by simp) vy ey hz]; simp⟩
  | add _ _ i j =>
    intro e' h
    obtain ⟨w1, w2⟩ := WF.add_iff.1 w
    rw [replace_add, numAggregate_add, addEvalRule_bind, Res.bind_eq_ok] at h
    obtain ⟨b', h1, h⟩ := h
    obtain ⟨a', h2, h⟩ := Res.bind_eq_ok.1 h
    obtain ⟨y, rfl, vy, ey⟩ := i w1 h2
    obtain ⟨u, rfl, vu, eu⟩ := j w2 h1
    obtain ⟨z, hz, h3⟩ := Res.bind_eq_ok.mp (show (y.add .strict u >>= fun z => .ok (ofNum z)) = .ok e' from h)
    cases h3
    exact ⟨z, rfl, (numClosed_valid _).add _ _ _ vy vu hz, by rw [SmartNum.add_exact vy vu ey eu hz]; simp⟩
  | sub _ _ i j =>
    intro e' h
    obtain ⟨w1, w2⟩ := WF.sub_iff.1 w
    rw [replace_sub, numAggregate_sub, subEvalRule_bind, Res.bind_eq_ok] at h
    obtain ⟨b', h1, h⟩ := h
    obtain ⟨a', h2, h⟩ := Res.bind_eq_ok.1 h
    obtain ⟨y, rfl, vy, ey⟩ := i w1 h2
    obtain ⟨u, rfl, vu, eu⟩ := j w2 h1
    obtain ⟨z, hz, h3⟩ := Res.bind_eq_ok.mp (show (y.sub .strict u >>= fun z => .ok (ofNum z)) = .ok e' from h)
    cases h3
    exact ⟨z, rfl, (numClosed_valid _).sub _ _ _ vy vu hz, by rw [SmartNum.sub_exact vy vu ey eu hz]; simp⟩
  | mul _ _ i j =>
    intro e' h
    obtain ⟨w1, w2⟩ := WF.mul_iff.1 w
    rw [replace_mul, numAggregate_mul, mulEvalRule_bind, Res.bind_eq_ok] at h
    obtain ⟨b', h1, h⟩ := h
    obtain ⟨a', h2, h⟩ := Res.bind_eq_ok.1 h
    obtain ⟨y, rfl, vy, ey⟩ := i w1 h2
    obtain ⟨u, rfl, vu, eu⟩ := j w2 h1
    obtain ⟨z, hz, h3⟩ := Res.bind_eq_ok.mp (show (y.mul .strict u >>= fun z => .ok (ofNum z)) = .ok e' from h)
    cases h3
    exact ⟨z, rfl, (numClosed_valid _).mul _ _ _ vy vu hz, by rw [SmartNum.mul_exact (by simp) vy vu ey eu hz]; simp⟩
  | div _ _ h0 i j =>
    intro e' h
    obtain ⟨w1, w2⟩ := WF.div_iff.1 w
    rw [replace_div, numAggregate_div, divEvalRule_bind, Res.bind_eq_ok] at h
    obtain ⟨b', h1, h⟩ := h
    obtain ⟨a', h2, h⟩ := Res.bind_eq_ok.1 h
    obtain ⟨y, rfl, vy, ey⟩ := i w1 h2
    obtain ⟨u, rfl, vu, eu⟩ := j w2 h1
    obtain ⟨z, hz, h3⟩ := Res.bind_eq_ok.mp (show (y.div .strict u >>= fun z => .ok (ofNum z)) = .ok e' from h)
    cases h3
    exact ⟨z, rfl, (numClosed_valid _).div _ _ _ vy vu hz, by
      rw [SmartNum.div_exact (by simp) vy vu ey eu h0 hz, _root_.map_mul, constantCoeff_inv, div_eq_mul_inv]⟩
  | sin _ h0 i =>
    intro e' h
    rw [replace_sin, numAggregate_sin, sinEvalRule_bind, Res.bind_eq_ok] at h
    obtain ⟨a', h1, h2⟩ := h
    obtain ⟨y, rfl, vy, ey⟩ := i (WF.sin_iff.1 w) h1
    have hz : y.isZero = true := vy.zero_iff.2 (by rw [ey, h0])
    rw [show sinEvalRule [.ok (ofNum y)] = .ok (ofI64 0) by simp [sinEvalRule, pop, ofNum, Expr.root, AstOperand.isZero, hz]] at h2
    cases h2
    exact ⟨_, rfl, SmartNum.valid_zero, by rw [constantCoeff_subst_of_zero h0, constantCoeff_sin_series]; rfl⟩
  | cos _ h0 i =>
    intro e' h
    rw [replace_cos, numAggregate_cos, cosEvalRule_bind, Res.bind_eq_ok] at h
    obtain ⟨a', h1, h2⟩ := h
    obtain ⟨y, rfl, vy, ey⟩ := i (WF.cos_iff.1 w) h1
    have hz : y.isZero = true := vy.zero_iff.2 (by rw [ey, h0])
    rw [show cosEvalRule [.ok (ofNum y)] = .ok (ofI64 1) by simp [cosEvalRule, pop, ofNum, Expr.root, AstOperand.isZero, hz]] at h2
    cases h2
    exact ⟨_, rfl, SmartNum.valid_one, by rw [constantCoeff_subst_of_zero h0, constantCoeff_cos_series]; rfl⟩
  | exp _ h0 i =>
    intro e' h
    rw [replace_exp, numAggregate_exp, expEvalRule_bind, Res.bind_eq_ok] at h
    obtain ⟨a', h1, h2⟩ := h
    obtain ⟨y, rfl, vy, ey⟩ := i (WF.exp_iff.1 w) h1
    have hz : y.isZero = true := vy.zero_iff.2 (by rw [ey, h0])
    rw [show expEvalRule [.ok (ofNum y)] = .ok (ofI64 1) by simp [expEvalRule, pop, ofNum, Expr.root, hz]] at h2
    cases h2
    exact ⟨_, rfl, SmartNum.valid_one, by rw [constantCoeff_subst_of_zero h0]; simp; rfl⟩
  | ln _ h0 hl i =>
    intro e' h
    rw [replace_ln, numAggregate_ln, lnEvalRule_bind, Res.bind_eq_ok] at h
    obtain ⟨a', h1, h2⟩ := h
    obtain ⟨y, rfl, vy, ey⟩ := i (WF.ln_iff.1 w) h1
    have hz : y.isOne = true := vy.one_iff.2 (by rw [ey, ← hl, constantCoeff_subst_of_zero h0]; simp)
    rw [show lnEvalRule [.ok (ofNum y)] = .ok Expr.zero by
      simp [lnEvalRule, pop, ofNum, Expr.root, hz, exact_not_e vy ey]] at h2
    cases h2
    exact ⟨_, rfl, SmartNum.valid_zero, by rw [h0]; rfl⟩

end SymRust
