import Verif.Props.Series
import Verif.Props.ExpansionComp
/-! # C73: the formal power series of an expression is the Taylor series of the real function -/

namespace SymRust
variable {F : Type} [FloatOps F]
open Expr PowerSeries Filter Topology

/-- A series with rational coefficients as one with real coefficients. -/
noncomputable def toReal : ℚ⟦X⟧ →+* ℝ⟦X⟧ := PowerSeries.map (algebraMap ℚ ℝ)

theorem coeff_toReal (f : ℚ⟦X⟧) (k : ℕ) : coeff k (toReal f) = ((coeff k f : ℚ) : ℝ) := by
  rw [toReal, PowerSeries.coeff_map]; rfl

theorem toReal_C (q : ℚ) : toReal (C q) = C (q : ℝ) := by rw [toReal, PowerSeries.map_C]; rfl

theorem toReal_X : toReal X = X := by rw [toReal, PowerSeries.map_X]

theorem derivative_toReal (f : ℚ⟦X⟧) : d⁄dX ℝ (toReal f) = toReal (d⁄dX ℚ f) := by
  ext k; rw [coeff_derivative, coeff_toReal, coeff_toReal, coeff_derivative]; push_cast; rfl

theorem derivative_taylorPS (f : ℝ → ℝ) (p : ℝ) : d⁄dX ℝ (taylorPS f p) = taylorPS (deriv f) p := by
  ext k; rw [coeff_derivative, taylorPS, taylorPS, coeff_mk, coeff_mk, taylorC_deriv, mul_comm]

theorem constantCoeff_taylorPS (f : ℝ → ℝ) (p : ℝ) : constantCoeff (taylorPS f p) = f p := by
  rw [← coeff_zero_eq_constantCoeff_apply, taylorPS, coeff_mk, taylorC_zero]

theorem constantCoeff_toReal (f : ℚ⟦X⟧) : constantCoeff (toReal f) = ((constantCoeff f : ℚ) : ℝ) := by
  rw [← coeff_zero_eq_constantCoeff_apply, coeff_toReal, coeff_zero_eq_constantCoeff_apply]

/-- A' = B D, B' = -A D with A and B without constant term: both are 0. -/
theorem sin_cos_ode {A B D : ℝ⟦X⟧} (hA : d⁄dX ℝ A = B * D) (hB : d⁄dX ℝ B = -A * D) (a0 : constantCoeff A = 0)
    (b0 : constantCoeff B = 0) : A = 0 ∧ B = 0 := by
  have key : ∀ k, coeff k A = 0 ∧ coeff k B = 0 := by
    intro k
    induction k using Nat.strong_induction_on with
    | _ k ih =>
      rcases k with _ | k
      · exact ⟨by rw [coeff_zero_eq_constantCoeff_apply, a0], by rw [coeff_zero_eq_constantCoeff_apply, b0]⟩
      have hk : ((k : ℝ) + 1) ≠ 0 := by positivity
      constructor
      · have h := congrArg (coeff k) hA
        rw [coeff_derivative, coeff_mul, Finset.sum_eq_zero] at h
        · exact (mul_eq_zero.1 h).resolve_right hk
        · intro i hi
          have := Finset.mem_antidiagonal.1 hi
          rw [(ih i.1 (by omega)).2, zero_mul]
      · have h := congrArg (coeff k) hB
        rw [coeff_derivative, coeff_mul, Finset.sum_eq_zero] at h
        · exact (mul_eq_zero.1 h).resolve_right hk
        · intro i hi
          have := Finset.mem_antidiagonal.1 hi
          rw [_root_.map_neg, (ih i.1 (by omega)).1, neg_zero, zero_mul]
  exact ⟨PowerSeries.ext fun k => by rw [(key k).1]; rfl, PowerSeries.ext fun k => by rw [(key k).2]; rfl⟩

/-- A' = A D with A without constant term: A is 0. -/
theorem exp_ode {A D : ℝ⟦X⟧} (hA : d⁄dX ℝ A = A * D) (a0 : constantCoeff A = 0) : A = 0 := by
  have key : ∀ k, coeff k A = 0 := by
    intro k
    induction k using Nat.strong_induction_on with
    | _ k ih =>
      rcases k with _ | k
      · rw [coeff_zero_eq_constantCoeff_apply, a0]
      have hk : ((k : ℝ) + 1) ≠ 0 := by positivity
      have h := congrArg (coeff k) hA
      rw [coeff_derivative, coeff_mul, Finset.sum_eq_zero] at h
      · exact (mul_eq_zero.1 h).resolve_right hk
      · intro i hi
        have := Finset.mem_antidiagonal.1 hi
        rw [ih i.1 (by omega), zero_mul]
  exact PowerSeries.ext fun k => by rw [key k]; rfl

/-- f' = g' and the same constant term. -/
theorem ext_derivative {A B : ℝ⟦X⟧} (h : d⁄dX ℝ A = d⁄dX ℝ B) (h0 : constantCoeff A = constantCoeff B) : A = B :=
  PowerSeries.derivative.ext h h0

theorem analytic_log {g : ℝ → ℝ} {p : ℝ} (hg : AnalyticAt ℝ g p) (h : g p ≠ 0) :
    AnalyticAt ℝ (fun t => Real.log (g t)) p := (hg.contDiffAt.log h).analyticAt

section
variable {g : ℝ → ℝ} {p : ℝ} (hg : AnalyticAt ℝ g p)
include hg

theorem eventually_differentiable : ∀ᶠ t in 𝓝 p, DifferentiableAt ℝ g t := by
  filter_upwards [hg.eventually_analyticAt] with t ht using ht.differentiableAt

theorem taylorPS_exp {f : ℚ⟦X⟧} (hf : taylorPS g p = toReal f) (h0 : constantCoeff f = 0) :
    taylorPS (fun t => Real.exp (g t)) p = toReal ((PowerSeries.exp ℚ).subst f) := by
  have g0 : g p = 0 := by rw [← constantCoeff_taylorPS g p, hf, constantCoeff_toReal, h0]; simp
  have ha : AnalyticAt ℝ (fun t => Real.exp (g t)) p := by fun_prop
  have hd : d⁄dX ℝ (taylorPS (fun t => Real.exp (g t)) p) = taylorPS (fun t => Real.exp (g t)) p * d⁄dX ℝ (taylorPS g p) := by
    rw [derivative_taylorPS, derivative_taylorPS, ← taylorPS_mul ha hg.deriv]
    refine taylorPS_congr ?_
    filter_upwards [eventually_differentiable hg] with t ht using deriv_exp ht
  have hd' : d⁄dX ℝ (toReal ((PowerSeries.exp ℚ).subst f)) =
      toReal ((PowerSeries.exp ℚ).subst f) * d⁄dX ℝ (taylorPS g p) := by
    rw [derivative_toReal, der_exp_subst h0, hf, derivative_toReal, _root_.map_mul]
  refine sub_eq_zero.1 (exp_ode (D := d⁄dX ℝ (taylorPS g p)) (by rw [_root_.map_sub, hd, hd', sub_mul]) ?_)
  rw [_root_.map_sub, constantCoeff_taylorPS, constantCoeff_toReal, constantCoeff_subst_of_zero h0, g0]; simp

theorem taylorPS_sin_cos {f : ℚ⟦X⟧} (hf : taylorPS g p = toReal f) (h0 : constantCoeff f = 0) :
    taylorPS (fun t => Real.sin (g t)) p = toReal ((PowerSeries.sin ℚ).subst f) ∧
    taylorPS (fun t => Real.cos (g t)) p = toReal ((PowerSeries.cos ℚ).subst f) := by
  have g0 : g p = 0 := by rw [← constantCoeff_taylorPS g p, hf, constantCoeff_toReal, h0]; simp
  have ha : AnalyticAt ℝ (fun t => Real.sin (g t)) p := (Real.analyticAt_sin).comp hg
  have hb : AnalyticAt ℝ (fun t => Real.cos (g t)) p := (Real.analyticAt_cos).comp hg
  have hd : d⁄dX ℝ (taylorPS (fun t => Real.sin (g t)) p) = taylorPS (fun t => Real.cos (g t)) p * d⁄dX ℝ (taylorPS g p) := by
    rw [derivative_taylorPS, derivative_taylorPS, ← taylorPS_mul hb hg.deriv]
    refine taylorPS_congr ?_
    filter_upwards [eventually_differentiable hg] with t ht using deriv_sin ht
  have he : d⁄dX ℝ (taylorPS (fun t => Real.cos (g t)) p) = -taylorPS (fun t => Real.sin (g t)) p * d⁄dX ℝ (taylorPS g p) := by
    have hn : -taylorPS (fun t => Real.sin (g t)) p = taylorPS (fun t => -Real.sin (g t)) p := by
      ext k; rw [_root_.map_neg, taylorPS, taylorPS, coeff_mk, coeff_mk, taylorC_neg]
    rw [hn, derivative_taylorPS, derivative_taylorPS, ← taylorPS_mul ha.fun_neg hg.deriv]
    refine taylorPS_congr ?_
    filter_upwards [eventually_differentiable hg] with t ht using deriv_cos ht
  have hd' : d⁄dX ℝ (toReal ((PowerSeries.sin ℚ).subst f)) =
      toReal ((PowerSeries.cos ℚ).subst f) * d⁄dX ℝ (taylorPS g p) := by
    rw [derivative_toReal, der_sin_subst h0, hf, derivative_toReal, _root_.map_mul]
  have he' : d⁄dX ℝ (toReal ((PowerSeries.cos ℚ).subst f)) =
      -toReal ((PowerSeries.sin ℚ).subst f) * d⁄dX ℝ (taylorPS g p) := by
    rw [derivative_toReal, der_cos_subst h0, hf, derivative_toReal, _root_.map_mul, _root_.map_neg]
  obtain ⟨h1, h2⟩ := sin_cos_ode (D := d⁄dX ℝ (taylorPS g p))
    (A := taylorPS (fun t => Real.sin (g t)) p - toReal ((PowerSeries.sin ℚ).subst f))
    (B := taylorPS (fun t => Real.cos (g t)) p - toReal ((PowerSeries.cos ℚ).subst f))
    (by rw [_root_.map_sub, hd, hd', sub_mul]) (by rw [_root_.map_sub, he, he']; ring)
    (by rw [_root_.map_sub, constantCoeff_taylorPS, constantCoeff_toReal, constantCoeff_subst_of_zero h0, g0,
      constantCoeff_sin_series]; simp)
    (by rw [_root_.map_sub, constantCoeff_taylorPS, constantCoeff_toReal, constantCoeff_subst_of_zero h0, g0,
      constantCoeff_cos_series]; simp)
  exact ⟨sub_eq_zero.1 h1, sub_eq_zero.1 h2⟩

theorem taylorPS_log {f l : ℚ⟦X⟧} (hf : taylorPS g p = toReal f) (h0 : constantCoeff l = 0)
    (hl : (PowerSeries.exp ℚ).subst l = f) :
    g p = 1 ∧ taylorPS (fun t => Real.log (g t)) p = toReal l := by
  have f0 : constantCoeff f = 1 := by rw [← hl, constantCoeff_subst_of_zero h0]; simp
  have g0 : g p = 1 := by rw [← constantCoeff_taylorPS g p, hf, constantCoeff_toReal, f0]; simp
  refine ⟨g0, ?_⟩
  have ha : AnalyticAt ℝ (fun t => Real.log (g t)) p := analytic_log hg (by rw [g0]; norm_num)
  have hne : taylorPS g p ≠ 0 := fun h => by
    have := constantCoeff_taylorPS g p
    rw [h, g0] at this; simp at this
  refine ext_derivative (mul_left_cancel₀ hne ?_) (by rw [constantCoeff_taylorPS, constantCoeff_toReal, h0, g0]; simp)
  have h1 : d⁄dX ℚ f = f * d⁄dX ℚ l := by rw [← hl, der_exp_subst h0]
  rw [derivative_toReal, hf, ← _root_.map_mul, ← h1, ← derivative_toReal, ← hf, derivative_taylorPS, derivative_taylorPS,
    ← taylorPS_mul hg ha.deriv]
  refine taylorPS_congr ?_
  filter_upwards [eventually_differentiable hg, hg.continuousAt.eventually_ne (show g p ≠ 0 by rw [g0]; norm_num)]
    with t ht h2
  rw [deriv.log ht h2]; field_simp
end

/-- Near the point the expression has a value, an analytic function, and its Taylor series is the formal one. -/
theorem HasSeries.taylor {x : Variable} {p : ℚ} {e : Expr F} {f : ℚ⟦X⟧} (hs : HasSeries x p e f)
    (w : WF SmartNum.Valid e) (env : Env) :
    ∃ g : ℝ → ℝ, (∀ᶠ t in 𝓝 (p : ℝ), denote SmartNum.exactReal (env.set x t) e = some (g t)) ∧ AnalyticAt ℝ g p ∧
      taylorPS g p = toReal f := by
  induction hs with
  | num n q hq =>
    refine ⟨fun _ => q, .of_forall fun t => ?_, analyticAt_const, by rw [taylorPS_const, toReal_C]⟩
    rw [denote_ofNum, exactReal_of_exact hq (WF.num_iff.1 w)]
  | var =>
    refine ⟨fun t => p + (t - p), .of_forall fun t => by simp, by fun_prop, ?_⟩
    rw [taylorPS_add analyticAt_const (by fun_prop), taylorPS_const, taylorPS_id, _root_.map_add, toReal_C, toReal_X]
  | neg _ i =>
    obtain ⟨g, h1, h2, h3⟩ := i (WF.neg_iff.1 w)
    refine ⟨fun t => -g t, ?_, h2.fun_neg, ?_⟩
    · filter_upwards [h1] with t ht using denote_neg.2 ⟨_, ht, rfl⟩
    · rw [_root_.map_neg, ← h3]; ext k; rw [_root_.map_neg, taylorPS, taylorPS, coeff_mk, coeff_mk, taylorC_neg]
  | add _ _ i j =>
    obtain ⟨g, h1, h2, h3⟩ := i (WF.add_iff.1 w).1
    obtain ⟨g', h1', h2', h3'⟩ := j (WF.add_iff.1 w).2
    refine ⟨fun t => g t + g' t, ?_, h2.fun_add h2', by rw [taylorPS_add h2 h2', h3, h3', _root_.map_add]⟩
    filter_upwards [h1, h1'] with t ht ht' using denote_add.2 ⟨_, _, ht, ht', rfl⟩
  | sub _ _ i j =>
    obtain ⟨g, h1, h2, h3⟩ := i (WF.sub_iff.1 w).1
    obtain ⟨g', h1', h2', h3'⟩ := j (WF.sub_iff.1 w).2
    refine ⟨fun t => g t - g' t, ?_, h2.fun_sub h2', ?_⟩
    · filter_upwards [h1, h1'] with t ht ht' using denote_sub.2 ⟨_, _, ht, ht', rfl⟩
    · rw [_root_.map_sub, ← h3, ← h3']; ext k
      rw [_root_.map_sub, taylorPS, taylorPS, taylorPS, coeff_mk, coeff_mk, coeff_mk, taylorC_sub h2 h2']
  | mul _ _ i j =>
    obtain ⟨g, h1, h2, h3⟩ := i (WF.mul_iff.1 w).1
    obtain ⟨g', h1', h2', h3'⟩ := j (WF.mul_iff.1 w).2
    refine ⟨fun t => g t * g' t, ?_, h2.fun_mul h2', by rw [taylorPS_mul h2 h2', h3, h3', _root_.map_mul]⟩
    filter_upwards [h1, h1'] with t ht ht' using denote_mul.2 ⟨_, _, ht, ht', rfl⟩
  | div _ _ h0 i j =>
    obtain ⟨g, h1, h2, h3⟩ := i (WF.div_iff.1 w).1
    obtain ⟨g', h1', h2', h3'⟩ := j (WF.div_iff.1 w).2
    have g0 : g' p ≠ 0 := by
      rw [← constantCoeff_taylorPS g' p, h3', constantCoeff_toReal]; exact_mod_cast h0
    have hq : AnalyticAt ℝ (fun t => g t / g' t) p := h2.fun_div h2' g0
    have hne := h2'.continuousAt.eventually_ne g0
    refine ⟨fun t => g t / g' t, ?_, hq, ?_⟩
    · filter_upwards [h1, h1', hne] with t ht ht' h0 using denote_div.2 ⟨_, _, ht, ht', h0, rfl⟩
    · have hn : taylorPS g' p ≠ 0 := fun h => by
        have := constantCoeff_taylorPS g' p
        rw [h] at this; exact g0 (by simpa using this.symm)
      refine mul_right_cancel₀ hn ?_
      rw [← taylorPS_mul hq h2', h3', ← _root_.map_mul, mul_assoc, PowerSeries.inv_mul_cancel _ h0, mul_one, ← h3]
      refine taylorPS_congr ?_
      filter_upwards [hne] with t h0
      field_simp
  | sin _ h0 i =>
    obtain ⟨g, h1, h2, h3⟩ := i (WF.sin_iff.1 w)
    refine ⟨fun t => Real.sin (g t), ?_, Real.analyticAt_sin.comp h2, (taylorPS_sin_cos h2 h3 h0).1⟩
    filter_upwards [h1] with t ht using denote_sin.2 ⟨_, ht, rfl⟩
  | cos _ h0 i =>
    obtain ⟨g, h1, h2, h3⟩ := i (WF.cos_iff.1 w)
    refine ⟨fun t => Real.cos (g t), ?_, Real.analyticAt_cos.comp h2, (taylorPS_sin_cos h2 h3 h0).2⟩
    filter_upwards [h1] with t ht using denote_cos.2 ⟨_, ht, rfl⟩
  | exp _ h0 i =>
    obtain ⟨g, h1, h2, h3⟩ := i (WF.exp_iff.1 w)
    refine ⟨fun t => Real.exp (g t), ?_, by fun_prop, taylorPS_exp h2 h3 h0⟩
    filter_upwards [h1] with t ht using denote_exp.2 ⟨_, ht, rfl⟩
  | ln _ h0 hl i =>
    obtain ⟨g, h1, h2, h3⟩ := i (WF.ln_iff.1 w)
    obtain ⟨g1, h4⟩ := taylorPS_log h2 h3 h0 hl
    refine ⟨fun t => Real.log (g t), ?_, analytic_log h2 (by rw [g1]; norm_num), h4⟩
    filter_upwards [h1, h2.continuousAt.tendsto.eventually_const_lt (show 0 < g p by rw [g1]; norm_num)] with t ht h5
      using denote_ln.2 ⟨_, ht, h5, rfl⟩

/-- C73: the formal coefficients are those of the real function, which is analytic at p: f⁽ᵏ⁾(p)/k!, for every k and
every expression (no expansion has to be run). -/
theorem C73_taylor (m : Mode) (e : Expr F) (he : Built m e) (p : ℚ) (x : Variable) (f : ℚ⟦X⟧)
    (hf : HasSeries x p e f) (env : Env) :
    AnalyticAt ℝ (fn SmartNum.exactReal env x e) p ∧
    ∀ k, iteratedDeriv k (fn SmartNum.exactReal env x e) p / (k.factorial : ℝ) = ((coeff k f : ℚ) : ℝ) := by
  obtain ⟨g, h1, h2, h3⟩ := hf.taylor he.valid env
  have h4 : g =ᶠ[𝓝 (p : ℝ)] fn SmartNum.exactReal env x e := by
    filter_upwards [h1] with t ht
    rw [fn, ht]; rfl
  refine ⟨h2.congr h4, fun k => ?_⟩
  have h5 := congrArg (coeff k) ((taylorPS_congr h4).symm.trans h3)
  rw [coeff_toReal, taylorPS, coeff_mk] at h5
  exact h5

end SymRust
