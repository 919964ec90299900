import Verif.Spec.Expansion
import Verif.Props.Residual
/-! # The algebra of expansions: property C81 -/

namespace SymRust
variable {F : Type} [FloatOps F]
open Expr Filter Topology

/-! ## Taylor coefficients of real functions -/

/-- f⁽ᵏ⁾(p)/k! -/
noncomputable def taylorC (f : ℝ → ℝ) (p : ℝ) (k : ℕ) : ℝ := iteratedDeriv k f p / (k.factorial : ℝ)

theorem taylorC_congr {f g : ℝ → ℝ} {p : ℝ} (h : f =ᶠ[𝓝 p] g) (k : ℕ) : taylorC f p k = taylorC g p k := by
  rw [taylorC, taylorC, h.iteratedDeriv_eq]

theorem taylorC_zero (f : ℝ → ℝ) (p : ℝ) : taylorC f p 0 = f p := by simp [taylorC]

theorem taylorC_neg (f : ℝ → ℝ) (p : ℝ) (k : ℕ) : taylorC (fun t => -f t) p k = -taylorC f p k := by
  rw [taylorC, taylorC, iteratedDeriv_fun_neg, neg_div]

theorem taylorC_add {f g : ℝ → ℝ} {p : ℝ} (hf : AnalyticAt ℝ f p) (hg : AnalyticAt ℝ g p) (k : ℕ) :
    taylorC (fun t => f t + g t) p k = taylorC f p k + taylorC g p k := by
  rw [taylorC, taylorC, taylorC, ← add_div, ← iteratedDeriv_add hf.contDiffAt hg.contDiffAt]; rfl

theorem taylorC_sub {f g : ℝ → ℝ} {p : ℝ} (hf : AnalyticAt ℝ f p) (hg : AnalyticAt ℝ g p) (k : ℕ) :
    taylorC (fun t => f t - g t) p k = taylorC f p k - taylorC g p k := by
  rw [taylorC, taylorC, taylorC, ← sub_div, ← iteratedDeriv_sub hf.contDiffAt hg.contDiffAt]; rfl

theorem taylorC_mul {f g : ℝ → ℝ} {p : ℝ} (hf : AnalyticAt ℝ f p) (hg : AnalyticAt ℝ g p) (k : ℕ) :
    taylorC (fun t => f t * g t) p k = ∑ i ∈ Finset.range (k + 1), taylorC f p i * taylorC g p (k - i) := by
  have h := iteratedDeriv_mul (n := k) hf.contDiffAt hg.contDiffAt
  rw [taylorC, show (fun t => f t * g t) = f * g from rfl, h, Finset.sum_div]
  refine Finset.sum_congr rfl fun i hi => ?_
  have hik : i ≤ k := by simpa [Nat.lt_succ_iff] using hi
  rw [taylorC, taylorC, Nat.choose_eq_factorial_div_factorial hik,
    Nat.cast_div (Nat.factorial_mul_factorial_dvd_factorial hik) (by positivity)]
  have h1 : (k.factorial : ℝ) ≠ 0 := by positivity
  have h2 : (i.factorial : ℝ) ≠ 0 := by positivity
  have h3 : ((k - i).factorial : ℝ) ≠ 0 := by positivity
  push_cast
  field_simp

theorem taylorC_deriv (f : ℝ → ℝ) (p : ℝ) (k : ℕ) : taylorC (deriv f) p k = (k + 1) * taylorC f p (k + 1) := by
  rw [taylorC, taylorC, iteratedDeriv_succ', Nat.factorial_succ]
  have h1 : (k.factorial : ℝ) ≠ 0 := by positivity
  push_cast
  field_simp

/-- If g' = h f' near p, then (k+1) g_{k+1} = Σ (i+1) f_{i+1} h_{k-i}. -/
theorem taylorC_chain {f g h : ℝ → ℝ} {p : ℝ} (hf : AnalyticAt ℝ f p) (hh : AnalyticAt ℝ h p)
    (he : deriv g =ᶠ[𝓝 p] fun t => deriv f t * h t) (k : ℕ) :
    (k + 1) * taylorC g p (k + 1) = ∑ i ∈ Finset.range (k + 1), (i + 1) * taylorC f p (i + 1) * taylorC h p (k - i) := by
  rw [← taylorC_deriv, taylorC_congr he, taylorC_mul hf.deriv hh]
  exact Finset.sum_congr rfl fun i _ => by rw [taylorC_deriv]

/-! ## Expressions -/

section
variable {env : Env} {x : Variable} {v : Expr F} {p : ℝ} {n : UInt64}

theorem Expandable.tree {e : Expr F} (h : Expandable env x v p e) : Tree e := by
  obtain ⟨m, hm⟩ := h.built
  exact hm.tree

theorem Expandable.coefficient {e : Expr F} (hv : PointAt env v p) (h : Expandable env x v p e) {y : ℕ → ℝ}
    (hy : ExpandsTo env x v n e y) {k : ℕ} (hk : k ≤ n.toNat) :
    y k = taylorC (fn SmartNum.exactReal env x e) p k := by
  obtain ⟨t, h1, h2⟩ := hy
  obtain ⟨c, h3, h4⟩ := h2 k hk
  obtain ⟨m, hm⟩ := h.built
  obtain ⟨m', hm'⟩ := hv.built
  obtain ⟨r, hr⟩ := h.value
  obtain ⟨c', h5, h6⟩ := C34_coefficients m m' e v hm hm' x n t h1 hv.safe h.safe h.noLn env p r hv.value hr h.pow k hk
  rw [h3] at h5
  cases h5
  exact h6.1 _ h4

theorem Expandable.defined {e : Expr F} (h : Expandable env x v p e) :
    ∀ᶠ t in 𝓝 p, denote SmartNum.exactReal (env.set x t) e = some (fn SmartNum.exactReal env x e t) := by
  obtain ⟨r, hr⟩ := h.value
  obtain ⟨g, h1, -, -⟩ := denote_smooth h.tree hr h.pow ⊤
  simp only [Env.set_same, Env.set_set] at h1
  filter_upwards [h1] with t ht
  rw [fn, ht]; rfl

theorem Expandable.analytic {e : Expr F} (h : Expandable env x v p e) :
    AnalyticAt ℝ (fn SmartNum.exactReal env x e) p := by
  obtain ⟨r, hr⟩ := h.value
  obtain ⟨g, h1, h2, -⟩ := denote_smooth h.tree hr h.pow ⊤
  simp only [Env.set_same, Env.set_set] at h1 h2
  refine AnalyticAt.congr h2.analyticAt ?_
  filter_upwards [h1] with t ht
  rw [fn, ht]; rfl

theorem Expandable.sub {s e : Expr F} (h : Expandable env x v p e) (hs : Subterm s e)
    (hr : ∃ r, denote SmartNum.exactReal (env.set x p) s = some r) : Expandable env x v p s := by
  obtain ⟨m, hm⟩ := h.built
  exact ⟨⟨m, wf_sub hm hs⟩, ⟨fun u hu => h.safe.1 u (hu.trans hs), fun u hu => h.safe.2 u (hu.trans hs)⟩,
    fun a b hab => h.noLn a b (hab.trans hs), hr, fun u hu => h.pow u (hu.trans hs)⟩

variable {a b : Expr F}

theorem Expandable.of_neg (h : Expandable env x v p a.neg) : Expandable env x v p a := by
  obtain ⟨r, hr⟩ := h.value
  obtain ⟨u, hu, -⟩ := denote_neg.1 hr
  exact h.sub (.child _ _ a (by simp) .refl) ⟨u, hu⟩
theorem Expandable.of_sin (h : Expandable env x v p a.sin) : Expandable env x v p a := by
  obtain ⟨r, hr⟩ := h.value
  obtain ⟨u, hu, -⟩ := denote_sin.1 hr
  exact h.sub (.child _ _ a (by simp) .refl) ⟨u, hu⟩
theorem Expandable.of_cos (h : Expandable env x v p a.cos) : Expandable env x v p a := by
  obtain ⟨r, hr⟩ := h.value
  obtain ⟨u, hu, -⟩ := denote_cos.1 hr
  exact h.sub (.child _ _ a (by simp) .refl) ⟨u, hu⟩
theorem Expandable.of_exp (h : Expandable env x v p a.exp) : Expandable env x v p a := by
  obtain ⟨r, hr⟩ := h.value
  obtain ⟨u, hu, -⟩ := denote_exp.1 hr
  exact h.sub (.child _ _ a (by simp) .refl) ⟨u, hu⟩
theorem Expandable.of_ln (h : Expandable env x v p a.ln) : Expandable env x v p a := by
  obtain ⟨r, hr⟩ := h.value
  obtain ⟨u, hu, -⟩ := denote_ln.1 hr
  exact h.sub (.child _ _ a (by simp) .refl) ⟨u, hu⟩
theorem Expandable.of_add (h : Expandable env x v p (a.add b)) : Expandable env x v p a ∧ Expandable env x v p b := by
  obtain ⟨r, hr⟩ := h.value
  obtain ⟨u, w, hu, hw, -⟩ := denote_add.1 hr
  exact ⟨h.sub (.child _ _ a (by simp) .refl) ⟨u, hu⟩, h.sub (.child _ _ b (by simp) .refl) ⟨w, hw⟩⟩
theorem Expandable.of_sub (h : Expandable env x v p (a.sub b)) : Expandable env x v p a ∧ Expandable env x v p b := by
  obtain ⟨r, hr⟩ := h.value
  obtain ⟨u, w, hu, hw, -⟩ := denote_sub.1 hr
  exact ⟨h.sub (.child _ _ a (by simp) .refl) ⟨u, hu⟩, h.sub (.child _ _ b (by simp) .refl) ⟨w, hw⟩⟩
theorem Expandable.of_mul (h : Expandable env x v p (a.mul b)) : Expandable env x v p a ∧ Expandable env x v p b := by
  obtain ⟨r, hr⟩ := h.value
  obtain ⟨u, w, hu, hw, -⟩ := denote_mul.1 hr
  exact ⟨h.sub (.child _ _ a (by simp) .refl) ⟨u, hu⟩, h.sub (.child _ _ b (by simp) .refl) ⟨w, hw⟩⟩
theorem Expandable.of_div (h : Expandable env x v p (a.div b)) : Expandable env x v p a ∧ Expandable env x v p b := by
  obtain ⟨r, hr⟩ := h.value
  obtain ⟨u, w, hu, hw, -⟩ := denote_div.1 hr
  exact ⟨h.sub (.child _ _ a (by simp) .refl) ⟨u, hu⟩, h.sub (.child _ _ b (by simp) .refl) ⟨w, hw⟩⟩
theorem Expandable.of_pow (h : Expandable env x v p (a.pow b)) : Expandable env x v p a ∧ Expandable env x v p b := by
  obtain ⟨r, hr⟩ := h.value
  obtain ⟨u, w, hu, hw, -⟩ := denote_pow.1 hr
  exact ⟨h.sub (.child _ _ a (by simp) .refl) ⟨u, hu⟩, h.sub (.child _ _ b (by simp) .refl) ⟨w, hw⟩⟩
end

section
variable (env : Env) (x : Variable) (v : Expr F) (p : ℝ) (hv : PointAt env v p) (n : UInt64) (a b : Expr F)
  (u w z : ℕ → ℝ) (hu : ExpandsTo env x v n a u)
include hv hu

/-- C81: expansions of -a, a + b, a - b, a * b and a / b (coefficients u of a, w of b): the coefficients are negated,
added, subtracted, convoluted (Cauchy product), and such that their Cauchy product with w is u. -/
theorem C81_neg (h : Expandable env x v p a.neg) (hz : ExpandsTo env x v n a.neg z) (k : ℕ) (hk : k ≤ n.toNat) :
    z k = -u k := by
  rw [h.coefficient hv hz hk, h.of_neg.coefficient hv hu hk, ← taylorC_neg]
  refine taylorC_congr ?_ k
  filter_upwards [h.of_neg.defined, h.defined] with t h1 h2
  obtain ⟨r, h3, h4⟩ := denote_neg.1 h2
  rw [h1] at h3; cases h3; exact h4.symm

theorem C81_add (hw : ExpandsTo env x v n b w) (h : Expandable env x v p (a.add b)) (hz : ExpandsTo env x v n (a.add b) z)
    (k : ℕ) (hk : k ≤ n.toNat) : z k = u k + w k := by
  rw [h.coefficient hv hz hk, h.of_add.1.coefficient hv hu hk, h.of_add.2.coefficient hv hw hk,
    ← taylorC_add h.of_add.1.analytic h.of_add.2.analytic]
  refine taylorC_congr ?_ k
  filter_upwards [h.of_add.1.defined, h.of_add.2.defined, h.defined] with t h1 h2 h3
  obtain ⟨r, s, h4, h5, h6⟩ := denote_add.1 h3
  rw [h1] at h4; rw [h2] at h5; cases h4; cases h5; exact h6.symm

theorem C81_sub (hw : ExpandsTo env x v n b w) (h : Expandable env x v p (a.sub b)) (hz : ExpandsTo env x v n (a.sub b) z)
    (k : ℕ) (hk : k ≤ n.toNat) : z k = u k - w k := by
  rw [h.coefficient hv hz hk, h.of_sub.1.coefficient hv hu hk, h.of_sub.2.coefficient hv hw hk,
    ← taylorC_sub h.of_sub.1.analytic h.of_sub.2.analytic]
  refine taylorC_congr ?_ k
  filter_upwards [h.of_sub.1.defined, h.of_sub.2.defined, h.defined] with t h1 h2 h3
  obtain ⟨r, s, h4, h5, h6⟩ := denote_sub.1 h3
  rw [h1] at h4; rw [h2] at h5; cases h4; cases h5; exact h6.symm

theorem C81_mul (hw : ExpandsTo env x v n b w) (h : Expandable env x v p (a.mul b)) (hz : ExpandsTo env x v n (a.mul b) z)
    (k : ℕ) (hk : k ≤ n.toNat) : z k = ∑ i ∈ Finset.range (k + 1), u i * w (k - i) := by
  have hi : ∀ i ∈ Finset.range (k + 1), u i * w (k - i) = taylorC (fn SmartNum.exactReal env x a) p i *
      taylorC (fn SmartNum.exactReal env x b) p (k - i) := fun i hi => by
    rw [Finset.mem_range] at hi
    rw [h.of_mul.1.coefficient hv hu (by omega), h.of_mul.2.coefficient hv hw (by omega)]
  rw [h.coefficient hv hz hk, Finset.sum_congr rfl hi, ← taylorC_mul h.of_mul.1.analytic h.of_mul.2.analytic]
  refine taylorC_congr ?_ k
  filter_upwards [h.of_mul.1.defined, h.of_mul.2.defined, h.defined] with t h1 h2 h3
  obtain ⟨r, s, h4, h5, h6⟩ := denote_mul.1 h3
  rw [h1] at h4; rw [h2] at h5; cases h4; cases h5; exact h6.symm

theorem C81_div (hw : ExpandsTo env x v n b w) (h : Expandable env x v p (a.div b)) (hz : ExpandsTo env x v n (a.div b) z)
    (k : ℕ) (hk : k ≤ n.toNat) : w 0 ≠ 0 ∧ u k = ∑ i ∈ Finset.range (k + 1), z i * w (k - i) := by
  have hi : ∀ i ∈ Finset.range (k + 1), z i * w (k - i) = taylorC (fn SmartNum.exactReal env x (a.div b)) p i *
      taylorC (fn SmartNum.exactReal env x b) p (k - i) := fun i hi => by
    rw [Finset.mem_range] at hi
    rw [h.coefficient hv hz (by omega), h.of_div.2.coefficient hv hw (by omega)]
  constructor
  · rw [h.of_div.2.coefficient hv hw (Nat.zero_le _), taylorC_zero]
    have h2 := h.of_div.2.defined.self_of_nhds
    obtain ⟨r, s, h4, h5, h6, -⟩ := denote_div.1 h.defined.self_of_nhds
    rw [h2] at h5; cases h5; exact h6
  rw [h.of_div.1.coefficient hv hu hk, Finset.sum_congr rfl hi, ← taylorC_mul h.analytic h.of_div.2.analytic]
  refine taylorC_congr ?_ k
  filter_upwards [h.of_div.1.defined, h.of_div.2.defined, h.defined] with t h1 h2 h3
  obtain ⟨r, s, h4, h5, h6, h7⟩ := denote_div.1 h3
  rw [h1] at h4; rw [h2] at h5; cases h4; cases h5
  rw [← h7]; field_simp

end

/-! ## exp, ln, sin, cos, powers and derivatives -/

section
variable {env : Env} {x : Variable} {v : Expr F} {p : ℝ} {n : UInt64}

theorem Expandable.differentiable {e : Expr F} (h : Expandable env x v p e) :
    ∀ᶠ t in 𝓝 p, DifferentiableAt ℝ (fn SmartNum.exactReal env x e) t := by
  filter_upwards [h.analytic.eventually_analyticAt] with t ht using ht.differentiableAt

variable {a b : Expr F}

theorem Expandable.fn_exp (h : Expandable env x v p a.exp) :
    fn SmartNum.exactReal env x a.exp =ᶠ[𝓝 p] fun t => Real.exp (fn SmartNum.exactReal env x a t) := by
  filter_upwards [h.of_exp.defined, h.defined] with t h1 h2
  obtain ⟨r, h3, h4⟩ := denote_exp.1 h2
  rw [h1] at h3; cases h3; exact h4.symm
theorem Expandable.fn_sin (h : Expandable env x v p a.sin) :
    fn SmartNum.exactReal env x a.sin =ᶠ[𝓝 p] fun t => Real.sin (fn SmartNum.exactReal env x a t) := by
  filter_upwards [h.of_sin.defined, h.defined] with t h1 h2
  obtain ⟨r, h3, h4⟩ := denote_sin.1 h2
  rw [h1] at h3; cases h3; exact h4.symm
theorem Expandable.fn_cos (h : Expandable env x v p a.cos) :
    fn SmartNum.exactReal env x a.cos =ᶠ[𝓝 p] fun t => Real.cos (fn SmartNum.exactReal env x a t) := by
  filter_upwards [h.of_cos.defined, h.defined] with t h1 h2
  obtain ⟨r, h3, h4⟩ := denote_cos.1 h2
  rw [h1] at h3; cases h3; exact h4.symm
theorem Expandable.fn_ln (h : Expandable env x v p a.ln) :
    ∀ᶠ t in 𝓝 p, 0 < fn SmartNum.exactReal env x a t ∧
      fn SmartNum.exactReal env x a.ln t = Real.log (fn SmartNum.exactReal env x a t) := by
  filter_upwards [h.of_ln.defined, h.defined] with t h1 h2
  obtain ⟨r, h3, h4, h5⟩ := denote_ln.1 h2
  rw [h1] at h3; cases h3; exact ⟨h4, h5.symm⟩
theorem Expandable.fn_pow (h : Expandable env x v p (a.pow b)) (hb : ¬ Occurs x b) {c : ℝ}
    (hc : denote SmartNum.exactReal env b = some c) :
    ∀ᶠ t in 𝓝 p, fn SmartNum.exactReal env x a t ≠ 0 ∧
      fn SmartNum.exactReal env x (a.pow b) t = fn SmartNum.exactReal env x a t ^ c := by
  have h0 : fn SmartNum.exactReal env x a p ≠ 0 := by
    obtain ⟨⟨u, hu, hc⟩, -, -⟩ := powAll_pow.1 h.pow
    rw [h.of_pow.1.defined.self_of_nhds] at hu; cases hu
    rcases hc with hc | hc
    · exact hc.ne'
    · exact hc.1
  filter_upwards [h.of_pow.1.defined, h.defined, h.of_pow.1.analytic.continuousAt.eventually_ne h0] with t h1 h2 h3
  obtain ⟨r, s, h4, h5, h6⟩ := denote_pow.1 h2
  rw [h1] at h4; cases h4
  rw [denote_absent h.of_pow.2.tree hb, hc] at h5; cases h5
  refine ⟨h3, ?_⟩
  rw [powValue] at h6
  split at h6
  · exact (Option.some.inj h6).symm
  · cases h6
end

section
variable (env : Env) (x : Variable) (v : Expr F) (p : ℝ) (hv : PointAt env v p) (n : UInt64) (a b : Expr F)
  (u w z : ℕ → ℝ) (hu : ExpandsTo env x v n a u)
include hv hu

/-- C81: exp. -/
theorem C81_exp (h : Expandable env x v p a.exp) (hz : ExpandsTo env x v n a.exp z) :
    z 0 = Real.exp (u 0) ∧ ∀ k, k + 1 ≤ n.toNat →
      (k + 1) * z (k + 1) = ∑ i ∈ Finset.range (k + 1), (i + 1) * u (i + 1) * z (k - i) := by
  constructor
  · rw [h.coefficient hv hz (Nat.zero_le _), h.of_exp.coefficient hv hu (Nat.zero_le _), taylorC_zero, taylorC_zero,
      h.fn_exp.self_of_nhds]
  intro k hk
  have hi : ∀ i ∈ Finset.range (k + 1), (i + 1) * u (i + 1) * z (k - i) =
      (i + 1) * taylorC (fn SmartNum.exactReal env x a) p (i + 1) *
      taylorC (fn SmartNum.exactReal env x a.exp) p (k - i) := fun i hi => by
    rw [Finset.mem_range] at hi
    rw [h.coefficient hv hz (by omega), h.of_exp.coefficient hv hu (by omega)]
  rw [h.coefficient hv hz hk, Finset.sum_congr rfl hi, taylorC_chain h.of_exp.analytic h.analytic ?_]
  filter_upwards [h.fn_exp.eventuallyEq_nhds, h.of_exp.differentiable] with t h1 h2
  rw [h1.deriv_eq, deriv_exp h2, h1.self_of_nhds, mul_comm]

/-- C81: ln. -/
theorem C81_ln (h : Expandable env x v p a.ln) (hz : ExpandsTo env x v n a.ln z) :
    0 < u 0 ∧ z 0 = Real.log (u 0) ∧ ∀ k, k + 1 ≤ n.toNat →
      (k + 1) * u (k + 1) = ∑ i ∈ Finset.range (k + 1), (i + 1) * z (i + 1) * u (k - i) := by
  have h0 := h.fn_ln.self_of_nhds
  rw [h.coefficient hv hz (Nat.zero_le _), h.of_ln.coefficient hv hu (Nat.zero_le _), taylorC_zero, taylorC_zero]
  refine ⟨h0.1, h0.2, ?_⟩
  intro k hk
  have hi : ∀ i ∈ Finset.range (k + 1), (i + 1) * z (i + 1) * u (k - i) =
      (i + 1) * taylorC (fn SmartNum.exactReal env x a.ln) p (i + 1) *
      taylorC (fn SmartNum.exactReal env x a) p (k - i) := fun i hi => by
    rw [Finset.mem_range] at hi
    rw [h.coefficient hv hz (by omega), h.of_ln.coefficient hv hu (by omega)]
  rw [h.of_ln.coefficient hv hu hk, Finset.sum_congr rfl hi, taylorC_chain h.analytic h.of_ln.analytic ?_]
  filter_upwards [eventually_eventually_nhds.2 h.fn_ln, h.of_ln.differentiable] with t h1 h2
  have h3 : fn SmartNum.exactReal env x a.ln =ᶠ[𝓝 t] fun s => Real.log (fn SmartNum.exactReal env x a s) := by
    filter_upwards [h1] with s hs using hs.2
  have h4 := h1.self_of_nhds.1
  rw [h3.deriv_eq, deriv.log h2 h4.ne']
  field_simp

/-- C81: sin and cos of the same expression (w: coefficients of sin a, z: of cos a). -/
theorem C81_sin_cos (h : Expandable env x v p a.sin) (h' : Expandable env x v p a.cos)
    (hw : ExpandsTo env x v n a.sin w) (hz : ExpandsTo env x v n a.cos z) :
    w 0 = Real.sin (u 0) ∧ z 0 = Real.cos (u 0) ∧ ∀ k, k + 1 ≤ n.toNat →
      (k + 1) * w (k + 1) = ∑ i ∈ Finset.range (k + 1), (i + 1) * u (i + 1) * z (k - i) ∧
      (k + 1) * z (k + 1) = -∑ i ∈ Finset.range (k + 1), (i + 1) * u (i + 1) * w (k - i) := by
  refine ⟨?_, ?_, fun k hk => ⟨?_, ?_⟩⟩
  · rw [h.coefficient hv hw (Nat.zero_le _), h.of_sin.coefficient hv hu (Nat.zero_le _), taylorC_zero, taylorC_zero,
      h.fn_sin.self_of_nhds]
  · rw [h'.coefficient hv hz (Nat.zero_le _), h'.of_cos.coefficient hv hu (Nat.zero_le _), taylorC_zero, taylorC_zero,
      h'.fn_cos.self_of_nhds]
  · have hi : ∀ i ∈ Finset.range (k + 1), (i + 1) * u (i + 1) * z (k - i) =
        (i + 1) * taylorC (fn SmartNum.exactReal env x a) p (i + 1) *
        taylorC (fn SmartNum.exactReal env x a.cos) p (k - i) := fun i hi => by
      rw [Finset.mem_range] at hi
      rw [h'.coefficient hv hz (by omega), h.of_sin.coefficient hv hu (by omega)]
    rw [h.coefficient hv hw hk, Finset.sum_congr rfl hi, taylorC_chain h.of_sin.analytic h'.analytic ?_]
    filter_upwards [h.fn_sin.eventuallyEq_nhds, h'.fn_cos, h.of_sin.differentiable] with t h1 h3 h2
    rw [h1.deriv_eq, deriv_sin h2, h3, mul_comm]
  · have hi : ∀ i ∈ Finset.range (k + 1), (i + 1) * u (i + 1) * w (k - i) =
        -((i + 1) * taylorC (fn SmartNum.exactReal env x a) p (i + 1) *
        taylorC (fun t => -fn SmartNum.exactReal env x a.sin t) p (k - i)) := fun i hi => by
      rw [Finset.mem_range] at hi
      rw [h.coefficient hv hw (by omega), h.of_sin.coefficient hv hu (by omega), taylorC_neg]; ring
    rw [h'.coefficient hv hz hk, Finset.sum_congr rfl hi, Finset.sum_neg_distrib, neg_neg,
      taylorC_chain h.of_sin.analytic h.analytic.fun_neg ?_]
    filter_upwards [h'.fn_cos.eventuallyEq_nhds, h.fn_sin, h.of_sin.differentiable] with t h1 h3 h2
    rw [h1.deriv_eq, deriv_cos h2, h3]; ring

/-- C81: powers with an exponent without x, of the value c. -/
theorem C81_pow (h : Expandable env x v p (a.pow b)) (hb : ¬ Occurs x b) (c : ℝ)
    (hc : denote SmartNum.exactReal env b = some c) (hz : ExpandsTo env x v n (a.pow b) z) :
    u 0 ≠ 0 ∧ z 0 = u 0 ^ c ∧ ∀ k, k + 1 ≤ n.toNat →
      ∑ i ∈ Finset.range (k + 1), (i + 1) * z (i + 1) * u (k - i) =
      c * ∑ i ∈ Finset.range (k + 1), (i + 1) * u (i + 1) * z (k - i) := by
  have h0 := (h.fn_pow hb hc).self_of_nhds
  rw [h.coefficient hv hz (Nat.zero_le _), h.of_pow.1.coefficient hv hu (Nat.zero_le _), taylorC_zero, taylorC_zero]
  refine ⟨h0.1, h0.2, ?_⟩
  intro k hk
  have hi : ∀ i ∈ Finset.range (k + 1), (i + 1) * z (i + 1) * u (k - i) =
      taylorC (deriv (fn SmartNum.exactReal env x (a.pow b))) p i *
      taylorC (fn SmartNum.exactReal env x a) p (k - i) := fun i hi => by
    rw [Finset.mem_range] at hi
    rw [h.coefficient hv hz (by omega), h.of_pow.1.coefficient hv hu (by omega), taylorC_deriv]
  have hj : ∀ i ∈ Finset.range (k + 1), c * ((i + 1) * u (i + 1) * z (k - i)) =
      taylorC (fun t => c * deriv (fn SmartNum.exactReal env x a) t) p i *
      taylorC (fn SmartNum.exactReal env x (a.pow b)) p (k - i) := fun i hi => by
    rw [Finset.mem_range] at hi
    have hcm : taylorC (fun t => c * deriv (fn SmartNum.exactReal env x a) t) p i =
        c * taylorC (deriv (fn SmartNum.exactReal env x a)) p i := by
      rw [taylorC, taylorC, iteratedDeriv_const_mul_field, mul_div_assoc]
    rw [h.coefficient hv hz (by omega), h.of_pow.1.coefficient hv hu (by omega), hcm, taylorC_deriv]; ring
  rw [Finset.mul_sum, Finset.sum_congr rfl hi, Finset.sum_congr rfl hj,
    ← taylorC_mul h.analytic.deriv h.of_pow.1.analytic,
    ← taylorC_mul (analyticAt_const.fun_mul h.of_pow.1.analytic.deriv) h.analytic]
  refine taylorC_congr ?_ k
  filter_upwards [eventually_eventually_nhds.2 (h.fn_pow hb hc), h.of_pow.1.differentiable] with t h1 h2
  have h3 : fn SmartNum.exactReal env x (a.pow b) =ᶠ[𝓝 t] fun s => fn SmartNum.exactReal env x a s ^ c := by
    filter_upwards [h1] with s hs using hs.2
  have h4 := h1.self_of_nhds.1
  have h5 := (h2.hasDerivAt.rpow_const (p := c) (.inl h4)).deriv
  rw [h3.deriv_eq, h5, h3.self_of_nhds, Real.rpow_sub_one h4]
  field_simp

/-- C81: the derivative. -/
theorem C81_derivative (hd : a.derivative .strict x = .ok b) (h : Expandable env x v p a) (h' : Expandable env x v p b)
    (hz : ExpandsTo env x v n b z) (k : ℕ) (hk : k + 1 ≤ n.toNat) : z k = (k + 1) * u (k + 1) := by
  rw [h'.coefficient hv hz (by omega), h.coefficient hv hu hk, ← taylorC_deriv]
  refine taylorC_congr ?_ k
  obtain ⟨m, hm⟩ := h.built
  obtain ⟨r, hr⟩ := h.value
  have hpo := powOK_open h.tree hr h.pow
  simp only [Env.set_same, Env.set_set] at hpo
  filter_upwards [eventually_eventually_nhds.2 h.defined, h'.defined, hpo] with t h1 h2 h3
  obtain ⟨y, ⟨g, hg1, hg2⟩, hy, -⟩ := C30_derivative m a b hm x _ h.safe hd _ _ h1.self_of_nhds h3
  simp only [Env.set_same, Env.set_set] at hg1 hg2
  rw [hy _ h2, ← hg2.deriv]
  refine Filter.EventuallyEq.deriv_eq ?_
  filter_upwards [hg1, h1] with s h4 h5
  rw [h4] at h5; exact Option.some.inj h5

end

/-! ## Non-vacuous -/

/-- A number is not a rounded float. -/
def SmartNum.noFloatB (n : SmartNum F) : Bool :=
  match n.tag, n.value with
  | .pi, _ => true
  | .e, _ => true
  | _, .real _ => false
  | _, _ => true

mutual
/-- A check for `NoFloat`. -/
def Expr.noFloatB : Expr F → Bool
  | .mk (.operand (.num n)) l => n.noFloatB && noFloatL l
  | .mk _ l => noFloatL l
def Expr.noFloatL : List (Expr F) → Bool
  | [] => true
  | a :: l => noFloatB a && noFloatL l
end

omit [FloatOps F] in
theorem Expr.noFloatL_mem {l : List (Expr F)} (h : noFloatL l = true) {a : Expr F} (ha : a ∈ l) : noFloatB a = true := by
  induction l with
  | nil => cases ha
  | cons b l ih =>
    rw [noFloatL, Bool.and_eq_true] at h
    rcases List.mem_cons.1 ha with rfl | ha
    · exact h.1
    · exact ih h.2 ha

omit [FloatOps F] in
theorem noFloat_of_check {e : Expr F} (h : e.noFloatB = true) : NoFloat e := by
  intro n hn
  induction hn with
  | refl =>
    simp only [ofNum, noFloatB, SmartNum.noFloatB, Bool.and_eq_true] at h
    split at h
    · left; assumption
    · right; left; assumption
    · simp at h
    · right; right; intro f hf; simp_all
  | child r c a ha _ ih =>
    refine ih (noFloatL_mem (l := c) ?_ ha)
    cases r with
    | operator o => simpa [noFloatB] using h
    | operand o =>
      cases o with
      | num k => simp only [noFloatB, Bool.and_eq_true] at h; exact h.2
      | var k => simpa [noFloatB] using h

/-- A successful expansion without rounded floats. -/
def Out.okNoFloat : Out (TaylorExpansionError F) (PartialExpansion F) → Bool
  | .ok t => noFloatL t.coefficient
  | _ => false

theorem Expandable.expandsTo {env : Env} {x : Variable} {v : Expr F} {p : ℝ} {n : UInt64} {e : Expr F}
    (hv : PointAt env v p) (h : Expandable env x v p e)
    (hc : Out.okNoFloat (e.taylorExpansion .strict x v n) = true) :
    ExpandsTo env x v n e (taylorC (fn SmartNum.exactReal env x e) p) := by
  cases ht : e.taylorExpansion .strict x v n with
  | ok t =>
    rw [ht] at hc
    refine ⟨t, ht, fun k hk => ?_⟩
    obtain ⟨m, hm⟩ := h.built
    obtain ⟨m', hm'⟩ := hv.built
    obtain ⟨r, hr⟩ := h.value
    obtain ⟨c', h5, h6⟩ := C34_coefficients m m' e v hm hm' x n t ht hv.safe h.safe h.noLn env p r hv.value hr h.pow k hk
    exact ⟨c', h5, h6.2 (noFloat_of_check (noFloatL_mem hc (List.mem_of_getElem? h5)))⟩
  | _ => rw [ht] at hc; cases hc

/-- C81, non-vacuous: x^2 * sin(x) at 2, to order 3, and its factors have exact expansions, so that C81_mul, C81_pow
apply (for every float implementation). -/
theorem C81_instance (env : Env) :
    let x : Expr F := newVariable "x"
    let a := x.pow (ofI64 2)
    PointAt env (ofI64 2 : Expr F) 2 ∧ Expandable env ⟨"x"⟩ (ofI64 2) 2 (a.mul x.sin) ∧
    ∃ t u w z, ExpandsTo env ⟨"x"⟩ (ofI64 2) 3 x t ∧ ExpandsTo env ⟨"x"⟩ (ofI64 2) 3 a u ∧
      ExpandsTo env ⟨"x"⟩ (ofI64 2) 3 x.sin w ∧ ExpandsTo env ⟨"x"⟩ (ofI64 2) 3 (a.mul x.sin) z ∧
      z 3 = u 0 * w 3 + u 1 * w 2 + u 2 * w 1 + u 3 * w 0 := by
  intro x a
  obtain ⟨h1, h2, h3, h4, h5, h6, h7, h8, -⟩ := meets_hypotheses (F := F) env 3 (by decide)
  have hv : PointAt env (ofI64 2 : Expr F) 2 := ⟨⟨_, h2⟩, h4, h6⟩
  have he : Expandable env ⟨"x"⟩ (ofI64 2) 2 (a.mul x.sin) := ⟨⟨_, h1⟩, h3, h5, ⟨_, h7⟩, h8⟩
  have hx := (he.of_mul.2.of_sin).expandsTo (n := 3) hv (by krfl)
  have ha := (he.of_mul.1).expandsTo (n := 3) hv (by krfl)
  have hs := (he.of_mul.2).expandsTo (n := 3) hv (by krfl)
  have hm := he.expandsTo (n := 3) hv (by krfl)
  refine ⟨hv, he, _, _, _, _, hx, ha, hs, hm, ?_⟩
  have := C81_mul env _ _ _ hv _ _ _ _ _ _ ha hs he hm 3 (by decide)
  simpa [Finset.sum_range_succ] using this

/-- C81, non-vacuous: the same for C81_div, C81_sub, C81_neg, C81_ln, C81_exp, C81_sin_cos and C81_derivative:
(ln(x) - cos(x)) / (-exp(x)) and sin(x) at 2, to order 2. -/
theorem C81_instance_2 (env : Env) :
    let x : Expr F := newVariable "x"
    let e := (x.ln.sub x.cos).div x.exp.neg
    PointAt env (ofI64 2 : Expr F) 2 ∧ Expandable env ⟨"x"⟩ (ofI64 2) 2 e ∧
    (∀ s ∈ [x, x.ln, x.sin, x.cos, x.ln.sub x.cos, x.exp, x.exp.neg, e],
      Expandable env ⟨"x"⟩ (ofI64 2) 2 s ∧ (∃ u, ExpandsTo env ⟨"x"⟩ (ofI64 2) 2 s u)) ∧
    x.sin.derivative .strict ⟨"x"⟩ = .ok x.cos := by
  intro x e
  have hx : x = ofVar ⟨"x"⟩ := rfl
  obtain ⟨-, h2, -, h4, -, h6, -⟩ := meets_hypotheses (F := F) env 3 (by decide)
  have hv : PointAt env (ofI64 2 : Expr F) 2 := ⟨⟨_, h2⟩, h4, h6⟩
  have hset : ∀ env : Env, denote SmartNum.exactReal (env.set ⟨"x"⟩ 2) x = some 2 := by
    intro env; simp [hx, Env.set]
  have hav : ∀ c : ℝ, (2 : ℝ) ≠ c → Avoids SmartNum.exactReal (AtPoint SmartNum.exactReal ⟨"x"⟩ (ofI64 2 : Expr F)) x c :=
    fun c hc => ⟨env.set ⟨"x"⟩ 2, ⟨env, 2, h6, rfl⟩, 2, hset env, hc⟩
  have hpi : (2 : ℝ) ≠ Real.pi := by have := Real.pi_gt_three; intro h; linarith
  have bx : Built .debug x := .var ⟨"x"⟩
  have hln : NoLn (ofI64 2 : Expr F) := noLn_iff.2 (everywhere_ofNum.2 (by intro c h; expr_inj at h))
  have he : Expandable env ⟨"x"⟩ (ofI64 2) 2 e := by
    refine ⟨⟨.debug, .div _ _ (.sub _ _ (.ln _ bx) (.cos _ bx)) (.neg _ (.exp _ bx))⟩, ?_, fun _ _ _ _ => hln, ?_, ?_⟩
    · exact safeD_div.2 ⟨safeD_sub.2 ⟨safeD_ln.2 (safeD_ofVar _), safeD_cos.2 ⟨hav _ hpi, safeD_ofVar _⟩⟩,
        safeD_neg.2 (safeD_exp.2 (safeD_ofVar _))⟩
    · exact ⟨_, denote_div.2 ⟨_, _, denote_sub.2 ⟨_, _, denote_ln.2 ⟨2, hset env, two_pos, rfl⟩,
        denote_cos.2 ⟨2, hset env, rfl⟩, rfl⟩, denote_neg.2 ⟨_, denote_exp.2 ⟨2, hset env, rfl⟩, rfl⟩,
        neg_ne_zero.2 (Real.exp_ne_zero 2), rfl⟩⟩
    · exact powAll_div.2 ⟨powAll_sub.2 ⟨powAll_ln.2 (powAll_ofVar _), powAll_cos.2 (powAll_ofVar _)⟩,
        powAll_neg.2 (powAll_exp.2 (powAll_ofVar _))⟩
  have hsin : Expandable env ⟨"x"⟩ (ofI64 2) 2 x.sin :=
    ⟨⟨.debug, .sin _ bx⟩, safeD_sin.2 ⟨hav _ hpi, safeD_ofVar _⟩, fun _ _ _ _ => hln,
      ⟨_, denote_sin.2 ⟨2, hset env, rfl⟩⟩, powAll_sin.2 (powAll_ofVar _)⟩
  have key : ∀ s : Expr F, Expandable env ⟨"x"⟩ (ofI64 2) 2 s →
      Out.okNoFloat (s.taylorExpansion .strict ⟨"x"⟩ (ofI64 2) 2) = true →
      Expandable env ⟨"x"⟩ (ofI64 2) 2 s ∧ (∃ u, ExpandsTo env ⟨"x"⟩ (ofI64 2) 2 s u) :=
    fun s h1 h2 => ⟨h1, _, h1.expandsTo hv h2⟩
  refine ⟨hv, he, ?_, by krfl⟩
  intro s hs
  simp only [List.mem_cons, List.not_mem_nil, or_false] at hs
  rcases hs with rfl | rfl | rfl | rfl | rfl | rfl | rfl | rfl
  · exact key _ hsin.of_sin (by krfl)
  · exact key _ he.of_div.1.of_sub.1 (by krfl)
  · exact key _ hsin (by krfl)
  · exact key _ he.of_div.1.of_sub.2 (by krfl)
  · exact key _ he.of_div.1 (by krfl)
  · exact key _ he.of_div.2.of_neg (by krfl)
  · exact key _ he.of_div.2 (by krfl)
  · exact key _ he (by krfl)

end SymRust
