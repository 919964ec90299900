import Verif.Props.ExpansionAlgebra
import Mathlib.RingTheory.PowerSeries.Basic
import Mathlib.Analysis.Analytic.IsolatedZeros
/-! # Composition of expansions: property C82 -/

namespace SymRust
variable {F : Type} [FloatOps F]
open Expr Filter Topology

/-! ## The Taylor series of a composition -/

/-- The formal Taylor series of f at p. -/
noncomputable def taylorPS (f : ℝ → ℝ) (p : ℝ) : PowerSeries ℝ := PowerSeries.mk (taylorC f p)

theorem taylorPS_congr {f g : ℝ → ℝ} {p : ℝ} (h : f =ᶠ[𝓝 p] g) : taylorPS f p = taylorPS g p := by
  ext k; rw [taylorPS, taylorPS, PowerSeries.coeff_mk, PowerSeries.coeff_mk, taylorC_congr h]

theorem taylorPS_add {f g : ℝ → ℝ} {p : ℝ} (hf : AnalyticAt ℝ f p) (hg : AnalyticAt ℝ g p) :
    taylorPS (fun t => f t + g t) p = taylorPS f p + taylorPS g p := by
  ext k; simp [taylorPS, taylorC_add hf hg]

theorem taylorPS_mul {f g : ℝ → ℝ} {p : ℝ} (hf : AnalyticAt ℝ f p) (hg : AnalyticAt ℝ g p) :
    taylorPS (fun t => f t * g t) p = taylorPS f p * taylorPS g p := by
  ext k
  rw [PowerSeries.coeff_mul, Finset.Nat.sum_antidiagonal_eq_sum_range_succ_mk]
  simp [taylorPS, taylorC_mul hf hg]

theorem taylorPS_const (c p : ℝ) : taylorPS (fun _ => c) p = PowerSeries.C c := by
  ext k
  rw [PowerSeries.coeff_C, taylorPS, PowerSeries.coeff_mk, taylorC, iteratedDeriv_const]
  split <;> simp_all

theorem taylorPS_id (p : ℝ) : taylorPS (fun t => t - p) p = PowerSeries.X := by
  ext k
  rw [PowerSeries.coeff_X, taylorPS, PowerSeries.coeff_mk]
  rcases k with _ | _ | k
  · simp [taylorC]
  · have : deriv (fun t : ℝ => t - p) = fun _ => 1 := by funext t; simp
    simp [taylorC, iteratedDeriv_succ', this]
  · have : deriv (fun t : ℝ => t - p) = fun _ => 1 := by funext t; simp
    rw [taylorC, iteratedDeriv_succ', this, iteratedDeriv_const]; simp

theorem analyticAt_dslope {f : ℝ → ℝ} {q : ℝ} (hf : AnalyticAt ℝ f q) : AnalyticAt ℝ (dslope f q) q := by
  obtain ⟨s, hs⟩ := hf
  exact ⟨_, hs.has_fpower_series_dslope_fslope⟩

theorem taylorC_dslope {f : ℝ → ℝ} {q : ℝ} (hf : AnalyticAt ℝ f q) (k : ℕ) :
    taylorC (dslope f q) q k = taylorC f q (k + 1) := by
  have h1 : f = fun t => f q + (t - q) * dslope f q t := by
    funext t
    have := sub_smul_dslope f q t
    rw [smul_eq_mul] at this
    linarith
  have h2 : taylorPS f q = PowerSeries.C (f q) + PowerSeries.X * taylorPS (dslope f q) q := by
    have hid : AnalyticAt ℝ (fun t : ℝ => t - q) q := by fun_prop
    conv_lhs => rw [h1]
    rw [taylorPS_add analyticAt_const (hid.fun_mul (analyticAt_dslope hf)), taylorPS_mul hid (analyticAt_dslope hf),
      taylorPS_const, taylorPS_id]
  have h3 := congrArg (PowerSeries.coeff (k + 1)) h2
  rw [_root_.map_add, PowerSeries.coeff_succ_X_mul, PowerSeries.coeff_C, if_neg (by omega), zero_add] at h3
  simpa [taylorPS] using h3.symm

/-- Taylor's formula for f ∘ g, as formal series. -/
theorem taylorPS_comp {g : ℝ → ℝ} {p : ℝ} (hg : AnalyticAt ℝ g p) (n : ℕ) :
    ∀ f : ℝ → ℝ, AnalyticAt ℝ f (g p) → ∃ R : PowerSeries ℝ, taylorPS (fun t => f (g t)) p =
      ∑ j ∈ Finset.range n, PowerSeries.C (taylorC f (g p) j) * taylorPS (fun t => g t - g p) p ^ j +
      taylorPS (fun t => g t - g p) p ^ n * R := by
  induction n with
  | zero => intro f hf; exact ⟨taylorPS (fun t => f (g t)) p, by simp⟩
  | succ n ih =>
    intro f hf
    obtain ⟨R, hR⟩ := ih _ (analyticAt_dslope hf)
    refine ⟨R, ?_⟩
    have h1 : (fun t => f (g t)) = fun t => f (g p) + (g t - g p) * dslope f (g p) (g t) := by
      funext t
      have := sub_smul_dslope f (g p) (g t)
      rw [smul_eq_mul] at this
      linarith
    have hd : AnalyticAt ℝ (fun t => dslope f (g p) (g t)) p := (analyticAt_dslope hf).comp hg
    rw [h1, taylorPS_add analyticAt_const ((hg.fun_sub analyticAt_const).fun_mul hd),
      taylorPS_mul (hg.fun_sub analyticAt_const) hd, taylorPS_const, hR, Finset.sum_range_succ', taylorC_zero]
    simp only [taylorC_dslope hf, mul_add, Finset.mul_sum, pow_zero, mul_one, pow_succ]
    rw [add_comm (PowerSeries.C (f (g p))), add_right_comm]
    congr 1
    · congr 1
      exact Finset.sum_congr rfl fun j _ => by ring
    · ring

/-- The same coefficients up to n. -/
def Agree (n : ℕ) (A B : PowerSeries ℝ) : Prop := ∀ k, k ≤ n → PowerSeries.coeff k A = PowerSeries.coeff k B

theorem Agree.mul {n : ℕ} {A B A' B' : PowerSeries ℝ} (h : Agree n A B) (h' : Agree n A' B') :
    Agree n (A * A') (B * B') := by
  intro k hk
  rw [PowerSeries.coeff_mul, PowerSeries.coeff_mul]
  refine Finset.sum_congr rfl fun i hi => ?_
  have := Finset.mem_antidiagonal.1 hi
  rw [h _ (by omega), h' _ (by omega)]

theorem Agree.pow {n : ℕ} {A B : PowerSeries ℝ} (h : Agree n A B) (j : ℕ) : Agree n (A ^ j) (B ^ j) := by
  induction j with
  | zero => intro k _; simp
  | succ j ih => rw [pow_succ, pow_succ]; exact ih.mul h

theorem coeff_polynomialOf (n : ℕ) (u : ℕ → ℝ) (k : ℕ) : (polynomialOf n u).coeff k = if k ≤ n then u k else 0 := by
  rw [polynomialOf, Polynomial.finsetSum_coeff]
  simp only [Polynomial.coeff_C_mul, Polynomial.coeff_X_pow, mul_ite, mul_one, mul_zero, Finset.sum_ite_eq,
    Finset.mem_range, Nat.lt_succ_iff]

theorem taylorC_comp {f g : ℝ → ℝ} {p : ℝ} (hg : AnalyticAt ℝ g p) (hf : AnalyticAt ℝ f (g p)) {n : ℕ} {u w : ℕ → ℝ}
    (hu : ∀ k, k ≤ n → u k = taylorC f (g p) k) (hw : ∀ k, k ≤ n → w k = taylorC g p k) {k : ℕ} (hk : k ≤ n) :
    taylorC (fun t => f (g t)) p k =
      ((polynomialOf n u).comp (polynomialOf n w - Polynomial.C (w 0))).coeff k := by
  obtain ⟨R, hR⟩ := taylorPS_comp hg (n + 1) f hf
  set G := taylorPS (fun t => g t - g p) p with hG
  have hsub : G = taylorPS g p - PowerSeries.C (g p) := by
    have : (fun t => g t - g p) = fun t => g t + (fun _ => -g p) t := by funext t; ring
    rw [hG, this, taylorPS_add hg analyticAt_const, taylorPS_const, _root_.map_neg, ← sub_eq_add_neg]
  have hag : Agree n ((polynomialOf n w - Polynomial.C (w 0) : Polynomial ℝ) : PowerSeries ℝ) G := by
    intro j hj
    rw [hsub, Polynomial.coeff_coe, Polynomial.coeff_sub, coeff_polynomialOf, if_pos hj, _root_.map_sub,
      PowerSeries.coeff_C, Polynomial.coeff_C, taylorPS, PowerSeries.coeff_mk, hw j hj, hw 0 (Nat.zero_le _),
      taylorC_zero]
  have hX : PowerSeries.X ∣ G := by
    rw [PowerSeries.X_dvd_iff, hG, ← PowerSeries.coeff_zero_eq_constantCoeff_apply, taylorPS, PowerSeries.coeff_mk,
      taylorC_zero, sub_self]
  have hlast : PowerSeries.coeff k (G ^ (n + 1) * R) = 0 := by
    refine PowerSeries.X_pow_dvd_iff.1 (Dvd.dvd.mul_right (pow_dvd_pow_of_dvd hX _) R) k (by omega)
  have h1 := congrArg (PowerSeries.coeff k) hR
  rw [_root_.map_add, hlast, add_zero, taylorPS, PowerSeries.coeff_mk, _root_.map_sum] at h1
  rw [h1]
  conv_rhs => rw [polynomialOf]
  rw [Polynomial.sum_comp, Polynomial.finsetSum_coeff]
  refine Finset.sum_congr rfl fun j hj => ?_
  have hj : j ≤ n := by simpa [Nat.lt_succ_iff] using hj
  rw [Polynomial.mul_comp, Polynomial.C_comp, Polynomial.pow_comp, Polynomial.X_comp, Polynomial.coeff_C_mul,
    PowerSeries.coeff_C_mul, hu j hj, ← hag.pow j k hk, ← Polynomial.coe_pow, Polynomial.coeff_coe]

/-! ## Substitution -/

section
variable (env : Env) (x y : Variable) (v q : Expr F) (p : ℝ) (n : UInt64) (e s r : Expr F) (u w z : ℕ → ℝ)

/-- C82: let s expand to w by x at v, e to u by y at a point with the value w 0, and the expression with y replaced by
s to z by x at v; either y is x or x does not occur in e.  Then the coefficients z are those of the composition of the
two polynomials, u ∘ (w - w 0), up to the order. -/
theorem C82_composition (hv : PointAt env v p) (hq : PointAt env q (w 0)) (hxy : y = x ∨ ¬ Occurs x e)
    (hs : Expandable env x v p s) (hw : ExpandsTo env x v n s w)
    (he : Expandable env y q (w 0) e) (hu : ExpandsTo env y q n e u)
    (hsub : e.substitute y s = .ok r) (hr : Expandable env x v p r) (hz : ExpandsTo env x v n r z)
    (k : ℕ) (hk : k ≤ n.toNat) :
    z k = ((polynomialOf n.toNat u).comp (polynomialOf n.toNat w - Polynomial.C (w 0))).coeff k := by
  have hw0 : w 0 = fn SmartNum.exactReal env x s p := by
    rw [hs.coefficient hv hw (Nat.zero_le _), taylorC_zero]
  have hcomp : fn SmartNum.exactReal env x r =ᶠ[𝓝 p] fun t => fn SmartNum.exactReal env y e
      (fn SmartNum.exactReal env x s t) := by
    filter_upwards [hs.defined] with t ht
    generalize hg : fn SmartNum.exactReal env x s t = g at ht ⊢
    rw [fn, fn, C27_value _ _ _ _ he.tree y hsub _ _ ht]
    rcases hxy with rfl | hx
    · rw [Env.set_set]
    · congr 1
      refine denote_congr he.tree fun a ha => ?_
      have hax : a ≠ x := fun h => hx (h ▸ ha)
      simp [Env.set, hax]
  rw [hr.coefficient hv hz hk, taylorC_congr hcomp]
  have he' := he.analytic
  rw [hw0] at he'
  refine taylorC_comp hs.analytic he' (fun j hj => ?_) (fun j hj => hs.coefficient hv hw hj) hk
  rw [he.coefficient hq hu hj, hw0]

/-- C82: replacing y by an expression that is linear in x (up to the order) with slope c = w 1 multiplies coefficient k
by c^k: expansions of e(x + d) and e(c x). -/
theorem C82_linear (hv : PointAt env v p) (hq : PointAt env q (w 0)) (hxy : y = x ∨ ¬ Occurs x e)
    (hs : Expandable env x v p s) (hw : ExpandsTo env x v n s w)
    (he : Expandable env y q (w 0) e) (hu : ExpandsTo env y q n e u)
    (hsub : e.substitute y s = .ok r) (hr : Expandable env x v p r) (hz : ExpandsTo env x v n r z)
    (hlin : ∀ i, 2 ≤ i → i ≤ n.toNat → w i = 0)
    (k : ℕ) (hk : k ≤ n.toNat) : z k = u k * w 1 ^ k := by
  have h := C82_composition env x y v q p n e s r u w z hv hq hxy hs hw he hu hsub hr hz k hk
  rcases Nat.eq_zero_or_pos n.toNat with h0 | h0
  · rw [h0] at h
    obtain rfl : k = 0 := by omega
    rw [h]; simp [polynomialOf]
  have hG : polynomialOf n.toNat w - Polynomial.C (w 0) = Polynomial.C (w 1) * Polynomial.X := by
    ext j
    rw [Polynomial.coeff_sub, coeff_polynomialOf, Polynomial.coeff_C_mul, Polynomial.coeff_X, Polynomial.coeff_C]
    rcases j with _ | _ | j
    · simp
    · simp [show n.toNat ≠ 0 by omega]
    · by_cases hj : j + 2 ≤ n.toNat
      · simp [hlin (j + 2) (by omega) hj]
      · simp [hj]
  rw [h, hG, Polynomial.comp_C_mul_X_coeff, coeff_polynomialOf, if_pos hk]

/-- C82: the chain rule: z 0 = u 0, z 1 = u 1 * w 1, z 2 = u 1 * w 2 + u 2 * (w 1)^2. -/
theorem C82_chain_rule (hv : PointAt env v p) (hq : PointAt env q (w 0)) (hxy : y = x ∨ ¬ Occurs x e)
    (hs : Expandable env x v p s) (hw : ExpandsTo env x v 2 s w)
    (he : Expandable env y q (w 0) e) (hu : ExpandsTo env y q 2 e u)
    (hsub : e.substitute y s = .ok r) (hr : Expandable env x v p r) (hz : ExpandsTo env x v 2 r z) :
    z 0 = u 0 ∧ z 1 = u 1 * w 1 ∧ z 2 = u 1 * w 2 + u 2 * w 1 ^ 2 := by
  have h := C82_composition env x y v q p 2 e s r u w z hv hq hxy hs hw he hu hsub hr hz
  have h2 : (2 : UInt64).toNat = 2 := rfl
  rw [h2] at h
  have hG : polynomialOf 2 w - Polynomial.C (w 0) = Polynomial.X * (Polynomial.C (w 1) + Polynomial.X * Polynomial.C (w 2)) := by
    simp only [polynomialOf, Finset.sum_range_succ, Finset.sum_range_zero]; ring
  have hP : (polynomialOf 2 u).comp (polynomialOf 2 w - Polynomial.C (w 0)) = Polynomial.C (u 0) + Polynomial.X *
      (Polynomial.C (u 1 * w 1) + Polynomial.X * (Polynomial.C (u 1 * w 2 + u 2 * w 1 ^ 2) + Polynomial.X *
        (Polynomial.C (2 * u 2 * w 1 * w 2) + Polynomial.X * Polynomial.C (u 2 * w 2 ^ 2)))) := by
    rw [hG]
    simp only [polynomialOf, Finset.sum_range_succ, Finset.sum_range_zero, Polynomial.add_comp, Polynomial.mul_comp,
      Polynomial.C_comp, Polynomial.pow_comp, Polynomial.X_comp, Polynomial.zero_comp, _root_.map_add, _root_.map_mul,
      _root_.map_pow, map_ofNat]
    ring
  simp only [hP] at h
  refine ⟨?_, ?_, ?_⟩
  · rw [h 0 (by omega)]; simp
  · rw [h 1 (by omega)]; simp [Polynomial.coeff_X_mul]
  · rw [h 2 (by omega)]
    generalize u 1 * w 2 + u 2 * w 1 ^ 2 = c
    simp [Polynomial.coeff_X_mul]

end

/-- C82, non-vacuous: sin(x) with x replaced by x * x, at 2 (and sin at 4). -/
theorem C82_instance (env : Env) :
    let x : Expr F := newVariable "x"
    let s := x.mul x
    ∃ u w z : ℕ → ℝ, PointAt env (ofI64 2 : Expr F) 2 ∧ PointAt env (ofI64 4 : Expr F) (w 0) ∧
      Expandable env ⟨"x"⟩ (ofI64 2) 2 s ∧ ExpandsTo env ⟨"x"⟩ (ofI64 2) 2 s w ∧
      Expandable env ⟨"x"⟩ (ofI64 4) (w 0) x.sin ∧ ExpandsTo env ⟨"x"⟩ (ofI64 4) 2 x.sin u ∧
      x.sin.substitute ⟨"x"⟩ s = .ok s.sin ∧
      Expandable env ⟨"x"⟩ (ofI64 2) 2 s.sin ∧ ExpandsTo env ⟨"x"⟩ (ofI64 2) 2 s.sin z ∧
      z 2 = u 1 * w 2 + u 2 * w 1 ^ 2 := by
  intro x s
  have hx : x = ofVar ⟨"x"⟩ := rfl
  have bx : Built .debug x := .var ⟨"x"⟩
  have h2 : ∀ env : Env, denote SmartNum.exactReal env (ofI64 2 : Expr F) = some 2 := by
    intro env; rw [denote_int]; simp [show (2 : Int64).toInt = 2 by decide]
  have h4 : ∀ env : Env, denote SmartNum.exactReal env (ofI64 4 : Expr F) = some 4 := by
    intro env; rw [denote_int]; simp [show (4 : Int64).toInt = 4 by decide]
  have hln : ∀ i : Int64, NoLn (ofI64 i : Expr F) := fun i =>
    noLn_iff.2 (everywhere_ofNum.2 (by intro c h; expr_inj at h))
  have hset : ∀ (env : Env) (t : ℝ), denote SmartNum.exactReal (env.set ⟨"x"⟩ t) x = some t := by
    intro env; simp [hx, Env.set]
  have hss : ∀ (env : Env) (t : ℝ), denote SmartNum.exactReal (env.set ⟨"x"⟩ t) s = some (t * t) :=
    fun env t => denote_mul.2 ⟨_, _, hset env t, hset env t, rfl⟩
  have hpi : (4 : ℝ) ≠ Real.pi := by have := Real.pi_lt_four; intro h; linarith
  have p2 : PointAt env (ofI64 2 : Expr F) 2 := ⟨⟨.debug, .num _ (.ofI64 2)⟩, safe_ofNum _, h2 env⟩
  have p4 : PointAt env (ofI64 4 : Expr F) 4 := ⟨⟨.debug, .num _ (.ofI64 4)⟩, safe_ofNum _, h4 env⟩
  have e1 : Expandable env ⟨"x"⟩ (ofI64 4) 4 x.sin :=
    ⟨⟨.debug, .sin _ bx⟩, safeD_sin.2 ⟨⟨env.set ⟨"x"⟩ 4, ⟨env, 4, h4 env, rfl⟩, 4, hset env 4, hpi⟩, safeD_ofVar _⟩,
      fun _ _ _ _ => hln 4, ⟨_, denote_sin.2 ⟨4, hset env 4, rfl⟩⟩, powAll_sin.2 (powAll_ofVar _)⟩
  have e2 : Expandable env ⟨"x"⟩ (ofI64 2) 2 s.sin :=
    ⟨⟨.debug, .sin _ (.mul _ _ bx bx)⟩, safeD_sin.2 ⟨⟨env.set ⟨"x"⟩ 2, ⟨env, 2, h2 env, rfl⟩, 2 * 2, hss env 2,
      by norm_num; exact hpi⟩, safeD_mul.2 ⟨safeD_ofVar _, safeD_ofVar _⟩⟩,
      fun _ _ _ _ => hln 2, ⟨_, denote_sin.2 ⟨2 * 2, hss env 2, rfl⟩⟩,
      powAll_sin.2 (powAll_mul.2 ⟨powAll_ofVar _, powAll_ofVar _⟩)⟩
  have t1 := e1.expandsTo (n := 2) p4 (by krfl)
  have t2 := e2.expandsTo (n := 2) p2 (by krfl)
  have t3 := e2.of_sin.expandsTo (n := 2) p2 (by krfl)
  have w0 : taylorC (fn SmartNum.exactReal env ⟨"x"⟩ s) 2 0 = 4 := by
    rw [taylorC_zero, fn, hss]; norm_num
  have hsub : x.sin.substitute ⟨"x"⟩ s = .ok s.sin := by rw [substitute_eq]; krfl
  refine ⟨_, _, _, p2, by rw [w0]; exact p4, e2.of_sin, t3, by rw [w0]; exact e1, t1, hsub, e2, t2, ?_⟩
  exact (C82_chain_rule env _ _ _ (ofI64 4) _ _ _ _ _ _ _ p2 (by rw [w0]; exact p4) (.inl rfl) e2.of_sin t3
    (by rw [w0]; exact e1) t1 hsub e2 t2).2.2

end SymRust
