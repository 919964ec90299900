import Verif.Props.LimitExpansion
import Verif.Proofs.Chain
/-! # Equal functions have equal derivatives and expansions: property C85 -/

namespace SymRust
variable {F : Type} [FloatOps F]
open Expr Filter Topology Asymptotics

/-- An analytic function that vanishes to order n has no coefficient up to n, and conversely. -/
theorem taylorC_zero_iff {f : ℝ → ℝ} {p : ℝ} (hf : AnalyticAt ℝ f p) (n : ℕ) :
    (∀ k, k ≤ n → taylorC f p k = 0) ↔ f =o[𝓝 p] fun t => (t - p) ^ n := by
  constructor
  · intro h
    obtain ⟨g, g1, -, g3⟩ := taylorC_factor p (n + 1) f hf fun k hk => h k (by omega)
    have h1 : (fun t : ℝ => (t - p) * g t) =o[𝓝 p] fun _ => (1 : ℝ) := by
      rw [isLittleO_one_iff]
      have : Tendsto (fun t => (t - p) * g t) (𝓝 p) (𝓝 ((p - p) * g p)) :=
        ((continuous_id.sub continuous_const).continuousAt.mul g1.continuousAt)
      simpa using this
    have h2 := (isBigO_refl (fun t : ℝ => (t - p) ^ n) (𝓝 p)).mul_isLittleO h1
    refine h2.congr (fun t => ?_) fun t => by simp
    rw [g3 t]; ring
  · intro h k
    induction k using Nat.strong_induction_on with
    | _ k ih =>
      intro hk
      obtain ⟨g, g1, g2, g3⟩ := taylorC_factor p k f hf fun i hi => ih i hi (by omega)
      rw [← g2]
      have h1 : (fun t : ℝ => (t - p) ^ n) =O[𝓝 p] fun t => (t - p) ^ k := by
        obtain ⟨d, rfl⟩ := Nat.exists_eq_add_of_le hk
        have : (fun t : ℝ => (t - p) ^ d) =O[𝓝 p] fun _ => (1 : ℝ) :=
          ((continuous_id.sub continuous_const).pow d).continuousAt.isBigO_one ℝ
        refine ((isBigO_refl (fun t : ℝ => (t - p) ^ k) (𝓝 p)).mul this).congr (fun t => ?_) fun t => by simp
        simp [pow_add]
      have h2 : f =o[𝓝 p] fun t => (t - p) ^ k := h.trans_isBigO h1
      have h3 : Tendsto (fun t => f t / (t - p) ^ k) (𝓝[≠] p) (𝓝 0) :=
        (h2.mono nhdsWithin_le_nhds).tendsto_div_nhds_zero
      have h4 : Tendsto g (𝓝[≠] p) (𝓝 (g p)) := g1.continuousAt.tendsto.mono_left nhdsWithin_le_nhds
      refine tendsto_nhds_unique (h4.congr' ?_) h3
      filter_upwards [self_mem_nhdsWithin] with t ht
      rw [g3 t, mul_div_cancel_left₀ _ (pow_ne_zero _ (sub_ne_zero.2 ht))]

section
variable {env : Env} {x : Variable} {v v' : Expr F} {p : ℝ} {n n' : UInt64} {a b : Expr F} {u w : ℕ → ℝ}

/-- C85: the coefficients 0 to N of two exact expansions at a point (written in any two ways) are the same if and only if
the two functions differ by less than every multiple of (t - p)^N near the point. -/
theorem C85_coefficients_iff (hv : PointAt env v p) (hv' : PointAt env v' p) (ha : Expandable env x v p a)
    (hb : Expandable env x v' p b) (hu : ExpandsTo env x v n a u) (hw : ExpandsTo env x v' n' b w) (N : ℕ)
    (hN : N ≤ n.toNat) (hN' : N ≤ n'.toNat) :
    (∀ k, k ≤ N → u k = w k) ↔
      (fun t => fn SmartNum.exactReal env x a t - fn SmartNum.exactReal env x b t) =o[𝓝 p] fun t => (t - p) ^ N := by
  have key := taylorC_zero_iff (f := fun t => fn SmartNum.exactReal env x a t - fn SmartNum.exactReal env x b t)
    (ha.analytic.sub hb.analytic) N
  rw [← key]
  refine forall₂_congr fun k hk => ?_
  rw [ha.coefficient hv hu (hk.trans hN), hb.coefficient hv' hw (hk.trans hN'),
    taylorC_sub ha.analytic hb.analytic k, sub_eq_zero]

/-- C85: expressions with the same values near the point have the same coefficients. -/
theorem C85_equal_functions (hv : PointAt env v p) (hv' : PointAt env v' p) (ha : Expandable env x v p a)
    (hb : Expandable env x v' p b) (hu : ExpandsTo env x v n a u) (hw : ExpandsTo env x v' n' b w)
    (heq : ∀ᶠ t in 𝓝 p, denote SmartNum.exactReal (env.set x t) a = denote SmartNum.exactReal (env.set x t) b)
    (k : ℕ) (hk : k ≤ n.toNat) (hk' : k ≤ n'.toNat) : u k = w k := by
  rw [ha.coefficient hv hu hk, hb.coefficient hv' hw hk']
  refine taylorC_congr ?_ k
  filter_upwards [heq] with t ht
  simp only [fn, ht]

end

/-- C85: expressions with the same values near `env x` have derivatives that stand for the same number. -/
theorem C85_derivative (m : Mode) (a b a' b' : Expr F) (ha : Built m a) (hb : Built m b) (x : Variable) (A B : Set Env)
    (sa : SafeD SmartNum.exactReal A a) (sb : SafeD SmartNum.exactReal B b) (da : a.derivative .strict x = .ok a')
    (db : b.derivative .strict x = .ok b') (env : Env) (r : ℝ) (hr : denote SmartNum.exactReal env a = some r)
    (pa : PowOK SmartNum.exactReal env x a) (pb : PowOK SmartNum.exactReal env x b)
    (heq : ∀ᶠ t in 𝓝 (env x), denote SmartNum.exactReal (env.set x t) a = denote SmartNum.exactReal (env.set x t) b) :
    ∃ d, StandsFor env a' d ∧ StandsFor env b' d := by
  have hrb : denote SmartNum.exactReal env b = some r := by
    have := heq.self_of_nhds
    rw [env.set_self] at this
    rw [← this, hr]
  obtain ⟨d, ⟨g, g1, g2⟩, d2⟩ := C30_derivative m a a' ha x A sa da env r hr pa
  obtain ⟨d', hd', d3⟩ := C30_derivative m b b' hb x B sb db env r hrb pb
  have : HasDerivative SmartNum.exactReal env x b d := by
    refine ⟨g, ?_, g2⟩
    filter_upwards [g1, heq] with t h1 h2
    rw [← h2, h1]
  obtain rfl := this.unique hd'
  exact ⟨d, d2, d3⟩

/-- C85, non-vacuous: sin(x) at the point written 0 and x at the point written 1 - 1, to order 3, meet the hypotheses.
The coefficients 0 to 2 agree and number 3 does not, so sin t - t is o(t^2) and not o(t^3). -/
theorem C85_instance (env : Env) :
    let x : Expr F := newVariable "x"
    let v : Expr F := one.sub one
    ∃ u w : ℕ → ℝ, PointAt env (zero : Expr F) 0 ∧ PointAt env v 0 ∧ Expandable env ⟨"x"⟩ zero 0 x.sin ∧
      Expandable env ⟨"x"⟩ v 0 x ∧ ExpandsTo env ⟨"x"⟩ (zero : Expr F) 3 x.sin u ∧ ExpandsTo env ⟨"x"⟩ v 3 x w ∧
      (fn SmartNum.exactReal env ⟨"x"⟩ x.sin = Real.sin) ∧ (fn SmartNum.exactReal env ⟨"x"⟩ x = fun t => t) ∧
      (∀ k, k ≤ 2 → u k = w k) ∧ u 3 ≠ w 3 := by
  intro x v
  have hx : x = ofVar ⟨"x"⟩ := rfl
  have h0 : ∀ env : Env, denote SmartNum.exactReal env (zero : Expr F) = some 0 := by
    intro env; rw [zero, denote_int]; simp [show (0 : Int64).toInt = 0 by decide]
  have h1 : ∀ env : Env, denote SmartNum.exactReal env (one : Expr F) = some 1 := by
    intro env; rw [one, denote_int]; simp [show (1 : Int64).toInt = 1 by decide]
  have hset : ∀ env : Env, ∀ t : ℝ, denote SmartNum.exactReal (env.set ⟨"x"⟩ t) x = some t := by
    intro env t; simp [hx]
  have bz : Built .debug (zero : Expr F) := .num _ (.ofI64 0)
  have b1 : Built .debug (one : Expr F) := .num _ (.ofI64 1)
  have bx : Built .debug x := .var _
  have hv : PointAt env (zero : Expr F) 0 := ⟨⟨_, bz⟩, safe_ofNum _, h0 env⟩
  have hv' : PointAt env v 0 := ⟨⟨_, .sub _ _ b1 b1⟩, safe_sub.2 ⟨safe_ofNum _, safe_ofNum _⟩,
    denote_sub.2 ⟨1, 1, h1 env, h1 env, by simp⟩⟩
  have hav : Avoids SmartNum.exactReal (AtPoint SmartNum.exactReal ⟨"x"⟩ (zero : Expr F)) x Real.pi :=
    ⟨env.set ⟨"x"⟩ 0, ⟨env, 0, h0 env, rfl⟩, 0, hset env 0, Real.pi_pos.ne⟩
  have hln : NoLn (zero : Expr F) := noLn_iff.2 (everywhere_ofNum.2 (by intro c h; expr_inj at h))
  have ex : Expandable env ⟨"x"⟩ v 0 x :=
    ⟨⟨_, bx⟩, safeD_ofVar _, noLnIntoBase_iff.2 (powAll_ofVar _), ⟨_, hset env 0⟩, powAll_ofVar _⟩
  have es : Expandable env ⟨"x"⟩ zero 0 x.sin :=
    ⟨⟨_, .sin _ bx⟩, safeD_sin.2 ⟨hav, safeD_ofVar _⟩, fun _ _ _ _ => hln, ⟨_, denote_sin.2 ⟨0, hset env 0, rfl⟩⟩,
      powAll_sin.2 (powAll_ofVar _)⟩
  have fnx : fn SmartNum.exactReal env ⟨"x"⟩ x = fun t => t := by funext t; rw [fn, hset]; rfl
  have fns : fn SmartNum.exactReal env ⟨"x"⟩ x.sin = Real.sin := by
    funext t; rw [fn, denote_sin.2 ⟨t, hset env t, rfl⟩]; rfl
  have hs := es.expandsTo (n := 3) hv (by krfl)
  have hw := ex.expandsTo (n := 3) hv' (by krfl)
  refine ⟨_, _, hv, hv', es, ex, hs, hw, fns, fnx, ?_, ?_⟩
  · intro k hk
    rw [fns, fnx]
    interval_cases k <;> simp [taylorC, iteratedDeriv_succ]
  · rw [fns, fnx]
    simp [taylorC, iteratedDeriv_succ, Nat.factorial_ne_zero]

/-- C85, non-vacuous: sin(x) + sin(x) and 2 * sin(x) meet the hypotheses of C85_derivative at every value of x; the two
derivatives are different expressions, cos(x) + cos(x) and 2 * cos(x). -/
theorem C85_derivative_instance (env : Env) :
    let x : Expr F := newVariable "x"
    let a := x.sin.add x.sin
    let b := (ofI64 2).mul x.sin
    a.derivative .strict ⟨"x"⟩ = .ok (x.cos.add x.cos) ∧ b.derivative .strict ⟨"x"⟩ = .ok ((ofI64 2).mul x.cos) ∧
    Built .debug a ∧ Built .debug b ∧ SafeD SmartNum.exactReal Set.univ a ∧ SafeD SmartNum.exactReal Set.univ b ∧
    (∃ r, denote SmartNum.exactReal env a = some r) ∧ PowOK SmartNum.exactReal env ⟨"x"⟩ a ∧
    PowOK SmartNum.exactReal env ⟨"x"⟩ b ∧
    ∀ t, denote SmartNum.exactReal (env.set ⟨"x"⟩ t) a = denote SmartNum.exactReal (env.set ⟨"x"⟩ t) b := by
  intro x a b
  have hx : x = ofVar ⟨"x"⟩ := rfl
  have h2 : ∀ env : Env, denote SmartNum.exactReal env (ofI64 2 : Expr F) = some 2 := by
    intro env; rw [denote_int]; simp [show (2 : Int64).toInt = 2 by decide]
  have hv : ∀ env : Env, denote SmartNum.exactReal env x = some (env ⟨"x"⟩) := by
    intro env; simp [hx]
  have hsin : ∀ env : Env, denote SmartNum.exactReal env x.sin = some (Real.sin (env ⟨"x"⟩)) :=
    fun env => denote_sin.2 ⟨_, hv env, rfl⟩
  have b2 : Built .debug (ofI64 2 : Expr F) := .num _ (.ofI64 2)
  have bx : Built .debug x := .var _
  have hav : Avoids SmartNum.exactReal Set.univ x Real.pi :=
    ⟨env.set ⟨"x"⟩ 0, trivial, 0, by simp [hx], Real.pi_pos.ne⟩
  have ss : SafeD SmartNum.exactReal Set.univ x.sin := safeD_sin.2 ⟨hav, safeD_ofVar _⟩
  have ps : PowOK SmartNum.exactReal env ⟨"x"⟩ x.sin := powAll_sin.2 (powAll_ofVar _)
  have ha : ∀ env : Env, denote SmartNum.exactReal env a = some (Real.sin (env ⟨"x"⟩) + Real.sin (env ⟨"x"⟩)) :=
    fun env => denote_add.2 ⟨_, _, hsin env, hsin env, rfl⟩
  have hb : ∀ env : Env, denote SmartNum.exactReal env b = some (2 * Real.sin (env ⟨"x"⟩)) :=
    fun env => denote_mul.2 ⟨_, _, h2 env, hsin env, rfl⟩
  refine ⟨by krfl, by krfl, .add _ _ (.sin _ bx) (.sin _ bx), .mul _ _ b2 (.sin _ bx), safeD_add.2 ⟨ss, ss⟩,
    safeD_mul.2 ⟨safeD_ofNum _, ss⟩, ⟨_, ha env⟩, powAll_add.2 ⟨ps, ps⟩, powAll_mul.2 ⟨powAll_ofNum _, ps⟩, fun t => ?_⟩
  rw [ha, hb, two_mul]

end SymRust
