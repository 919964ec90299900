import Verif.Proofs.Ghost
import Verif.Spec.Toy
import Verif.Props.Aggregate
import Verif.Props.Taylor
import Verif.Proofs.Kernel
import Mathlib.Analysis.Real.Pi.Bounds
/-! # C20, C21 (values), C27, C30, C34, C35: what the answers mean

`denote SmartNum.exactReal env e = some r` says that `e` has the exact real value `r` at the assignment `env`,
for every float implementation (`Spec/Semantics.lean`, `Spec/Exact.lean`).  A run "without wrap-around" is a run
in mode `.strict` (`Model/Prim.lean`), which agrees with both builds whenever it succeeds (C07). -/

namespace SymRust
open Expr Filter Topology
variable {F : Type} [FloatOps F]

theorem Built.valid {m : Mode} {e : Expr F} (h : Built m e) : WF SmartNum.Valid e := h.mono fun _ hn => hn.valid

/-! ## C20 -/

/-- C20: for every float implementation, an expression with a value whose `cos` arguments are not identically π,
and whose power bases are not identically 0 or 1 and contain no `ln`, keeps its value. -/
theorem C20_value (m : Mode) (e e' : Expr F) (he : Built m e) (hs : Safe SmartNum.exactReal Set.univ e)
    (h : e.numAggregate .strict = .ok e') (env : Env) (r : ℝ) (hr : denote SmartNum.exactReal env e = some r) :
    StandsFor env e' r := by
  obtain ⟨d, h1, rfl, h3⟩ := numAggregate_lift he.valid h
  exact denote_down h3 (agg_sound' (agg_of_numAggregate (wf_lift he.valid).tree h1) (wf_lift he.valid)
    (hs.lift (E' := Set.univ) subset_rfl he.valid.tree) env r (denote_lift he.valid.tree hr))

/-- C20, exact criterion: the value is kept whenever none of the four value-changing rewrites of C21 fires. -/
theorem C20_value_of_rules (m : Mode) (e e' : Expr F) (he : Built m e) (hs : RuleSafe .strict e)
    (h : e.numAggregate .strict = .ok e') (env : Env) (r : ℝ) (hr : denote SmartNum.exactReal env e = some r) :
    StandsFor env e' r := by
  obtain ⟨d, h1, rfl, h3⟩ := numAggregate_lift he.valid h
  exact denote_down h3 (agg_sound (agg_of_numAggregate (wf_lift he.valid).tree h1) (wf_lift he.valid)
    (hs.lift he.valid) env r (denote_lift he.valid.tree hr))

/-- C20, floats included, if float arithmetic were exact. -/
theorem C20_value_exact_floats {F : Type} [ExactFloat F] (m : Mode) (e e' : Expr F) (he : Built m e)
    (hs : Safe SmartNum.value? Set.univ e) (h : e.numAggregate .strict = .ok e') (env : Env) (r : ℝ)
    (hr : denote SmartNum.value? env e = some r) : denote SmartNum.value? env e' = some r :=
  agg_sound' (agg_of_numAggregate he.valid.tree h) he.valid hs env r hr

theorem avoids_var {ν : SmartNum F → Option ℝ} (x : Variable) (c : ℝ) : Avoids ν Set.univ (ofVar x : Expr F) c :=
  ⟨fun _ => c + 1, trivial, c + 1, by simp, by simp⟩

/-- Non-vacuous: `(x + 0)^(1/2 + 1/2) * cos(x)` satisfies the hypotheses, has a value at `x = 2`, and
aggregates to `x ^ 1 * cos(x)`. -/
example : let x : Expr Unit := newVariable "x"
    let e := ((x.add zero).pow ((one.div (ofI64 2)).add (one.div (ofI64 2)))).mul x.cos
    Built .debug e ∧ Safe SmartNum.exactReal Set.univ e ∧ e.numAggregate .strict = .ok ((x.pow one).mul x.cos) ∧
    NoFloat ((x.pow one).mul x.cos) := by
  intro x e
  have hx : x = ofVar ⟨"x"⟩ := rfl
  have ba : ∀ i, Built .debug (ofI64 i : Expr Unit) := fun i => .num _ (.ofI64 i)
  have bx : Built .debug x := .var ⟨"x"⟩
  refine ⟨?_, ?_, by decide +kernel, ?_⟩
  · exact .mul _ _ (.pow _ _ (.add _ _ bx (ba 0))
      (.add _ _ (.div _ _ (ba 1) (ba 2)) (.div _ _ (ba 1) (ba 2)))) (.cos _ bx)
  · have hv : ∀ c : ℝ, Avoids SmartNum.exactReal Set.univ (x.add zero) c := fun c =>
      ⟨fun _ => c + 1, trivial, c + 1, denote_add.2 ⟨c + 1, 0, by rw [hx]; simp, by
        simp [zero, ofI64, SmartNum.ofI64, SmartNum.ofVal, SmartNumVal.ofI64, SmartNum.exactReal,
          SmartNumVal.isOne, SmartNumVal.isZero, SmartNum.exact?, SmartNumVal.exact?], by simp⟩, by simp⟩
    refine safe_mul.2 ⟨safe_pow.2 ⟨⟨hv 0, hv 1, ?_⟩, ?_, ?_⟩, safe_cos.2 ⟨avoids_var _ _, safe_ofVar _⟩⟩
    · exact everywhere_add.2 ⟨by intro c h; expr_inj at h, everywhere_ofVar.2 (by intro c h; expr_inj at h),
        everywhere_ofNum.2 (by intro c h; expr_inj at h)⟩
    · exact safe_add.2 ⟨safe_ofVar _, safe_ofNum _⟩
    · exact safe_add.2 ⟨safe_div.2 ⟨safe_ofNum _, safe_ofNum _⟩, safe_div.2 ⟨safe_ofNum _, safe_ofNum _⟩⟩
  · refine noFloat_iff.2 ?_
    simp only [everywhere_mul, everywhere_pow, everywhere_cos, hx, everywhere_ofVar, one, ofI64, everywhere_ofNum]
    refine ⟨?_, ⟨?_, ?_, ?_⟩, ?_, ?_⟩ <;> intro n hn <;> expr_inj at hn
    subst hn; right; right; intro f hf; simp [SmartNum.ofI64, SmartNum.ofVal, SmartNumVal.ofI64] at hf

/-! ## C21: the values that change -/

theorem exactReal_ofI64 (v : Int64) : (SmartNum.ofI64 v : SmartNum F).exactReal = some (v.toInt : ℝ) := by
  have ht : (SmartNum.ofI64 v : SmartNum F).tag ≠ .pi ∧ (SmartNum.ofI64 v : SmartNum F).tag ≠ .e := by
    simp only [SmartNum.ofI64, SmartNum.ofVal]
    constructor <;> split_ifs <;> simp
  unfold SmartNum.exactReal
  split
  · exact absurd ‹_› ht.1
  · exact absurd ‹_› ht.2
  · simp [SmartNum.ofI64, SmartNum.ofVal, SmartNum.exact?, SmartNumVal.ofI64, SmartNumVal.exact?]

theorem denote_int (env : Env) (v : Int64) : denote SmartNum.exactReal env (ofI64 v : Expr F) = some (v.toInt : ℝ) := by
  rw [ofI64, denote_ofNum, exactReal_ofI64]

/-- C21: cos(pi) has the value -1 and becomes 1. -/
theorem C21_cos_pi_value (m : Mode) (env : Env) :
    denote SmartNum.exactReal env (Expr.pi : Expr F).cos = some (-1) ∧
    (Expr.pi : Expr F).cos.numAggregate m = .ok one ∧ denote SmartNum.exactReal env (one : Expr F) = some 1 := by
  refine ⟨denote_cos.2 ⟨Real.pi, rfl, Real.cos_pi⟩, (C21_literal m ⟨"x"⟩ ⟨"x"⟩).1, ?_⟩
  rw [one, denote_int]; simp [show (1 : Int64).toInt = 1 by decide]

/-- C21: for every exponent of positive value, `0^r` has the value 0 and becomes 1. -/
theorem C21_zero_pow_value (m : Mode) (env : Env) (r r' : Expr F) (hr : r.numAggregate m = .ok r') (s : ℝ)
    (hs : denote SmartNum.exactReal env r = some s) (h0 : 0 < s) :
    denote SmartNum.exactReal env ((zero : Expr F).pow r) = some 0 ∧
    ((zero : Expr F).pow r).numAggregate m = .ok one ∧ denote SmartNum.exactReal env (one : Expr F) = some 1 := by
  refine ⟨denote_pow.2 ⟨0, s, ?_, hs, ?_⟩, C21_zero_pow m _ _ _ _ rfl (numAggregate_ofNum m _) hr, ?_⟩
  · rw [zero, denote_int]; simp [show (0 : Int64).toInt = 0 by decide]
  · rw [powValue, if_pos (.inr (.inl ⟨rfl, h0.le⟩)), Real.zero_rpow h0.ne']
  · rw [one, denote_int]; simp [show (1 : Int64).toInt = 1 by decide]

/-- C21: for every exponent with a value `s`, `1^r` has the value 1 and becomes the aggregate of `r`; for a
variable that is the variable itself, with any value. -/
theorem C21_one_pow_value (m : Mode) (env : Env) (x : Variable) :
    denote SmartNum.exactReal env ((one : Expr F).pow (ofVar x)) = some 1 ∧
    ((one : Expr F).pow (ofVar x)).numAggregate m = .ok (ofVar x) ∧
    denote SmartNum.exactReal env (ofVar x : Expr F) = some (env x) := by
  refine ⟨denote_pow.2 ⟨1, env x, ?_, by simp, ?_⟩, (C21_literal m x x).2.2.1, by simp⟩
  · rw [one, denote_int]; simp [show (1 : Int64).toInt = 1 by decide]
  · rw [powValue, if_pos (.inl one_pos), Real.one_rpow]

/-- C21: for all `x > 1`, `ln(x)^y` has the value `(log x)^y` and becomes `x`, which is larger than `log x`; so for
`y = 1` the value always changes. -/
theorem C21_ln_pow_value (m : Mode) (env : Env) (x y : Variable) (hx : 1 < env x) :
    denote SmartNum.exactReal env (((ofVar x : Expr F).ln).pow (ofVar y)) = some (Real.log (env x) ^ env y) ∧
    (((ofVar x : Expr F).ln).pow (ofVar y)).numAggregate m = .ok (ofVar x) ∧
    denote SmartNum.exactReal env (ofVar x : Expr F) = some (env x) ∧
    (env y = 1 → Real.log (env x) ^ env y < env x) := by
  have h0 : 0 < env x := by linarith
  refine ⟨denote_pow.2 ⟨Real.log (env x), env y, denote_ln.2 ⟨env x, by simp, h0, rfl⟩, by simp, ?_⟩,
    (C21_literal m x y).2.2.2, by simp, fun hy => ?_⟩
  · rw [powValue, if_pos (.inl (Real.log_pos hx))]
  · rw [hy, Real.rpow_one]
    have := Real.log_le_sub_one_of_pos h0
    linarith

/-! ## C27 -/

/-- C27: the value of `e.substitute(x, v)` is the value of `e` with `x` set to the value of `v`; one is defined
exactly when the other is.  For every valuation of the numbers. -/
theorem C27_value (ν : SmartNum F → Option ℝ) (e v e' : Expr F) (he : Tree e) (x : Variable)
    (h : e.substitute x v = .ok e') (env : Env) (p : ℝ) (hp : denote ν env v = some p) :
    denote ν env e' = denote ν (env.set x p) e := by
  rw [substitute_eq] at h
  cases h
  exact denote_replace he hp

/-- C27, both overloads with an expression as the variable. -/
theorem C27_value_expr (ν : SmartNum F → Option ℝ) (e v e' : Expr F) (he : Tree e) (x : Variable)
    (h : e.substituteExpr (ofVar x) v = .ok e') (env : Env) (p : ℝ) (hp : denote ν env v = some p) :
    denote ν env e' = denote ν (env.set x p) e := C27_value ν e v e' he x h env p hp

/-- Non-vacuous: `x / y` with `x := 6`. -/
example : ((newVariable "x" : Expr Unit).div (newVariable "y")).substitute ⟨"x"⟩ (ofI64 6) =
    .ok ((ofI64 6).div (newVariable "y")) ∧
    denote SmartNum.exactReal (fun _ => 2) ((ofI64 6 : Expr Unit).div (newVariable "y")) = some 3 := by
  refine ⟨by rw [substitute_eq]; rfl, denote_div.2 ⟨6, 2, ?_, rfl, by norm_num, by norm_num⟩⟩
  rw [denote_int]; simp [show (6 : Int64).toInt = 6 by decide]

/-! ## C30 -/

/-- C30: for every float implementation; at a point where `e` has a value, `derivative` returns an expression that
stands for the derivative of the function `t ↦ e at x := t`, which is defined near the point. -/
theorem C30_derivative (m : Mode) (e e' : Expr F) (he : Built m e) (x : Variable) (E : Set Env)
    (hs : SafeD SmartNum.exactReal E e) (h : e.derivative .strict x = .ok e') (env : Env) (r : ℝ)
    (hr : denote SmartNum.exactReal env e = some r) (hp : PowOK SmartNum.exactReal env x e) :
    ∃ d, HasDerivative SmartNum.exactReal env x e d ∧ StandsFor env e' d := by
  obtain ⟨d, h1, rfl, h3⟩ := derivative_lift he.valid h
  obtain ⟨d', g1, g, g2, g3⟩ := (der_of_derivative (wf_lift he.valid).tree h1).hasDerivative (wf_lift he.valid)
    (hs.lift (E' := E) subset_rfl he.valid.tree) (denote_lift he.valid.tree hr) (hp.lift he.valid.tree)
  refine ⟨d', ⟨g, ?_, g3⟩, denote_down h3 g1⟩
  filter_upwards [g2] with t ht
  rw [← ht, denote_lift_eq he.valid hr]

/-- C30, floats included, if float arithmetic were exact. -/
theorem C30_derivative_exact_floats {F : Type} [ExactFloat F] (m : Mode) (e e' : Expr F) (he : Built m e)
    (x : Variable) (E : Set Env) (hs : SafeD SmartNum.value? E e) (h : e.derivative .strict x = .ok e') (env : Env)
    (r : ℝ) (hr : denote SmartNum.value? env e = some r) (hp : PowOK SmartNum.value? env x e) :
    ∃ d, HasDerivative SmartNum.value? env x e d ∧ denote SmartNum.value? env e' = some d := by
  obtain ⟨d, h1, h2⟩ := (der_of_derivative he.valid.tree h).hasDerivative he.valid hs hr hp
  exact ⟨d, h2, h1⟩

/-! ## C34 -/

/-- C34: coefficient `k` of a successful expansion stands for f⁽ᵏ⁾(p)/k!. -/
theorem C34_coefficients (m m' : Mode) (e v : Expr F) (he : Built m e) (hv : Built m' v) (x : Variable) (n : UInt64)
    (t : PartialExpansion F) (h : e.taylorExpansion .strict x v n = .ok t)
    (hsv : Safe SmartNum.exactReal Set.univ v) (hs : SafeD SmartNum.exactReal (AtPoint SmartNum.exactReal x v) e)
    (hl : NoLnIntoBase x v e) (env : Env) (p r : ℝ) (hpt : denote SmartNum.exactReal env v = some p)
    (hr : denote SmartNum.exactReal (env.set x p) e = some r) (hp : PowOK SmartNum.exactReal (env.set x p) x e)
    (k : Nat) (hk : k ≤ n.toNat) :
    ∃ c, t.coefficient[k]? = some c ∧
      StandsFor env c (iteratedDeriv k (fn SmartNum.exactReal env x e) p / (k.factorial : ℝ)) := by
  obtain ⟨d, h1, rfl, h3⟩ := taylorExpansion_lift he.valid hv.valid h
  obtain ⟨c, c1, c2⟩ := taylor_coefficient (wf_lift he.valid) (wf_lift hv.valid)
    (hsv.lift (E' := Set.univ) subset_rfl hv.valid.tree) (hs.lift (atPoint_lift hv.valid.tree) he.valid.tree)
    (hl.lift he.valid.tree) (denote_lift hv.valid.tree hpt) (denote_lift he.valid.tree hr) (hp.lift he.valid.tree)
    h1 hk
  rw [fn_lift he.valid hr] at c2
  refine ⟨c.map Prod.fst, ?_, denote_down (h3 c (List.mem_of_getElem? c1)) c2⟩
  simp [PartialExpansion.map, c1]

/-- Whether a run succeeded. -/
def Out.isOk {ε α : Type} : Out ε α → Bool
  | .ok _ => true
  | _ => false

theorem Out.exists_of_isOk {ε α : Type} {o : Out ε α} (h : o.isOk = true) : ∃ a, o = .ok a := by
  cases o with
  | ok a => exact ⟨a, rfl⟩
  | _ => cases h

/-- Non-vacuous: `x^2 * sin(x)` at `x := 2`, up to order 3, meets all the hypotheses of C30, C34 and C35, for every
float implementation and every assignment of the other variables. -/
theorem meets_hypotheses (env : Env) (n : UInt64) (hn : n ≤ 3) :
    let x : Expr F := newVariable "x"
    let e := (x.pow (ofI64 2)).mul x.sin
    Built .debug e ∧ Built .debug (ofI64 2 : Expr F) ∧
    SafeD SmartNum.exactReal (AtPoint SmartNum.exactReal ⟨"x"⟩ (ofI64 2 : Expr F)) e ∧
    Safe SmartNum.exactReal Set.univ (ofI64 2 : Expr F) ∧ NoLnIntoBase ⟨"x"⟩ (ofI64 2) e ∧
    denote SmartNum.exactReal env (ofI64 2 : Expr F) = some 2 ∧
    denote SmartNum.exactReal (env.set ⟨"x"⟩ 2) e = some ((2 : ℝ) ^ (2 : ℝ) * Real.sin 2) ∧
    PowOK SmartNum.exactReal (env.set ⟨"x"⟩ 2) ⟨"x"⟩ e ∧
    (∃ e', e.derivative .strict ⟨"x"⟩ = .ok e') ∧ ∃ t, e.taylorExpansion .strict ⟨"x"⟩ (ofI64 2) n = .ok t := by
  intro x e
  have hx : x = ofVar ⟨"x"⟩ := rfl
  have h2 : ∀ env : Env, denote SmartNum.exactReal env (ofI64 2 : Expr F) = some 2 := by
    intro env; rw [denote_int]; simp [show (2 : Int64).toInt = 2 by decide]
  have hset : ∀ env : Env, denote SmartNum.exactReal (env.set ⟨"x"⟩ 2) x = some 2 := by
    intro env; simp [hx, Env.set]
  have hav : ∀ c : ℝ, (2 : ℝ) ≠ c → Avoids SmartNum.exactReal (AtPoint SmartNum.exactReal ⟨"x"⟩ (ofI64 2 : Expr F)) x c :=
    fun c hc => ⟨env.set ⟨"x"⟩ 2, ⟨env, 2, h2 env, rfl⟩, 2, hset env, hc⟩
  have hpi : (2 : ℝ) ≠ Real.pi := by have := Real.pi_gt_three; intro h; linarith
  have hb : Built .debug (ofI64 2 : Expr F) := .num _ (.ofI64 2)
  have bx : Built .debug x := .var ⟨"x"⟩
  have hln : NoLn (ofI64 2 : Expr F) := noLn_iff.2 (everywhere_ofNum.2 (by intro c h; expr_inj at h))
  refine ⟨.mul _ _ (.pow _ _ bx hb) (.sin _ bx), hb, ?_, safe_ofNum _, fun _ _ _ _ => hln, h2 env, ?_, ?_,
    Out.exists_of_isOk (by krfl), ?_⟩
  · refine safeD_mul.2 ⟨safeD_pow.2 ⟨⟨hav 0 two_ne_zero, hav 1 (by norm_num), ?_⟩, safeD_ofVar _, safeD_ofNum _⟩,
      safeD_sin.2 ⟨hav _ hpi, safeD_ofVar _⟩⟩
    exact everywhere_ofVar.2 (by intro c h; expr_inj at h)
  · exact denote_mul.2 ⟨_, _, denote_pow.2 ⟨2, 2, hset env, h2 _, by rw [powValue, if_pos (.inl two_pos)]⟩,
      denote_sin.2 ⟨2, hset env, rfl⟩, rfl⟩
  · refine everywhere_mul.2 ⟨fun a b h => by expr_inj at h, everywhere_pow.2 ⟨fun a b h => ?_,
      everywhere_ofVar.2 fun a b h => by expr_inj at h, everywhere_ofNum.2 fun a b h => by expr_inj at h⟩,
      everywhere_sin.2 ⟨fun a b h => by expr_inj at h, everywhere_ofVar.2 fun a b h => by expr_inj at h⟩⟩
    expr_inj at h
    obtain ⟨rfl, rfl⟩ := h
    exact ⟨2, hset env, .inl two_pos⟩
  · obtain ⟨t, ht⟩ := Out.exists_of_isOk (o := e.taylorExpansion .strict ⟨"x"⟩ (ofI64 2) 3) (by krfl)
    obtain ⟨t', h, -⟩ := C37_prefix _ _ _ _ 3 n hn t ht
    exact ⟨t', h⟩

/-- C34: the restrictions are needed.  For every float implementation and in every build: the constant coefficient
of x^2 at 0 comes out as 1 (it is 0), that of x^2 at 1 as 2/1 (it is 1), that of cos at pi as 1 (it is -1), and that
of x^2 at ln(2) as 2/1 (it is (log 2)^2 < 1). -/
theorem C34_restrictions_needed (m : Mode) :
    let x : Expr F := newVariable "x"
    let c0 := fun (e p : Expr F) => match e.taylorExpansion m ⟨"x"⟩ p 0 with
      | .ok t => t.coefficient[0]?
      | _ => none
    c0 (x.pow (ofI64 2)) (ofI64 0) = some (ofI64 1) ∧
    c0 (x.pow (ofI64 2)) (ofI64 1) = some (ofNum ⟨.rational ⟨1, 2, 1⟩, .nothing⟩) ∧
    c0 x.cos pi = some (ofI64 1) ∧
    c0 (x.pow (ofI64 2)) (ofI64 2).ln = some (ofNum ⟨.rational ⟨1, 2, 1⟩, .nothing⟩) := by
  cases m <;> exact ⟨by krfl, by krfl, by krfl, by krfl⟩

/-! ## C35 -/

/-- C35: the function minus the polynomial with the returned coefficients is O((t - p)^(n+1)) at the point. -/
theorem C35_remainder (m m' : Mode) (e v : Expr F) (he : Built m e) (hv : Built m' v) (x : Variable) (n : UInt64)
    (t : PartialExpansion F) (h : e.taylorExpansion .strict x v n = .ok t)
    (hsv : Safe SmartNum.exactReal Set.univ v) (hs : SafeD SmartNum.exactReal (AtPoint SmartNum.exactReal x v) e)
    (hl : NoLnIntoBase x v e) (env : Env) (p r : ℝ) (hpt : denote SmartNum.exactReal env v = some p)
    (hr : denote SmartNum.exactReal (env.set x p) e = some r) (hp : PowOK SmartNum.exactReal (env.set x p) x e)
    (y : Nat → ℝ)
    (hy : ∀ k, k ≤ n.toNat → ∃ c, t.coefficient[k]? = some c ∧ denote SmartNum.exactReal env c = some (y k)) :
    (fun s => fn SmartNum.exactReal env x e s - ∑ k ∈ Finset.range (n.toNat + 1), y k * (s - p) ^ k)
      =O[𝓝 p] fun s => (s - p) ^ (n.toNat + 1) := by
  have hyk : ∀ k, k ≤ n.toNat → y k = iteratedDeriv k (fn SmartNum.exactReal env x e) p / (k.factorial : ℝ) := by
    intro k hk
    obtain ⟨c, h1, h2⟩ := hy k hk
    obtain ⟨c', h3, h4⟩ := C34_coefficients m m' e v he hv x n t h hsv hs hl env p r hpt hr hp k hk
    rw [h1] at h3
    cases h3
    exact h4.1 _ h2
  have := taylor_remainder (wf_lift he.valid).tree (denote_lift he.valid.tree hr) (hp.lift he.valid.tree) n.toNat
  rw [fn_lift he.valid hr] at this
  refine this.congr_left fun s => ?_
  congr 1
  refine Finset.sum_congr rfl fun k hk => ?_
  rw [hyk k (by simpa [Nat.lt_succ_iff] using hk)]

end SymRust
