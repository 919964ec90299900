import Verif.Proofs.LHopital
import Verif.Spec.LimitSem
import Verif.Props.LimitShape
import Verif.Props.Semantics
/-! # C42, C43 (true limit), C50: limits are limits -/

namespace SymRust
open Expr Filter Topology
variable {F : Type} [FloatOps F]

/-! ### lifting to exact floats -/

theorem limit_lift {m : Mode} {x : Variable} {pt e : Expr F} {k : UInt64} {n : Nat} {z : LimitExpression F}
    (he : WF SmartNum.Valid e) (hp : WF SmartNum.Valid pt) (h : limit m x pt k n e = .ok z) :
    ∃ d, limit m x pt.lift k n e.lift = .ok d ∧ d.map Prod.fst = z ∧ LimWF SmartNum.Valid d := by
  have := limit_map fstHom m x (wf_lift hp).tree k n (wf_lift he).tree
  rw [map_lift hp, map_lift he, h] at this
  cases hd : limit m x pt.lift k n e.lift with
  | ok d =>
    rw [hd] at this
    simp only [LOut.map, LOut.ok.injEq] at this
    exact ⟨d, rfl, this.symm, limit_wf (numClosed_valid m) (wf_lift hp) (wf_lift he) hd⟩
  | _ => rw [hd] at this; cases this

theorem isZero_lift {e : Expr F} (he : WF SmartNum.Valid e) : e.lift.isZero = e.isZero := by
  conv_rhs => rw [← map_lift he]
  simp

theorem SinOK.lift {env : Env} {x : Variable} {pt e : Expr F} {p : ℝ} (hp : WF SmartNum.Valid pt) (he : Tree e)
    (h : SinOK env x pt p e) : pt.lift.isZero = true →
    Everywhere (fun s => ∀ a, s = Expr.sin a → SinZeroAt SmartNum.value? (env.set x p) a) e.lift := by
  intro h0 s hs a ha
  rw [isZero_lift hp] at h0
  obtain ⟨s0, h1, rfl⟩ := subterm_mapNum hs e rfl
  obtain ⟨a0, rfl, rfl⟩ := unary_mapNum (op := genOpSin) ha.symm
  obtain ⟨w, hw, h2⟩ := h h0 a0 h1
  exact ⟨w, denote_lift (tree_sub (tree_sub he h1) (.child _ _ a0 (by simp) .refl)) hw, h2⟩

theorem TrigOK.lift {env : Env} {x : Variable} {pt e : Expr F} {p : ℝ} (hp : WF SmartNum.Valid pt) (he : Tree e)
    (h : TrigOK env x pt p e) : pt.lift.isZero = true →
    TrigAll (SinZeroAt SmartNum.value? (env.set x p)) e.lift := by
  intro h0 s hs a ha
  rw [isZero_lift hp] at h0
  obtain ⟨s0, h1, rfl⟩ := subterm_mapNum hs e rfl
  rcases ha with ha | ha
  · obtain ⟨a0, rfl, rfl⟩ := unary_mapNum (op := genOpSin) ha.symm
    obtain ⟨w, hw, h2⟩ := h h0 a0 (.inl h1)
    exact ⟨w, denote_lift (tree_sub (tree_sub he h1) (.child _ _ a0 (by simp) .refl)) hw, h2⟩
  · obtain ⟨a0, rfl, rfl⟩ := unary_mapNum (op := genOpCos) ha.symm
    obtain ⟨w, hw, h2⟩ := h h0 a0 (.inr h1)
    exact ⟨w, denote_lift (tree_sub (tree_sub he h1) (.child _ _ a0 (by simp) .refl)) hw, h2⟩

/-! ## C42 -/

/-- C42: at a point where the expression has a value `r` (so no divisor is 0 there), a successful limit is that
value: it is Infinitesimal only if `r = 0`, it is never Infinity, and Normal(c) only with `c` standing for `r`. -/
theorem C42_value (m m' : Mode) (e pt : Expr F) (he : Built m e) (hpt : Built m' pt) (x : Variable) (k : UInt64)
    (z : LimitExpression F) (h : LimitIs .strict e x pt k z) (env : Env) (p r : ℝ)
    (hp : denote SmartNum.exactReal env pt = some p) (hr : denote SmartNum.exactReal (env.set x p) e = some r)
    (hsp : Safe SmartNum.exactReal Set.univ pt) (hs : Safe SmartNum.exactReal (AtPoint SmartNum.exactReal x pt) e)
    (hl : NoLnIntoBase x pt e) (ht : SinOK env x pt p e) :
    (z = .infinitesimal ∧ r = 0) ∨ ∃ c, z = .normal c ∧ StandsFor env c r := by
  obtain ⟨n, h⟩ := h
  obtain ⟨d, h1, rfl, h2⟩ := limit_lift he.valid hpt.valid h
  have hm := limit_means (denote_lift hpt.valid.tree hp) (wf_lift hpt.valid)
    (hsp.lift (E' := Set.univ) subset_rfl hpt.valid.tree) (wf_lift he.valid)
    (hs.lift (atPoint_lift hpt.valid.tree) he.valid.tree) (hl.lift he.valid.tree)
    (denote_lift he.valid.tree hr) (ht.lift hpt.valid he.valid.tree) h1
  cases d with
  | infinitesimal => exact .inl ⟨rfl, hm⟩
  | normal c => exact .inr ⟨_, rfl, denote_down hm.2.2 hm.1⟩
  | _ => exact hm.elim

/-- C42: a successful limit at such a point is the true limit of the function as t tends to p. -/
theorem C42_limit (m m' : Mode) (e pt : Expr F) (he : Built m e) (hpt : Built m' pt) (x : Variable) (k : UInt64)
    (z : LimitExpression F) (h : LimitIs .strict e x pt k z) (env : Env) (p r : ℝ)
    (hp : denote SmartNum.exactReal env pt = some p) (hr : denote SmartNum.exactReal (env.set x p) e = some r)
    (hpow : PowOK SmartNum.exactReal (env.set x p) x e)
    (hsp : Safe SmartNum.exactReal Set.univ pt) (hs : Safe SmartNum.exactReal (AtPoint SmartNum.exactReal x pt) e)
    (hl : NoLnIntoBase x pt e) (ht : SinOK env x pt p e) :
    z.Tells env (𝓝[≠] p) (fn SmartNum.exactReal env x e) ∧ z ≠ .infinity := by
  obtain ⟨g, h1, h2, h3⟩ := denote_smooth he.valid.tree hr hpow 1
  simp only [Env.set_same, Env.set_set] at h1 h2 h3
  have hf : Tendsto (fn SmartNum.exactReal env x e) (𝓝[≠] p) (𝓝 r) := by
    rw [← h3]
    refine (h2.continuousAt.tendsto.congr' ?_).mono_left nhdsWithin_le_nhds
    filter_upwards [h1] with t ht
    rw [fn, ht]; rfl
  rcases C42_value m m' e pt he hpt x k z h env p r hp hr hsp hs hl ht with ⟨rfl, rfl⟩ | ⟨c, rfl, hc⟩
  · exact ⟨hf, by simp⟩
  · exact ⟨⟨r, hc, hf⟩, by simp⟩

/-- Non-vacuous: `x * x / (x + y)` at `x := 2` with `y = 1` meets the hypotheses, has the value 4/3, and the answer is
Normal(4 / (2 + y)). -/
example : let x : Expr F := newVariable "x"
    let y : Expr F := newVariable "y"
    let e := (x.mul x).div (x.add y)
    let env : Env := fun _ => 1
    Built .debug e ∧ LimitIs .strict e ⟨"x"⟩ (ofI64 2) 0 (.normal ((ofI64 4).div ((ofI64 2).add y))) ∧
    denote SmartNum.exactReal env (ofI64 2 : Expr F) = some 2 ∧
    denote SmartNum.exactReal (env.set ⟨"x"⟩ 2) e = some (4 / 3) ∧
    PowOK SmartNum.exactReal (env.set ⟨"x"⟩ 2) ⟨"x"⟩ e ∧ Safe SmartNum.exactReal Set.univ (ofI64 2 : Expr F) ∧
    Safe SmartNum.exactReal (AtPoint SmartNum.exactReal ⟨"x"⟩ (ofI64 2 : Expr F)) e ∧
    NoLnIntoBase ⟨"x"⟩ (ofI64 2) e ∧ SinOK env ⟨"x"⟩ (ofI64 2) 2 e := by
  intro x y e env
  have bx : Built .debug x := .var ⟨"x"⟩
  have by' : Built .debug y := .var ⟨"y"⟩
  have h2 : denote SmartNum.exactReal env (ofI64 2 : Expr F) = some 2 := by
    rw [denote_int]; simp [show (2 : Int64).toInt = 2 by decide]
  have hx : denote SmartNum.exactReal (env.set ⟨"x"⟩ 2) x = some 2 := by simp [x, newVariable, denote, Env.set]
  have hy : denote SmartNum.exactReal (env.set ⟨"x"⟩ 2) y = some 1 := by simp [y, newVariable, denote, Env.set, env]
  have pa : ∀ Q, PowAll Q e := fun Q => powAll_div.2 ⟨powAll_mul.2 ⟨powAll_ofVar _, powAll_ofVar _⟩,
    powAll_add.2 ⟨powAll_ofVar _, powAll_ofVar _⟩⟩
  refine ⟨.div _ _ (.mul _ _ bx bx) (.add _ _ bx by'), ⟨3, by krfl⟩, h2, ?_, pa _, safe_ofNum _, ?_, ?_, ?_⟩
  · exact denote_div.2 ⟨4, 3, denote_mul.2 ⟨2, 2, hx, hx, by norm_num⟩, denote_add.2 ⟨2, 1, hx, hy, by norm_num⟩,
      by norm_num, rfl⟩
  · exact safe_div.2 ⟨safe_mul.2 ⟨safe_ofVar _, safe_ofVar _⟩, safe_add.2 ⟨safe_ofVar _, safe_ofVar _⟩⟩
  · intro a b h; exact (pa (fun _ _ => False) _ h a b rfl).elim
  · intro h; cases h

/-! ## C43 -/

/-- C43: the answer for sin(x+1) at 0 is wrong: it is called Infinitesimal, but tends to sin 1 > 0. -/
theorem C43_wrong (m : Mode) (k : UInt64) (env : Env) :
    let e : Expr F := ((newVariable "x").add (ofI64 1)).sin
    LimitIs m e ⟨"x"⟩ (ofI64 0) k .infinitesimal ∧
    Tendsto (fn SmartNum.exactReal env ⟨"x"⟩ e) (𝓝[≠] 0) (𝓝 (Real.sin 1)) ∧ Real.sin 1 ≠ 0 ∧
    ¬ (LimitExpression.infinitesimal : LimitExpression F).Tells env (𝓝[≠] 0) (fn SmartNum.exactReal env ⟨"x"⟩ e) := by
  intro e
  have hs : Real.sin 1 ≠ 0 := (Real.sin_pos_of_pos_of_lt_pi one_pos (by linarith [Real.pi_gt_three])).ne'
  have hfn : fn SmartNum.exactReal env ⟨"x"⟩ e = fun t => Real.sin (t + 1) := by
    funext t
    have : denote SmartNum.exactReal (env.set ⟨"x"⟩ t) e = some (Real.sin (t + 1)) :=
      denote_sin.2 ⟨t + 1, denote_add.2 ⟨t, 1, by simp [newVariable, Env.set, denote], by
        rw [denote_int]; simp [show (1 : Int64).toInt = 1 by decide], rfl⟩, rfl⟩
    rw [fn, this]; rfl
  have ht : Tendsto (fn SmartNum.exactReal env ⟨"x"⟩ e) (𝓝[≠] 0) (𝓝 (Real.sin 1)) := by
    rw [hfn]
    have : Tendsto (fun t : ℝ => Real.sin (t + 1)) (𝓝 0) (𝓝 (Real.sin (0 + 1))) :=
      (Real.continuous_sin.comp (continuous_id.add continuous_const)).tendsto 0
    rw [zero_add] at this
    exact this.mono_left nhdsWithin_le_nhds
  exact ⟨C43_sin_at_zero m _ _ k, ht, hs, fun h => hs (tendsto_nhds_unique ht h)⟩

/-! ## C50 -/

/-- The hypotheses of C50 on dividend and divisor: built with the API, with a value at the point, and with the
restrictions of C34 and C43. -/
structure Quotable (m : Mode) (env : Env) (x : Variable) (pt : Expr F) (p : ℝ) (e : Expr F) : Prop where
  built : Built m e
  value : ∃ r, denote SmartNum.exactReal (env.set x p) e = some r
  safe : SafeD SmartNum.exactReal (AtPoint SmartNum.exactReal x pt) e
  ln : NoLnIntoBase x pt e
  pow : PowOK SmartNum.exactReal (env.set x p) x e
  trig : TrigOK env x pt p e

theorem Quotable.lift {m : Mode} {env : Env} {x : Variable} {pt e : Expr F} {p : ℝ} (hpt : WF SmartNum.Valid pt)
    (h : Quotable m env x pt p e) : Regular env x pt.lift p e.lift ∧
      fn SmartNum.value? env x e.lift = fn SmartNum.exactReal env x e := by
  obtain ⟨r, hr⟩ := h.value
  have w := h.built.valid
  exact ⟨⟨wf_lift w, h.safe.lift (atPoint_lift hpt.tree) w.tree, h.ln.lift w.tree, ⟨r, denote_lift w.tree hr⟩,
    h.pow.lift w.tree, h.trig.lift hpt w.tree⟩, fn_lift w hr env x⟩

theorem nthDerivative_lift {m : Mode} {x : Variable} {e : Expr F} (he : WF SmartNum.Valid e) (i : Nat)
    {d : Expr (F × ℝ)} (h : nthDerivative m e.lift x i = .ok d) :
    nthDerivative m e x i = .ok (d.map Prod.fst) ∧ WF SmartNum.Valid d := by
  induction i generalizing d with
  | zero => cases h; exact ⟨by rw [map_lift he]; rfl, wf_lift he⟩
  | succ i ih =>
    obtain ⟨d', h1, h2⟩ := Out.bind_eq_ok.1 h
    obtain ⟨i1, i2⟩ := ih h1
    refine ⟨?_, (der_of_derivative i2.tree h2).wf (numClosed_valid m) i2⟩
    simp only [nthDerivative, i1]
    have := derivative_map fstHom m x i2.tree
    rw [h2] at this
    exact this

theorem tells_of_means {env : Env} {p r : ℝ} {d : LimitExpression (F × ℝ)} {f : ℝ → ℝ} (hm : Means env r d)
    (hf : Tendsto f (𝓝[≠] p) (𝓝 r)) : (d.map Prod.fst).Tells env (𝓝[≠] p) f := by
  cases d with
  | infinitesimal =>
    have : r = 0 := hm
    rw [this] at hf; exact hf
  | normal c => exact ⟨r, denote_down hm.2.2 hm.1, hf⟩
  | _ => exact hm.elim

/-- C50: a successful limit of a quotient stops after some number `i ≤ order_try` of L'Hôpital steps.  All lower
derivatives of dividend and divisor vanish at the point, and if the divisor's `i`-th derivative does not, then the
answer is the true limit. -/
theorem C50_lhopital (m m' : Mode) (l r pt : Expr F) (hpt : Built m' pt) (x : Variable) (k : UInt64)
    (z : LimitExpression F) (h : LimitIs .strict (l.div r) x pt k z) (env : Env) (p : ℝ)
    (hp : denote SmartNum.exactReal env pt = some p) (hsp : Safe SmartNum.exactReal Set.univ pt)
    (hl : Quotable m env x pt p l) (hr : Quotable m env x pt p r) :
    ∃ i ≤ k.toNat, (∀ j < i, iteratedDeriv j (fn SmartNum.exactReal env x l) p = 0 ∧
        iteratedDeriv j (fn SmartNum.exactReal env x r) p = 0) ∧
      (iteratedDeriv i (fn SmartNum.exactReal env x r) p ≠ 0 →
        z.Tells env (𝓝[≠] p) fun t => fn SmartNum.exactReal env x l t / fn SmartNum.exactReal env x r t) := by
  obtain ⟨n, h⟩ := h
  obtain ⟨d, h1, rfl, h2⟩ := limit_lift (.div _ _ hl.built.valid hr.built.valid) hpt.valid h
  obtain ⟨rl, fl⟩ := hl.lift hpt.valid
  obtain ⟨rr, fr⟩ := hr.lift hpt.valid
  obtain ⟨i, hi, li, ri, a, b, -, -, -, -, ma, mb, ⟨w, hw, hf⟩, h0⟩ := lhopital_steps (l := l.lift) (r := r.lift)
    (denote_lift hpt.valid.tree hp) (wf_lift hpt.valid) (hsp.lift (E' := Set.univ) subset_rfl hpt.valid.tree) rl rr h1
  rw [fl, fr] at h0
  refine ⟨i, hi, h0, fun hd => ?_⟩
  have hd' : iteratedDeriv i (fn SmartNum.value? env x r.lift) p ≠ 0 := by rw [fr]; exact hd
  obtain ⟨w', hw', hm⟩ := div_means ma mb hd'
  rw [hw] at hw'; cases hw'
  have ht := quotient_tendsto rl rr (by rw [fl, fr]; exact h0) hd'
  rw [fl, fr] at ht
  rw [fl, fr] at hm
  exact tells_of_means (finish_means hm hf) ht

/-- C50: if no Normal answer for a derivative of dividend or divisor stands for 0, and the divisor is not 0 near the
point, the answer for the quotient is the true limit (also when it is Infinity). -/
theorem C50_sound (m m' : Mode) (l r pt : Expr F) (hpt : Built m' pt) (x : Variable) (k : UInt64)
    (z : LimitExpression F) (h : LimitIs .strict (l.div r) x pt k z) (env : Env) (p : ℝ)
    (hp : denote SmartNum.exactReal env pt = some p) (hsp : Safe SmartNum.exactReal Set.univ pt)
    (hl : Quotable m env x pt p l) (hr : Quotable m env x pt p r)
    (hg : ∀ᶠ t in 𝓝[≠] p, fn SmartNum.exactReal env x r t ≠ 0)
    (hz : ∀ e, e = l ∨ e = r → ∀ i ≤ k.toNat, ∀ d c, nthDerivative .strict e x i = .ok d → LimitIs .strict d x pt k (.normal c) →
      iteratedDeriv i (fn SmartNum.exactReal env x e) p ≠ 0) :
    z.Tells env (𝓝[≠] p) fun t => fn SmartNum.exactReal env x l t / fn SmartNum.exactReal env x r t := by
  obtain ⟨n, h⟩ := h
  obtain ⟨d, h1, rfl, h2⟩ := limit_lift (.div _ _ hl.built.valid hr.built.valid) hpt.valid h
  obtain ⟨rl, fl⟩ := hl.lift hpt.valid
  obtain ⟨rr, fr⟩ := hr.lift hpt.valid
  obtain ⟨i, hi, li, ri, a, b, dl, dr, la, lb, ma, mb, ⟨w, hw, hf⟩, h0⟩ := lhopital_steps (l := l.lift) (r := r.lift)
    (denote_lift hpt.valid.tree hp) (wf_lift hpt.valid) (hsp.lift (E' := Set.univ) subset_rfl hpt.valid.tree) rl rr h1
  rw [fl, fr] at h0
  rw [fl] at ma
  rw [fr] at mb
  have down : ∀ {e : Expr F}, Built m e → ∀ {d : Expr (F × ℝ)} {c : Expr (F × ℝ)},
      nthDerivative .strict e.lift x i = .ok d → limit .strict x pt.lift k (n - 1) d = .ok (.normal c) →
      ∃ d c, nthDerivative .strict e x i = .ok d ∧ LimitIs .strict d x pt k (.normal c) := by
    intro e he d c hd hc
    obtain ⟨g1, g2⟩ := nthDerivative_lift he.valid i hd
    refine ⟨_, c.map Prod.fst, g1, n - 1, ?_⟩
    have := limit_map fstHom .strict x (wf_lift hpt.valid).tree k (n - 1) g2.tree
    rw [map_lift hpt.valid, hc] at this
    exact this
  by_cases hd : iteratedDeriv i (fn SmartNum.exactReal env x r) p = 0
  · -- the divisor is Infinitesimal, the dividend must be a Normal of nonzero value
    cases b with
    | normal c =>
      obtain ⟨d', c', g1, g2⟩ := down hr.built dr lb
      exact absurd hd (hz r (.inr rfl) i hi d' c' g1 g2)
    | infinitesimal =>
      cases a with
      | normal c =>
        obtain ⟨d', c', g1, g2⟩ := down hl.built dl la
        have hn := hz l (.inl rfl) i hi d' c' g1 g2
        have := quotient_infinity rl rr (i := i) (by rw [fl, fr]; exact h0) (by rw [fl]; exact hn)
          (by rw [fr]; exact hd) (by rw [fr]; exact hg)
        rw [fl, fr] at this
        simp only [LimitExpression.div] at hw
        split_ifs at hw
        cases hw
        cases hf
        exact this
      | infinitesimal => cases hw
      | _ => exact ma.elim
    | _ => exact mb.elim
  · obtain ⟨w', hw', hm⟩ := div_means ma mb hd
    rw [hw] at hw'; cases hw'
    have ht := quotient_tendsto rl rr (i := i) (by rw [fl, fr]; exact h0) (by rw [fr]; exact hd)
    rw [fl, fr] at ht
    exact tells_of_means (finish_means hm hf) ht

theorem fn_var (env : Env) : fn SmartNum.exactReal env ⟨"x"⟩ (newVariable "x" : Expr F) = fun t => t := by
  funext t; simp [fn, newVariable, denote, Env.set]

/-- Non-vacuous: `sin(x)` and `x` at the literal 0 meet the hypotheses of C50_sound with `order_try = 1`, and the answer
is Normal(1). -/
theorem C50_sin_over_x (env : Env) :
    let x : Expr F := newVariable "x"
    LimitIs .strict (x.sin.div x) ⟨"x"⟩ zero 1 (.normal one) ∧
    (LimitExpression.normal one : LimitExpression F).Tells env (𝓝[≠] 0)
      fun t => fn SmartNum.exactReal env ⟨"x"⟩ x.sin t / fn SmartNum.exactReal env ⟨"x"⟩ x t := by
  intro x
  have hx : x = ofVar ⟨"x"⟩ := rfl
  have h0 : ∀ env : Env, denote SmartNum.exactReal env (zero : Expr F) = some 0 := by
    intro env; rw [zero, denote_int]; simp [show (0 : Int64).toInt = 0 by decide]
  have hset : ∀ env : Env, ∀ t : ℝ, denote SmartNum.exactReal (env.set ⟨"x"⟩ t) x = some t := by
    intro env t; simp [hx]
  have bx : Built .debug x := .var ⟨"x"⟩
  have bz : Built .debug (zero : Expr F) := .num _ (.ofI64 0)
  have hav : Avoids SmartNum.exactReal (AtPoint SmartNum.exactReal ⟨"x"⟩ (zero : Expr F)) x Real.pi :=
    ⟨env.set ⟨"x"⟩ 0, ⟨env, 0, h0 env, rfl⟩, 0, hset env 0, Real.pi_pos.ne⟩
  have hfs : fn SmartNum.exactReal env ⟨"x"⟩ x.sin = Real.sin := by
    funext t; rw [fn, denote_sin.2 ⟨t, hset env t, rfl⟩]; rfl
  have qs : Quotable .debug env ⟨"x"⟩ zero 0 x.sin := by
    refine ⟨.sin _ bx, ⟨0, denote_sin.2 ⟨0, hset env 0, by simp⟩⟩, safeD_sin.2 ⟨hav, safeD_ofVar _⟩, ?_, ?_, ?_⟩
    · intro a b h
      have : PowAll (fun _ _ => False) x.sin := powAll_sin.2 (powAll_ofVar _)
      exact (this _ h a b rfl).elim
    · exact powAll_sin.2 (powAll_ofVar _)
    · intro _ a ha
      have : TrigAll (fun a => a = x) x.sin := trigAll_sin.2 ⟨rfl, trigAll_ofVar _⟩
      have hax : a = x := ha.elim (fun h => this _ h a (.inl rfl)) (fun h => this _ h a (.inr rfl))
      subst hax
      exact ⟨0, hset env 0, by simp⟩
  have qx : Quotable .debug env ⟨"x"⟩ zero 0 x := by
    refine ⟨bx, ⟨0, hset env 0⟩, safeD_ofVar _, ?_, powAll_ofVar _, ?_⟩
    · intro a b h
      have : PowAll (fun _ _ => False) x := powAll_ofVar _
      exact (this _ h a b rfl).elim
    · intro _ a ha
      have : TrigAll (fun _ => False) x := trigAll_ofVar _
      exact (ha.elim (fun h => this _ h a (.inl rfl)) (fun h => this _ h a (.inr rfl))).elim
  have hlim : LimitIs .strict (x.sin.div x) ⟨"x"⟩ zero 1 (.normal one) := ⟨3, by krfl⟩
  refine ⟨hlim, C50_sound .debug .debug x.sin x zero bz ⟨"x"⟩ 1 _ hlim env 0 (h0 env) (safe_ofNum _) qs qx ?_ ?_⟩
  · rw [fn_var]
    exact self_mem_nhdsWithin
  · intro e he i hi d c hd hc
    have hi' : i ≤ 1 := hi
    have uniq : ∀ {d : Expr F} {n : Nat} {z : LimitExpression F}, Tree d → limit .strict ⟨"x"⟩ zero 1 n d = .ok z →
        LimitIs .strict d ⟨"x"⟩ zero 1 (.normal c) → z = .normal c := by
      rintro d n z td h1 ⟨n', h2⟩
      have := limit_outcome_unique bz.tree td (h1.trans_ne (by simp)) (h2.trans_ne (by simp))
      rw [h1, h2] at this
      exact LOut.ok.inj this
    rcases he with rfl | rfl
    · interval_cases i
      · cases hd
        have := uniq (n := 1) (WF.sin _ bx.tree) rfl hc
        cases this
      · rw [hfs, iteratedDeriv_one, Real.deriv_sin]; simp
    · interval_cases i
      · cases hd
        have := uniq (n := 1) bx.tree rfl hc
        cases this
      · rw [fn_var, iteratedDeriv_one]; simp

/-- C50: the condition is needed.  For every float implementation and in every build, the limit of (x+1)/(x+1) at -1
is reported to be 0, because x+1 has the answer Normal(0) and 0/0 aggregates to 0; the true limit is 1. -/
theorem C50_zero_over_zero_wrong (m : Mode) (k : UInt64) (env : Env) :
    let e : Expr F := (newVariable "x").add (ofI64 1)
    LimitIs m e ⟨"x"⟩ (ofI64 (-1)) k (.normal zero) ∧
    LimitIs m (e.div e) ⟨"x"⟩ (ofI64 (-1)) k (.normal zero) ∧
    Tendsto (fn SmartNum.exactReal env ⟨"x"⟩ (e.div e)) (𝓝[≠] (-1)) (𝓝 1) := by
  intro e
  refine ⟨⟨2, by cases m <;> krfl⟩, ⟨3, by cases m <;> krfl⟩, ?_⟩
  have he : ∀ t, denote SmartNum.exactReal (env.set ⟨"x"⟩ t) e = some (t + 1) := fun t =>
    denote_add.2 ⟨t, 1, by simp [newVariable, Env.set, denote], by
        rw [denote_int]; simp [show (1 : Int64).toInt = 1 by decide], rfl⟩
  refine tendsto_const_nhds.congr' ?_
  filter_upwards [self_mem_nhdsWithin] with t ht
  have h1 : t + 1 ≠ 0 := fun h => ht (by simp; linarith)
  rw [fn, denote_div.2 ⟨t + 1, t + 1, he t, he t, h1, div_self h1⟩]; rfl

end SymRust
