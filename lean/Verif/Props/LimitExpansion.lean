import Verif.Props.ExpansionComp
import Verif.Props.LimitFull
/-! # Limits and expansions agree: property C83 -/

namespace SymRust
variable {F : Type} [FloatOps F]
open Expr Filter Topology

/-- A function whose first `i` Taylor coefficients are 0. -/
theorem taylorC_factor (p : ℝ) (i : ℕ) : ∀ f : ℝ → ℝ, AnalyticAt ℝ f p → (∀ k, k < i → taylorC f p k = 0) →
    ∃ h : ℝ → ℝ, AnalyticAt ℝ h p ∧ h p = taylorC f p i ∧ ∀ t, f t = (t - p) ^ i * h t := by
  induction i with
  | zero => intro f hf _; exact ⟨f, hf, (taylorC_zero f p).symm, fun t => by simp⟩
  | succ i ih =>
    intro f hf h0
    obtain ⟨h, h1, h2, h3⟩ := ih (dslope f p) (analyticAt_dslope hf) fun k hk => by
      rw [taylorC_dslope hf]; exact h0 _ (by omega)
    refine ⟨h, h1, by rw [h2, taylorC_dslope hf], fun t => ?_⟩
    have h4 := sub_smul_dslope f p t
    have h5 := h0 0 (by omega)
    rw [taylorC_zero] at h5
    rw [smul_eq_mul, h5, sub_zero, h3] at h4
    rw [← h4]; ring

section
variable {f g : ℝ → ℝ} {p : ℝ} {i j : ℕ}

/-- The quotient of two functions by their first Taylor coefficients. -/
theorem quotient_form (hf : AnalyticAt ℝ f p) (hg : AnalyticAt ℝ g p) (hi : ∀ k, k < i → taylorC f p k = 0)
    (hj : ∀ k, k < j → taylorC g p k = 0) (hj0 : taylorC g p j ≠ 0) :
    ∃ q : ℝ → ℝ, Tendsto q (𝓝[≠] p) (𝓝 (taylorC f p i / taylorC g p j)) ∧
      ∀ᶠ t in 𝓝[≠] p, f t / g t * (t - p) ^ j = (t - p) ^ i * q t := by
  obtain ⟨a, a1, a2, a3⟩ := taylorC_factor p i f hf hi
  obtain ⟨b, b1, b2, b3⟩ := taylorC_factor p j g hg hj
  refine ⟨fun t => a t / b t, ?_, ?_⟩
  · rw [← a2, ← b2]
    exact (a1.continuousAt.div b1.continuousAt (by rw [b2]; exact hj0)).tendsto.mono_left nhdsWithin_le_nhds
  · have h0 : ∀ᶠ t in 𝓝[≠] p, b t ≠ 0 :=
      (b1.continuousAt.eventually_ne (by rw [b2]; exact hj0)).filter_mono nhdsWithin_le_nhds
    filter_upwards [h0, self_mem_nhdsWithin] with t ht hp
    have hp : t - p ≠ 0 := sub_ne_zero.2 hp
    rw [a3 t, b3 t]
    field_simp

theorem quotient_eq (hf : AnalyticAt ℝ f p) (hg : AnalyticAt ℝ g p) (hi : ∀ k, k < i → taylorC f p k = 0)
    (hj : ∀ k, k < i → taylorC g p k = 0) (hj0 : taylorC g p i ≠ 0) :
    Tendsto (fun t => f t / g t) (𝓝[≠] p) (𝓝 (taylorC f p i / taylorC g p i)) := by
  obtain ⟨q, h1, h2⟩ := quotient_form hf hg hi hj hj0
  refine h1.congr' ?_
  filter_upwards [h2, self_mem_nhdsWithin] with t ht hp
  have hp : (t - p) ^ i ≠ 0 := pow_ne_zero _ (sub_ne_zero.2 hp)
  rw [mul_comm] at ht
  exact (mul_left_cancel₀ hp ht).symm

theorem quotient_zero (hf : AnalyticAt ℝ f p) (hg : AnalyticAt ℝ g p) (hi : ∀ k, k < i → taylorC f p k = 0)
    (hj : ∀ k, k < j → taylorC g p k = 0) (hj0 : taylorC g p j ≠ 0) (hij : j < i) :
    Tendsto (fun t => f t / g t) (𝓝[≠] p) (𝓝 0) := by
  have := quotient_eq (i := j) hf hg (fun k hk => hi k (by omega)) hj hj0
  rwa [hi j hij, zero_div] at this

theorem quotient_infinite (hf : AnalyticAt ℝ f p) (hg : AnalyticAt ℝ g p) (hi : ∀ k, k < i → taylorC f p k = 0)
    (hi0 : taylorC f p i ≠ 0) (hj : ∀ k, k < j → taylorC g p k = 0) (hj0 : taylorC g p j ≠ 0) (hij : i < j) :
    Tendsto (fun t => |f t / g t|) (𝓝[≠] p) atTop := by
  obtain ⟨q, h1, h2⟩ := quotient_form hf hg hi hj hj0
  have hq : Tendsto (fun t => |q t|) (𝓝[≠] p) (𝓝 |taylorC f p i / taylorC g p j|) := h1.abs
  have hd : Tendsto (fun t : ℝ => (|t - p| ^ (j - i))⁻¹) (𝓝[≠] p) atTop := by
    refine Filter.Tendsto.inv_tendsto_nhdsGT_zero ?_
    refine tendsto_nhdsWithin_iff.2 ⟨?_, ?_⟩
    · have : ContinuousAt (fun t : ℝ => |t - p| ^ (j - i)) p := by fun_prop
      have h := this.tendsto.mono_left (nhdsWithin_le_nhds (s := {p}ᶜ))
      simpa [show j - i ≠ 0 by omega] using h
    · filter_upwards [self_mem_nhdsWithin] with t hp
      exact pow_pos (abs_pos.2 (sub_ne_zero.2 hp)) _
  refine (hq.pos_mul_atTop (abs_pos.2 (div_ne_zero hi0 hj0)) hd).congr' ?_
  filter_upwards [h2, self_mem_nhdsWithin] with t ht hp
  have hp' : t - p ≠ 0 := sub_ne_zero.2 hp
  have hpp : |t - p| ≠ 0 := abs_ne_zero.2 hp'
  obtain ⟨d, rfl⟩ := Nat.exists_eq_add_of_lt hij
  rw [show i + d + 1 - i = d + 1 by omega]
  have h3 : f t / g t * (t - p) ^ (d + 1) = q t := by
    refine mul_left_cancel₀ (pow_ne_zero i hp') ?_
    rw [← ht]; ring
  rw [← h3, abs_mul, abs_pow]
  field_simp
end

section
variable (m : Mode) (env : Env) (x : Variable) (v : Expr F) (p : ℝ) (n k : UInt64) (u w : ℕ → ℝ)

/-- C83: let a and b have exact expansions at the point, u and w, to order n; the first coefficient of b other than 0
be number j, and the first i coefficients of a be 0, the next (if the order reaches so far) not.  Then an answer of
`limit` for a / b there (under the conditions of C51) is Infinitesimal only if i > j, Infinity only if i < j, and
Normal(c) only if c stands for the quotient of the two coefficients and i = j, or for 0 and i > j. -/
theorem C83_quotient (a b : Expr F) (hv : PointAt env v p) (ha : Expandable env x v p a) (hb : Expandable env x v p b)
    (hu : ExpandsTo env x v n a u) (hw : ExpandsTo env x v n b w) (i j : ℕ) (hi : i ≤ n.toNat + 1) (hj : j ≤ n.toNat)
    (hi0 : ∀ l, l < i → u l = 0) (hi1 : i ≤ n.toNat → u i ≠ 0) (hj0 : ∀ l, l < j → w l = 0) (hj1 : w j ≠ 0)
    (z : LimitExpression F) (h : LimitIs .strict (a.div b) x v k z) (he : Searchable m env x v p (a.div b))
    (hf : SearchFine .strict x v k (fun c => StandsFor env c 0) (a.div b)) :
    match z with
    | .infinitesimal => j < i
    | .infinity => i < j
    | .boundedFluctuation => False
    | .normal c => ∃ r, StandsFor env c r ∧ ((i = j ∧ r = u i / w j) ∨ (j < i ∧ r = 0)) := by
  obtain ⟨m', hm'⟩ := hv.built
  have key := C51_sound m m' (a.div b) v hm' x k z h env p hv.value hv.safe he hf
  have hu' : ∀ l, l ≤ n.toNat → u l = taylorC (fn SmartNum.exactReal env x a) p l := fun l hl => ha.coefficient hv hu hl
  have hw' : ∀ l, l ≤ n.toNat → w l = taylorC (fn SmartNum.exactReal env x b) p l := fun l hl => hb.coefficient hv hw hl
  have hi0' : ∀ l, l < i → taylorC (fn SmartNum.exactReal env x a) p l = 0 := fun l hl => by
    rw [← hu' l (by omega)]; exact hi0 l hl
  have hj0' : ∀ l, l < j → taylorC (fn SmartNum.exactReal env x b) p l = 0 := fun l hl => by
    rw [← hw' l (by omega)]; exact hj0 l hl
  have hj1' : taylorC (fn SmartNum.exactReal env x b) p j ≠ 0 := by rw [← hw' j hj]; exact hj1
  have hfn : fn SmartNum.exactReal env x (a.div b) =ᶠ[𝓝[≠] p]
      fun t => fn SmartNum.exactReal env x a t / fn SmartNum.exactReal env x b t := by
    filter_upwards [he.defined] with t ⟨r, hr⟩
    obtain ⟨s, s', h1, h2, -, h4⟩ := denote_div.1 hr
    rw [fn, fn, fn, hr, h1, h2]; exact h4.symm
  rcases lt_trichotomy i j with hij | hij | hij
  · have hi1' : taylorC (fn SmartNum.exactReal env x a) p i ≠ 0 := by rw [← hu' i (by omega)]; exact hi1 (by omega)
    have ht := quotient_infinite ha.analytic hb.analytic hi0' hi1' hj0' hj1' hij
    have ht' : Tendsto (fun t => |fn SmartNum.exactReal env x (a.div b) t|) (𝓝[≠] p) atTop :=
      ht.congr' (hfn.mono fun t h => by show |_| = |_|; rw [h])
    cases z with
    | infinitesimal => exact absurd (Tendsto.abs key) (not_tendsto_nhds_of_tendsto_atTop ht' _)
    | infinity => exact hij
    | boundedFluctuation =>
      obtain ⟨C, hC⟩ := key
      obtain ⟨t, h1, h2⟩ := (hC.and (ht'.eventually_gt_atTop C)).exists
      linarith
    | normal c =>
      obtain ⟨r, -, h2⟩ := key
      exact absurd (Tendsto.abs h2) (not_tendsto_nhds_of_tendsto_atTop ht' _)
  · subst hij
    have ht := quotient_eq ha.analytic hb.analytic hi0' hj0' hj1'
    rw [← hu' i hj, ← hw' i hj] at ht
    have ht' : Tendsto (fn SmartNum.exactReal env x (a.div b)) (𝓝[≠] p) (𝓝 (u i / w i)) :=
      ht.congr' (hfn.mono fun t h => h.symm)
    cases z with
    | infinitesimal =>
      have := tendsto_nhds_unique ht' key
      exact absurd this (div_ne_zero (hi1 hj) hj1)
    | infinity => exact absurd ht'.abs (not_tendsto_nhds_of_tendsto_atTop key _)
    | boundedFluctuation => obtain ⟨n', hn'⟩ := h; exact limit_not_bf n' _ _ he.built.tree hn' rfl
    | normal c =>
      obtain ⟨r, h1, h2⟩ := key
      exact ⟨r, h1, .inl ⟨rfl, tendsto_nhds_unique h2 ht'⟩⟩
  · have ht := quotient_zero ha.analytic hb.analytic hi0' hj0' hj1' hij
    have ht' : Tendsto (fn SmartNum.exactReal env x (a.div b)) (𝓝[≠] p) (𝓝 0) :=
      ht.congr' (hfn.mono fun t h => h.symm)
    cases z with
    | infinitesimal => exact hij
    | infinity => exact absurd ht'.abs (not_tendsto_nhds_of_tendsto_atTop key _)
    | boundedFluctuation => obtain ⟨n', hn'⟩ := h; exact limit_not_bf n' _ _ he.built.tree hn' rfl
    | normal c =>
      obtain ⟨r, h1, h2⟩ := key
      exact ⟨r, h1, .inr ⟨hij, tendsto_nhds_unique h2 ht'⟩⟩

/-- C83: where e itself has an exact expansion, an answer of `limit` is never Infinity, it is Infinitesimal only if the
constant coefficient is 0, and Normal(c) only if c stands for the constant coefficient. -/
theorem C83_value (e : Expr F) (hv : PointAt env v p) (hx : Expandable env x v p e) (hu : ExpandsTo env x v n e u)
    (z : LimitExpression F) (h : LimitIs .strict e x v k z) (he : Searchable m env x v p e)
    (hf : SearchFine .strict x v k (fun c => StandsFor env c 0) e) :
    match z with
    | .infinitesimal => u 0 = 0
    | .infinity => False
    | .boundedFluctuation => False
    | .normal c => StandsFor env c (u 0) := by
  obtain ⟨m', hm'⟩ := hv.built
  have key := C51_sound m m' e v hm' x k z h env p hv.value hv.safe he hf
  have h0 : u 0 = fn SmartNum.exactReal env x e p := by
    rw [hx.coefficient hv hu (Nat.zero_le _), taylorC_zero]
  have ht : Tendsto (fn SmartNum.exactReal env x e) (𝓝[≠] p) (𝓝 (u 0)) := by
    rw [h0]; exact hx.analytic.continuousAt.tendsto.mono_left nhdsWithin_le_nhds
  cases z with
  | infinitesimal => exact tendsto_nhds_unique ht key
  | infinity => exact absurd ht.abs (not_tendsto_nhds_of_tendsto_atTop key _)
  | boundedFluctuation => obtain ⟨n', hn'⟩ := h; exact limit_not_bf n' _ _ he.built.tree hn' rfl
  | normal c =>
    obtain ⟨r, h1, h2⟩ := key
    rw [tendsto_nhds_unique ht h2]; exact h1

end

/-- C83, non-vacuous: sin(x) / x at 0 with `order_try = 1`, the numerator and the denominator expanded to order 3: the
first coefficients that are not 0 have number 1 and the same value, and the answer is Normal(1).  The cosine meets the
hypotheses of C83_value there. -/
theorem C83_instance (env : Env) :
    let x : Expr F := newVariable "x"
    ∃ u w c : ℕ → ℝ, PointAt env (zero : Expr F) 0 ∧ Expandable env ⟨"x"⟩ zero 0 x.sin ∧ Expandable env ⟨"x"⟩ zero 0 x ∧
      Expandable env ⟨"x"⟩ zero 0 x.cos ∧
      ExpandsTo env ⟨"x"⟩ (zero : Expr F) 3 x.sin u ∧ ExpandsTo env ⟨"x"⟩ (zero : Expr F) 3 x w ∧
      ExpandsTo env ⟨"x"⟩ (zero : Expr F) 3 x.cos c ∧
      u 0 = 0 ∧ u 1 = 1 ∧ w 0 = 0 ∧ w 1 = 1 ∧ c 0 = 1 ∧
      LimitIs .strict (x.sin.div x) ⟨"x"⟩ zero 1 (.normal one) ∧ LimitIs .strict x.cos ⟨"x"⟩ zero 1 (.normal one) ∧
      Searchable .debug env ⟨"x"⟩ zero 0 (x.sin.div x) ∧ Searchable .debug env ⟨"x"⟩ zero 0 x.cos ∧
      SearchFine .strict ⟨"x"⟩ zero 1 (fun c => StandsFor env c 0) (x.sin.div x) ∧
      SearchFine .strict ⟨"x"⟩ zero 1 (fun c => StandsFor env c 0) x.cos := by
  intro x
  have hx : x = ofVar ⟨"x"⟩ := rfl
  have h0 : ∀ env : Env, denote SmartNum.exactReal env (zero : Expr F) = some 0 := by
    intro env; rw [zero, denote_int]; simp [show (0 : Int64).toInt = 0 by decide]
  have hset : ∀ env : Env, ∀ t : ℝ, denote SmartNum.exactReal (env.set ⟨"x"⟩ t) x = some t := by
    intro env t; simp [hx]
  have bz : Built .debug (zero : Expr F) := .num _ (.ofI64 0)
  have bx : Built .debug x := .var _
  have hv : PointAt env (zero : Expr F) 0 := ⟨⟨_, bz⟩, safe_ofNum _, h0 env⟩
  have hav : Avoids SmartNum.exactReal (AtPoint SmartNum.exactReal ⟨"x"⟩ (zero : Expr F)) x Real.pi :=
    ⟨env.set ⟨"x"⟩ 0, ⟨env, 0, h0 env, rfl⟩, 0, hset env 0, Real.pi_pos.ne⟩
  have hln : NoLn (zero : Expr F) := noLn_iff.2 (everywhere_ofNum.2 (by intro c h; expr_inj at h))
  have ex : Expandable env ⟨"x"⟩ zero 0 x :=
    ⟨⟨_, bx⟩, safeD_ofVar _, fun _ _ _ _ => hln, ⟨_, hset env 0⟩, powAll_ofVar _⟩
  have es : Expandable env ⟨"x"⟩ zero 0 x.sin :=
    ⟨⟨_, .sin _ bx⟩, safeD_sin.2 ⟨hav, safeD_ofVar _⟩, fun _ _ _ _ => hln, ⟨_, denote_sin.2 ⟨0, hset env 0, rfl⟩⟩,
      powAll_sin.2 (powAll_ofVar _)⟩
  have ec : Expandable env ⟨"x"⟩ zero 0 x.cos :=
    ⟨⟨_, .cos _ bx⟩, safeD_cos.2 ⟨hav, safeD_ofVar _⟩, fun _ _ _ _ => hln, ⟨_, denote_cos.2 ⟨0, hset env 0, rfl⟩⟩,
      powAll_cos.2 (powAll_ofVar _)⟩
  have fnx : fn SmartNum.exactReal env ⟨"x"⟩ x = fun t => t := by funext t; rw [fn, hset]; rfl
  have fns : fn SmartNum.exactReal env ⟨"x"⟩ x.sin = Real.sin := by
    funext t; rw [fn, denote_sin.2 ⟨t, hset env t, rfl⟩]; rfl
  have fnc : fn SmartNum.exactReal env ⟨"x"⟩ x.cos = Real.cos := by
    funext t; rw [fn, denote_cos.2 ⟨t, hset env t, rfl⟩]; rfl
  have sx : Searchable .debug env ⟨"x"⟩ zero 0 x := .var _
  have ss : Searchable .debug env ⟨"x"⟩ zero 0 x.sin :=
    { built := .sin _ (.var _)
      defined := .of_forall fun t => ⟨_, denote_sin.2 ⟨t, hset env t, rfl⟩⟩
      pow := .of_forall fun t => powAll_sin.2 (powAll_ofVar _)
      safe := safeD_sin.2 ⟨hav, safeD_ofVar _⟩
      ln := noLnIntoBase_iff.2 (powAll_sin.2 (powAll_ofVar _))
      trig := trigFine_iff.2 (trigAll_sin.2 ⟨⟨powAll_ofVar _, 0, hset env 0, by simp⟩, trigAll_ofVar _⟩) }
  have sc : Searchable .debug env ⟨"x"⟩ zero 0 x.cos :=
    { built := .cos _ (.var _)
      defined := .of_forall fun t => ⟨_, denote_cos.2 ⟨t, hset env t, rfl⟩⟩
      pow := .of_forall fun t => powAll_cos.2 (powAll_ofVar _)
      safe := safeD_cos.2 ⟨hav, safeD_ofVar _⟩
      ln := noLnIntoBase_iff.2 (powAll_cos.2 (powAll_ofVar _))
      trig := trigFine_iff.2 (trigAll_cos.2 ⟨⟨powAll_ofVar _, 0, hset env 0, by simp⟩, trigAll_ofVar _⟩) }
  have hne : ∀ᶠ t in 𝓝[≠] (0 : ℝ), fn SmartNum.exactReal env ⟨"x"⟩ x t ≠ 0 := by
    rw [fn_var]; exact self_mem_nhdsWithin
  have tp : Tree (zero : Expr F) := bz.tree
  have tx : Tree x := .var _
  have t1 : Tree (one : Expr F) := .num _ trivial
  have ts : Tree x.sin := .sin _ tx
  have lx : LimitIs .strict x ⟨"x"⟩ zero 1 .infinitesimal := ⟨1, by krfl⟩
  have l1 : LimitIs .strict (one : Expr F) ⟨"x"⟩ zero 1 (.normal one) := ⟨1, by krfl⟩
  have ls : LimitIs .strict x.sin ⟨"x"⟩ zero 1 .infinitesimal := ⟨1, by krfl⟩
  have lq : LimitIs .strict (x.sin.div x) ⟨"x"⟩ zero 1 (.normal one) := ⟨3, by krfl⟩
  have lc : LimitIs .strict x.cos ⟨"x"⟩ zero 1 (.normal one) := ⟨1, by krfl⟩
  have n1 := not_standsFor_one (F := F) env
  have f1 : SearchFine .strict ⟨"x"⟩ zero 1 (fun c => StandsFor env c 0) (one : Expr F) := .ofNum _
  have fx : SearchFine .strict ⟨"x"⟩ zero 1 (fun c => StandsFor env c 0) x := .ofVar _
  have fq : SearchFine .strict ⟨"x"⟩ zero 1 (fun c => StandsFor env c 0) (x.sin.div x) := by
    refine .div' (.sin _) fx (divFine_of tp ts tx ls lx (by rintro - c ⟨⟩) (by rintro - c ⟨⟩)) ?_
    intro a b l1' r1' _ _ _ hl hr
    have hl' : x.sin.derivative .strict ⟨"x"⟩ = .ok x.cos := by krfl
    have hr' : x.derivative .strict ⟨"x"⟩ = .ok one := by krfl
    rw [hl'] at hl; cases hl
    rw [hr'] at hr; cases hr
    refine .div' (.cos _) f1 (divFine_of tp (.cos _ tx) t1 lc l1 ?_ (by rintro ⟨⟩)) ?_
    · rintro - c ⟨⟩ -; exact n1
    · intro a b _ _ ha hb hab
      obtain rfl := lc.unique tp (.cos _ tx) ha
      obtain rfl := l1.unique tp t1 hb
      cases hab
  have u1 := es.expandsTo (n := 3) hv (by krfl)
  have u2 := ex.expandsTo (n := 3) hv (by krfl)
  have u3 := ec.expandsTo (n := 3) hv (by krfl)
  refine ⟨_, _, _, hv, es, ex, ec, u1, u2, u3, ?_, ?_, ?_, ?_, ?_, lq, lc, ss.div sx hne, sc, fq, .cos _⟩
  · rw [fns, taylorC_zero, Real.sin_zero]
  · rw [fns, taylorC]; simp [iteratedDeriv_one]
  · rw [fnx, taylorC_zero]
  · rw [fnx, taylorC]; simp [iteratedDeriv_one]
  · rw [fnc, taylorC_zero, Real.cos_zero]

end SymRust
