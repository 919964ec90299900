import Verif.Proofs.Uncancelled
import Verif.Props.EveryBuild
import Verif.Props.LimitFull
/-! # C96: quotients of polynomials with any signs, as long as no terms cancel, at 0 -/

namespace SymRust
variable {F : Type} [FloatOps F]
open Expr Filter Topology
variable {σ : Signs}

/-- C96: the terms are what they are meant to be: when the values of the variables other than `x` have the signs `σ`, the value of
the expression at x = t is a polynomial in t; its coefficient of t^d has the sign of the terms with x^d, and is 0 if there
are none. -/
theorem C96_terms (m : Mode) (σ : Signs) (e : Expr F) (x : Variable) (i : ℕ) (he : Built m e) (h : Uncancelled σ x i e) (env : Env)
    (hp : ∀ v, v ≠ x → SignType.sign (env v) = σ.sign v) :
    ∃ p : Polynomial ℝ, (∀ t, denote SmartNum.exactReal (env.set x t) e = some (p.eval t)) ∧
      (∀ s d, HasTerm σ x s d e → SignType.sign (p.coeff d) = s) ∧ ∀ d, (∀ s, ¬ HasTerm σ x s d e) → p.coeff d = 0 :=
  h.form.value (fun _ hn _ hq => exactReal_of_exact hq hn) he.valid h.cf hp

/-- C96: so the value is t^i times a continuous function with the sign of the lowest term at 0. -/
theorem C96_lowest_power (m : Mode) (σ : Signs) (e : Expr F) (x : Variable) (i : ℕ) (he : Built m e) (h : Uncancelled σ x i e) (env : Env)
    (hp : ∀ v, v ≠ x → SignType.sign (env v) = σ.sign v) :
    ∃ g : ℝ → ℝ, Continuous g ∧ (∀ s, HasTerm σ x s i e → SignType.sign (g 0) = s) ∧ g 0 ≠ 0 ∧
      ∀ t, denote SmartNum.exactReal (env.set x t) e = some (t ^ i * g t) :=
  h.value (fun _ hn _ hq => exactReal_of_exact hq hn) he.valid hp

omit [FloatOps F] in
theorem PosPoly.terms {x : Variable} {i : ℕ} {e : Expr F} (h : PosPoly x i e) :
    PolyForm e ∧ (∀ s d, HasTerm .positive x s d e → s = 1 ∧ i ≤ d) ∧ HasTerm .positive x 1 i e := by
  induction h with
  | num n q h1 h2 =>
    have ht := terms_num (σ := .positive) (x := x) h1 h2.ne'
    rw [sign_pos h2] at ht
    refine ⟨.num n q h1 h2.ne', fun s d hs => ⟨?_, Nat.zero_le _⟩, ?_⟩
    · have : (s, d) ∈ SymRust.terms .positive x (ofNum n) := hs
      rw [ht] at this; cases this; rfl
    · have : (1, 0) ∈ SymRust.terms .positive x (ofNum n) := by rw [ht]; rfl
      exact this
  | self =>
    refine ⟨.var _, fun s d hs => ?_, .self⟩
    have : (s, d) ∈ SymRust.terms .positive x (ofVar x) := hs
    rw [terms_self] at this; cases this; exact ⟨rfl, le_rfl⟩
  | other v hv =>
    refine ⟨.var _, fun s d hs => ⟨?_, Nat.zero_le _⟩, .other v hv⟩
    have : (s, d) ∈ SymRust.terms .positive x (ofVar v) := hs
    rw [terms_other hv] at this; cases this; rfl
  | @add i j a b _ _ h1 h2 =>
    refine ⟨.add h1.1 h2.1, fun s d hs => ?_, ?_⟩
    · have : (s, d) ∈ SymRust.terms .positive x (a.add b) := hs
      rw [terms_add] at this
      rcases this with h | h
      · exact ⟨(h1.2.1 s d h).1, (Nat.min_le_left ..).trans (h1.2.1 s d h).2⟩
      · exact ⟨(h2.2.1 s d h).1, (Nat.min_le_right ..).trans (h2.2.1 s d h).2⟩
    · rcases le_total i j with h | h
      · rw [min_eq_left h]; exact .left h1.2.2
      · rw [min_eq_right h]; exact .right h2.2.2
  | @mul i j a b _ _ h1 h2 =>
    refine ⟨.mul h1.1 h2.1, fun s d hs => ?_, .mul h1.2.2 h2.2.2⟩
    have : (s, d) ∈ SymRust.terms .positive x (a.mul b) := hs
    rw [terms_mul] at this
    obtain ⟨s', t, i', j', g1, g2, g3⟩ := this
    cases g3
    have k1 := h1.2.1 _ _ g1
    have k2 := h2.2.1 _ _ g2
    exact ⟨by rw [show s' = 1 from k1.1, show t = 1 from k2.1]; rfl, by omega⟩

omit [FloatOps F] in
/-- C96: the polynomials of C70, with positive numbers only, are among them. -/
theorem C96_covers_C70 (x : Variable) (i : ℕ) (e : Expr F) (h : PosPoly x i e) : Uncancelled .positive x i e := by
  obtain ⟨h1, h2, h3⟩ := h.terms
  exact ⟨h1, fun s t d a b => by rw [(h2 s d a).1, (h2 t d b).1], ⟨1, h3⟩, fun s d a => (h2 s d a).2⟩

omit [FloatOps F] in
theorem PolyForm.ringForm {e : Expr F} (h : PolyForm e) : RingForm e := by
  induction h with
  | num n => exact .num n
  | var v => exact .var v
  | add _ _ i j => exact .add i j
  | mul _ _ i j => exact .mul i j

theorem Const.nonzero {x : Variable} {s : SignType} {e : Expr F} (he : WF SmartNum.Valid e) (h : Const σ x s e) {env : Env}
    (hp : ∀ v, v ≠ x → SignType.sign (env v) = σ.sign v) : ∃ v, v ≠ 0 ∧ denote SmartNum.exactReal env e = some v := by
  obtain ⟨p, h1, h2, h3⟩ := h.1.value (ν := SmartNum.exactReal) (fun _ hn _ hq => exactReal_of_exact hq hn) he
    (by rw [h.2]; exact cf_single s) hp
  have hs : HasTerm σ x s 0 e := by
    have : (s, 0) ∈ SymRust.terms σ x e := by rw [h.2]; rfl
    exact this
  have hc : p = Polynomial.C (p.coeff 0) := by
    ext d
    rcases Nat.eq_zero_or_pos d with rfl | hd
    · rw [Polynomial.coeff_C_zero]
    · rw [Polynomial.coeff_C_of_ne_zero hd.ne', h3 d]
      intro t ht
      rw [h.2] at ht
      cases ht
      exact absurd hd (lt_irrefl _)
  refine ⟨p.coeff 0, by rw [← sign_ne_zero, h2 s 0 hs]; exact hs.sign_ne, ?_⟩
  have := h1 (env x)
  rw [hc, Polynomial.eval_C, show env.set x (env x) = env by funext v; by_cases hv : v = x <;> simp [Env.set, hv]] at this
  exact this

theorem uncancelled_quotient_value {x : Variable} {s t : SignType} {c d q : Expr F} (vc : WF SmartNum.Valid c)
    (vd : WF SmartNum.Valid d) (pc : Const σ x s c) (pd : Const σ x t d) (h : Agg .strict (c.div d) q) {env : Env}
    (hp : ∀ v, v ≠ x → SignType.sign (env v) = σ.sign v) : ∃ v, denote SmartNum.exactReal env q = some v := by
  have wf : ∀ {a a' : Expr F}, WF SmartNum.Valid a → Agg .strict a a' → WF SmartNum.Valid a' :=
    fun v h => h.wf (numClosed_valid _) v
  have vq := wf (.div _ _ vc vd) h
  generalize he : c.div d = s at h
  cases h with
  | @div_num a b u v w h1 h2 h3 =>
    expr_inj at he; obtain ⟨rfl, rfl⟩ := he
    obtain ⟨p, hu, -⟩ := polyForm_num (pc.agg vc h1).1
    obtain ⟨r, hv, pr⟩ := polyForm_num (pd.agg vd h2).1
    have := SmartNum.div_exact (m := .strict) (by simp) (WF.num_iff.1 (wf vc h1)) (WF.num_iff.1 (wf vd h2)) hu hv pr h3
    exact ⟨_, by rw [denote_ofNum, exactReal_of_exact this (WF.num_iff.1 vq)]⟩
  | div_zero_l h1 h2 h3 =>
    expr_inj at he; obtain ⟨rfl, rfl⟩ := he
    have := (pc.agg vc h1).1.not_zero (wf vc h1)
    rw [isZero_ofNum, h3] at this; cases this
  | div h1 h2 =>
    expr_inj at he; obtain ⟨rfl, rfl⟩ := he
    obtain ⟨u, pu, hu⟩ := (pc.agg vc h1).nonzero (wf vc h1) hp
    obtain ⟨v, pv, hv⟩ := (pd.agg vd h2).nonzero (wf vd h2) hp
    exact ⟨u / v, denote_div.2 ⟨u, v, hu, hv, pv, rfl⟩⟩
  | _ => expr_inj at he

theorem uncancelled_answer {m m' : Mode} {f g pt : Expr F} {x : Variable} {k : UInt64} {i j : ℕ} (hf : Built m f) (hg : Built m g)
    (hpt : Built m' pt) (hz : pt.isZero = true) (pf : Uncancelled σ x i f) (pg : Uncancelled σ x j g) :
    LimitPanics .strict (f.div g) x pt k ∨
    (k.toNat < min i j ∧ LimitErr .strict (f.div g) x pt k) ∨
    (min i j ≤ k.toNat ∧ ((j < i ∧ LimitIs .strict (f.div g) x pt k .infinitesimal) ∨
      (i < j ∧ LimitIs .strict (f.div g) x pt k .infinity) ∨
      (i = j ∧ ∃ c, LimitIs .strict (f.div g) x pt k (.normal c) ∧
        ∀ env : Env, (∀ v, v ≠ x → SignType.sign (env v) = σ.sign v) → ∃ v, denote SmartNum.exactReal env c = some v))) := by
  obtain ⟨n, hn⟩ : End.Ends .strict x pt k (f.div g) := End.ends hpt.tree (.div _ _ hf.valid hg.valid)
  cases n with
  | zero => exact absurd rfl hn
  | succ n =>
    rw [limit_div] at hn
    have hl := limit_div .strict x pt k n f g
    rcases pf.divLoop (k := k) hz n (k.toNat + 1) hf.valid hg.valid pg with h | h | ⟨h1, h⟩ | ⟨h1, h⟩
    · rw [h] at hn; exact absurd rfl hn
    · exact .inl ⟨n + 1, by rw [hl, h]; rfl⟩
    · exact .inr (.inl ⟨by omega, n + 1, by rw [hl, h]; rfl⟩)
    · rcases h with ⟨h2, h⟩ | ⟨h2, h⟩ | ⟨h2, c, d, s, t, h, vc, vd, pc, pd⟩
      · exact .inr (.inr ⟨by omega, .inl ⟨h2, n + 1, by rw [hl, h]; rfl⟩⟩)
      · exact .inr (.inr ⟨by omega, .inr (.inl ⟨h2, n + 1, by rw [hl, h]; rfl⟩)⟩)
      · cases ha : (c.div d).numAggregate .strict with
        | panic => exact .inl ⟨n + 1, by rw [hl, h]; simp [finish, ha]⟩
        | ok q => exact .inr (.inr ⟨by omega, .inr (.inr ⟨h2, q, ⟨n + 1, by rw [hl, h]; simp [finish, ha]⟩, fun env hp =>
          uncancelled_quotient_value vc vd pc pd (agg_of_numAggregate (.div _ _ vc.tree vd.tree) ha) hp⟩)⟩)

/-- C96: let `f` and `g` be polynomials without cancellation, with lowest powers `i` and `j` of `x`.  As x tends to 0, a
run of the limit of f/g in which no integer overflows answers, if order_try is at least min i j: Infinitesimal if i > j,
Infinity if i < j, Normal if i = j; and if order_try is smaller: Err. -/
theorem C96_answer (m m' : Mode) (σ : Signs) (f g pt : Expr F) (x : Variable) (k : UInt64) (i j : ℕ) (hf : Built m f) (hg : Built m g)
    (hpt : Built m' pt) (hz : pt.isZero = true) (pf : Uncancelled σ x i f) (pg : Uncancelled σ x j g) :
    LimitPanics .strict (f.div g) x pt k ∨
    (k.toNat < min i j ∧ LimitErr .strict (f.div g) x pt k) ∨
    (min i j ≤ k.toNat ∧ ((j < i ∧ LimitIs .strict (f.div g) x pt k .infinitesimal) ∨
      (i < j ∧ LimitIs .strict (f.div g) x pt k .infinity) ∨
      (i = j ∧ ∃ c, LimitIs .strict (f.div g) x pt k (.normal c)))) := by
  rcases uncancelled_answer (k := k) hf hg hpt hz pf pg with h | h | ⟨h, h' | h' | ⟨h1, c, h2, -⟩⟩
  · exact .inl h
  · exact .inr (.inl h)
  · exact .inr (.inr ⟨h, .inl h'⟩)
  · exact .inr (.inr ⟨h, .inr (.inl h')⟩)
  · exact .inr (.inr ⟨h, .inr (.inr ⟨h1, c, h2⟩)⟩)

/-- C96: in every build: if the schoolbook fractions met when the point is put into the derivatives of order 0, …, min i j
stay below 2^63, nothing else can happen. -/
theorem C96_every_build (m m' : Mode) (σ : Signs) (f g pt : Expr F) (x : Variable) (k : UInt64) (i j : ℕ) (hf : Built m f) (hg : Built m g)
    (hpt : Built m' pt) (hz : pt.isZero = true) (pf : Uncancelled σ x i f) (pg : Uncancelled σ x j g)
    (hs : ∀ n ≤ min i j, StepSmall f g pt x n) :
    (k.toNat < min i j → ∀ b, LimitErr b (f.div g) x pt k) ∧
    (min i j ≤ k.toNat → (j < i → ∀ b, LimitIs b (f.div g) x pt k .infinitesimal) ∧
      (i < j → ∀ b, LimitIs b (f.div g) x pt k .infinity) ∧
      (i = j → ∃ c, ∀ b, LimitIs b (f.div g) x pt k (.normal c))) := by
  have te : Tree (f.div g) := .div _ _ hf.tree hg.tree
  have hq : ∀ n d, n ≤ min i j → nthDerivative .strict f x n = .ok d ∨ nthDerivative .strict g x n = .ok d → QuotientFree d := by
    intro n d hn h
    rcases h with h | h
    · exact (pf.nth hf.valid (by omega) h).2.form.ringForm.quotientFree
    · exact (pg.nth hg.valid (by omega) h).2.form.ringForm.quotientFree
  constructor
  · intro hk
    have np : ¬ LimitPanics .strict (f.div g) x pt k := divLimit_small hpt.valid hf.valid hg.valid
      (fun n d hn => hq n d (by omega)) (fun n hn => hs n (by omega)) (.inl (hs _ (by omega)))
    rcases C96_answer m m' σ f g pt x k i j hf hg hpt hz pf pg with h | ⟨-, h⟩ | ⟨h, -⟩
    · exact (np h).elim
    · exact limitErr_all te hpt.tree h
    · omega
  · intro hk
    obtain ⟨k', hk'⟩ : ∃ k' : UInt64, k'.toNat = min i j :=
      ⟨UInt64.ofNat (min i j), UInt64.toNat_ofNat_of_lt' (lt_of_le_of_lt hk k.toNat_lt)⟩
    have np : ¬ LimitPanics .strict (f.div g) x pt k' := by
      refine divLimit_small hpt.valid hf.valid hg.valid
        (fun n d hn => hq n d (by omega)) (fun n hn => hs n (by omega)) (.inr ?_)
      intro n l r a b hl hr ha hb
      rw [hk'] at hl hr
      obtain ⟨vl, pl⟩ := pf.nth hf.valid (by omega) hl
      obtain ⟨vr, pr⟩ := pg.nth hg.valid (by omega) hr
      rcases pl.limit (k := k') vl hz n with h | h | ⟨hi, h⟩ | ⟨hi, c, s, h, vc, pc⟩ <;> rw [ha] at h <;> try cases h
      all_goals
        rcases pr.limit (k := k') vr hz n with h | h | ⟨hj, h⟩ | ⟨hj, d, t, h, vd, pd⟩ <;> rw [hb] at h <;> try cases h
      · omega
      · simp [LimitExpression.div, pd.1.not_zero vd]
      · simp [LimitExpression.div, pc.1.not_zero vc]
      · simp [LimitExpression.div]
    have up : ∀ {z}, LimitIs .strict (f.div g) x pt k' z → ∀ b, LimitIs b (f.div g) x pt k z := fun h b =>
      limitIs_order te hpt.tree (limitIs_all te hpt.tree h b) (by omega)
    rcases C96_answer m m' σ f g pt x k' i j hf hg hpt hz pf pg with h | ⟨h, -⟩ | ⟨-, h⟩
    · exact (np h).elim
    · omega
    · rcases h with ⟨hc, h⟩ | ⟨hc, h⟩ | ⟨hc, c, h⟩
      · exact ⟨fun _ => up h, fun _ => by omega, fun _ => by omega⟩
      · exact ⟨fun _ => by omega, fun _ => up h, fun _ => by omega⟩
      · exact ⟨fun _ => by omega, fun _ => by omega, fun _ => ⟨c, up h⟩⟩

/-- C96: and the answers are true, for all values of the other variables with the signs `σ`: Infinitesimal means that the quotient
tends to 0, Infinity that its absolute value tends to infinity, and Normal(c) that it tends to the value of `c`. -/
theorem C96_true (m m' : Mode) (σ : Signs) (f g pt : Expr F) (x : Variable) (k : UInt64) (i j : ℕ) (hf : Built m f) (hg : Built m g)
    (hpt : Built m' pt) (hz : pt.isZero = true) (pf : Uncancelled σ x i f) (pg : Uncancelled σ x j g) (z : LimitExpression F)
    (h : LimitIs .strict (f.div g) x pt k z) (env : Env) (hp : ∀ v, v ≠ x → SignType.sign (env v) = σ.sign v) :
    z.Describes SmartNum.exactReal env (𝓝[≠] 0) (fn SmartNum.exactReal env x (f.div g)) := by
  obtain ⟨u, cu, -, pu, hu⟩ := pf.value (ν := SmartNum.exactReal) (fun _ hn _ hq => exactReal_of_exact hq hn) hf.valid hp
  obtain ⟨w, cw, -, pw, hw⟩ := pg.value (ν := SmartNum.exactReal) (fun _ hn _ hq => exactReal_of_exact hq hn) hg.valid hp
  have fu : ∀ t, fn SmartNum.exactReal env x f t = t ^ i * u t := fun t => by rw [fn, hu]; rfl
  have gw : ∀ t, fn SmartNum.exactReal env x g t = t ^ j * w t := fun t => by rw [fn, hw]; rfl
  have w0 : ∀ᶠ t in 𝓝[≠] (0 : ℝ), w t ≠ 0 :=
    ((cw.tendsto 0).eventually (isOpen_ne.mem_nhds pw)).filter_mono nhdsWithin_le_nhds
  have hfg : ∀ᶠ t in 𝓝[≠] (0 : ℝ), fn SmartNum.exactReal env x (f.div g) t =
      fn SmartNum.exactReal env x f t / fn SmartNum.exactReal env x g t := by
    filter_upwards [w0, self_mem_nhdsWithin] with t ht h0
    have : t ^ j * w t ≠ 0 := mul_ne_zero (pow_ne_zero _ h0) ht
    rw [fu, gw, fn, denote_div.2 ⟨_, _, hu t, hw t, this, rfl⟩]; rfl
  have huw : Tendsto (fun t => u t / w t) (𝓝[≠] 0) (𝓝 (u 0 / w 0)) :=
    ((cu.tendsto 0).div (cw.tendsto 0) pw).mono_left nhdsWithin_le_nhds
  have tp : Tree pt := hpt.tree
  have te : Tree (f.div g) := .div _ _ hf.tree hg.tree
  have tpow : ∀ {q : ℕ}, 0 < q → Tendsto (fun t : ℝ => t ^ q) (𝓝[≠] 0) (𝓝 0) := by
    intro q hq
    have := ((continuous_pow q (M := ℝ)).tendsto 0).mono_left (nhdsWithin_le_nhds (s := {0}ᶜ))
    rwa [zero_pow hq.ne'] at this
  have uni : ∀ {o}, o ≠ .fuel → (∃ n, Expr.limit .strict x pt k n (f.div g) = o) → o = .ok z := by
    rintro o ho ⟨n, hn⟩
    obtain ⟨n', hn'⟩ := h
    rw [← hn, ← hn']
    exact limit_outcome_unique tp te (by rw [hn]; exact ho) (by rw [hn']; simp)
  rcases uncancelled_answer (k := k) hf hg hpt hz pf pg with hP | ⟨-, hE⟩ | ⟨-, ⟨hij, hI⟩ | ⟨hij, hI⟩ | ⟨hij, c, hI, hv⟩⟩
  · cases uni (by simp) hP
  · cases uni (by simp) hE
  · cases uni (by simp) hI
    have h1 := (tpow (q := i - j) (by omega)).mul huw
    rw [zero_mul] at h1
    refine h1.congr' ?_
    filter_upwards [hfg, w0, self_mem_nhdsWithin] with t ht h2 h0
    have h0 : t ≠ 0 := h0
    rw [ht, fu, gw, show i = (i - j) + j by omega, pow_add, show i - j + j - j = i - j by omega]
    field_simp
  · cases uni (by simp) hI
    have h1 : Tendsto (fun t : ℝ => |t ^ (j - i)|) (𝓝[≠] 0) (𝓝[>] 0) := by
      refine tendsto_nhdsWithin_iff.2 ⟨by simpa using (tpow (q := j - i) (by omega)).abs, ?_⟩
      filter_upwards [self_mem_nhdsWithin] with t ht
      exact abs_pos.2 (pow_ne_zero _ ht)
    have h2 := (tendsto_inv_nhdsGT_zero.comp h1).atTop_mul_pos (abs_pos.2 (div_ne_zero pu pw)) huw.abs
    refine h2.congr' ?_
    filter_upwards [hfg, w0, self_mem_nhdsWithin] with t ht h2 h0
    have h0 : t ≠ 0 := h0
    simp only [Function.comp_apply]
    rw [ht, fu, gw, ← abs_inv, ← abs_mul]
    congr 1
    obtain ⟨d, rfl⟩ : ∃ d, j = i + d := ⟨j - i, by omega⟩
    rw [Nat.add_sub_cancel_left, pow_add]
    field_simp
  · cases uni (by simp) hI
    subst hij
    obtain ⟨v, hv⟩ := hv env hp
    refine ⟨v, hv, ?_⟩
    obtain ⟨n0, hn0, hz0⟩ := isZero_num tp hz
    subst hn0
    have hpt0 : ∀ env, denote SmartNum.exactReal env (ofNum n0) = some 0 := fun env => by
      rw [denote_ofNum, exactReal_of_exact ((WF.num_iff.1 hpt.valid).zero_iff.1 hz0) (WF.num_iff.1 hpt.valid)]; simp
    have quot : ∀ {e : Expr F} {i : ℕ}, Built m e → Uncancelled σ x i e → Quotable m env x (ofNum n0) 0 e := by
      intro e i he hp'
      obtain ⟨g, -, -, -, hg⟩ := hp'.value (ν := SmartNum.exactReal) (fun _ hn _ hq => exactReal_of_exact hq hn) he.valid hp
      have pA : ∀ {Q : Expr F → Expr F → Prop}, PowAll Q e := by
        intro Q
        clear he hg
        obtain ⟨hp', -, -, -⟩ := hp'
        induction hp' with
        | num => exact powAll_ofNum _
        | var => exact powAll_ofVar _
        | add _ _ i j => exact powAll_add.2 ⟨i, j⟩
        | mul _ _ i j => exact powAll_mul.2 ⟨i, j⟩
      have tA : ∀ {Q : Expr F → Prop}, TrigAll Q e := by
        intro Q
        clear he hg pA
        obtain ⟨hp', -, -, -⟩ := hp'
        induction hp' with
        | num => exact trigAll_ofNum _
        | var => exact trigAll_ofVar _
        | add _ _ i j => exact trigAll_add.2 ⟨i, j⟩
        | mul _ _ i j => exact trigAll_mul.2 ⟨i, j⟩
      have sA : ∀ {E : Set Env}, SafeD SmartNum.exactReal E e := by
        intro E
        clear he hg pA tA
        obtain ⟨hp', -, -, -⟩ := hp'
        induction hp' with
        | num => exact safeD_ofNum _
        | var => exact safeD_ofVar _
        | add _ _ i j => exact safeD_add.2 ⟨i, j⟩
        | mul _ _ i j => exact safeD_mul.2 ⟨i, j⟩
      exact ⟨he, ⟨_, hg 0⟩, sA, fun a b h => ((pA (Q := fun _ _ => False)) _ h a b rfl).elim, pA, fun _ a ha => by
        have := tA (Q := fun _ => False)
        rcases ha with ha | ha
        · exact (this _ ha a (.inl rfl)).elim
        · exact (this _ ha a (.inr rfl)).elim⟩
    have ql := quot hf pf
    have qr := quot hg pg
    obtain ⟨n, h⟩ := h
    obtain ⟨d, h1, h2, h3⟩ := limit_lift (.div _ _ hf.valid hg.valid) hpt.valid h
    obtain ⟨rl, fl⟩ := ql.lift hpt.valid
    obtain ⟨rr, fr⟩ := qr.lift hpt.valid
    obtain ⟨r, hm, ht⟩ := Uncancelled.quotient (l := f.lift) (r := g.lift) (z := d) (denote_lift hpt.valid.tree (hpt0 env))
      (wf_lift hpt.valid) ((safe_ofNum _ : Safe SmartNum.exactReal Set.univ (ofNum n0)).lift (E' := Set.univ) subset_rfl hpt.valid.tree)
      (by rw [isZero_lift hpt.valid]; exact hz0) hp rl rr (pf.lift hf.valid) (pg.lift hg.valid) h1
    rw [fl, fr] at ht
    have := tells_of_means hm ht
    rw [h2] at this
    obtain ⟨v', hs, ht'⟩ := this
    rw [hs.1 v hv]
    refine ht'.congr' ?_
    filter_upwards [hfg] with t ht
    rw [ht]

/-- C96: and if i = j, the value of the answer has the sign of the quotient of the lowest terms. -/
theorem C96_sign (m m' : Mode) (σ : Signs) (f g pt c : Expr F) (x : Variable) (k : UInt64) (i : ℕ) (hf : Built m f) (hg : Built m g)
    (hpt : Built m' pt) (hz : pt.isZero = true) (pf : Uncancelled σ x i f) (pg : Uncancelled σ x i g)
    (h : LimitIs .strict (f.div g) x pt k (.normal c)) (s t : SignType) (hs : HasTerm σ x s i f) (ht : HasTerm σ x t i g)
    (env : Env) (hp : ∀ v, v ≠ x → SignType.sign (env v) = σ.sign v) :
    ∃ v, denote SmartNum.exactReal env c = some v ∧ SignType.sign v = s * t := by
  obtain ⟨v, hv, hT⟩ := C96_true m m' σ f g pt x k i i hf hg hpt hz pf pg _ h env hp
  refine ⟨v, hv, ?_⟩
  obtain ⟨u, cu, su, pu, hu⟩ := C96_lowest_power m σ f x i hf pf env hp
  obtain ⟨w, cw, sw, pw, hw⟩ := C96_lowest_power m σ g x i hg pg env hp
  have w0 : ∀ᶠ t in 𝓝[≠] (0 : ℝ), w t ≠ 0 :=
    ((cw.tendsto 0).eventually (isOpen_ne.mem_nhds pw)).filter_mono nhdsWithin_le_nhds
  have huw : Tendsto (fun t => u t / w t) (𝓝[≠] 0) (𝓝 (u 0 / w 0)) :=
    ((cu.tendsto 0).div (cw.tendsto 0) pw).mono_left nhdsWithin_le_nhds
  have : Tendsto (fn SmartNum.exactReal env x (f.div g)) (𝓝[≠] 0) (𝓝 (u 0 / w 0)) := by
    refine huw.congr' ?_
    filter_upwards [w0, self_mem_nhdsWithin] with t ht h0
    have h0 : t ^ i ≠ 0 := pow_ne_zero _ h0
    rw [fn, denote_div.2 ⟨_, _, hu t, hw t, mul_ne_zero h0 ht, rfl⟩]
    exact (mul_div_mul_left _ _ h0).symm
  rw [tendsto_nhds_unique hT this, div_eq_mul_inv, sign_mul, su s hs, ← sw t ht]
  congr 1
  rcases lt_or_gt_of_ne pw with h | h
  · rw [sign_neg h, sign_neg (inv_lt_zero.2 h)]
  · rw [sign_pos h, sign_pos (inv_pos.2 h)]

/-- C96: without the condition on signs this fails: y + (-1)*y is a polynomial whose terms cancel, the lowest power is the
0-th, and (y + (-1)*y)/x at 0 is answered Infinity although it is constantly 0. -/
theorem C96_condition_needed (m : Mode) (σ : Signs) (k : UInt64) (env : Env) :
    let y : Expr F := newVariable "y"
    let f : Expr F := y.add ((ofI64 (-1)).mul y)
    PolyForm f ∧ (∃ s, HasTerm σ ⟨"x"⟩ s 0 f) ∧ ¬ Uncancelled σ ⟨"x"⟩ 0 f ∧
    LimitIs m (f.div (newVariable "x")) ⟨"x"⟩ zero k .infinity ∧
    Tendsto (fn SmartNum.exactReal env ⟨"x"⟩ (f.div (newVariable "x"))) (𝓝[≠] 0) (𝓝 0) := by
  intro y f
  have h1 : HasTerm (F := F) σ ⟨"x"⟩ (σ.sign ⟨"y"⟩) 0 y := .other ⟨"y"⟩ (by decide)
  have h2 : HasTerm (F := F) σ ⟨"x"⟩ (-1) 0 (ofI64 (-1)) := by
    have := HasTerm.num (F := F) (σ := σ) (x := ⟨"x"⟩) (SmartNum.ofI64 (-1)) (-1) (by rfl) (by norm_num)
    rwa [sign_neg (by norm_num : (-1 : ℚ) < 0)] at this
  have h3 := C51_div_condition_needed (F := F) m k env
  refine ⟨.add (.var _) (.mul (.num _ (-1) (by rfl) (by norm_num)) (.var _)), ⟨_, .left h1⟩, fun h => ?_, h3.1, h3.2⟩
  have h4 := h.signs _ _ 0 (.left h1) (.right (.mul h2 h1))
  have h5 := σ.ne ⟨"y"⟩
  revert h4 h5
  generalize σ.sign ⟨"y"⟩ = s
  revert s
  decide

/-- Non-vacuous: (-3)*x*x + y*x*x*x over x*(2*x): no terms cancel, the lowest powers are 2 and 2, with the signs - and +;
the answer with order_try 2 is Normal(-3/2) and Err with order_try 1; and x + (-1)*x*x over x*(2*x) is answered Infinity. -/
theorem C96_instance :
    let x : Expr F := newVariable "x"
    let y : Expr F := newVariable "y"
    let f := (((ofI64 (-3)).mul x).mul x).add (((y.mul x).mul x).mul x)
    let g := x.mul ((ofI64 2).mul x)
    let h := x.add (((ofI64 (-1)).mul x).mul x)
    Built .debug f ∧ Built .debug g ∧ Built .debug h ∧ Uncancelled .positive ⟨"x"⟩ 2 f ∧ Uncancelled .positive ⟨"x"⟩ 2 g ∧ Uncancelled .positive ⟨"x"⟩ 1 h ∧
    HasTerm .positive ⟨"x"⟩ (-1) 2 f ∧ HasTerm .positive ⟨"x"⟩ 1 2 g ∧
    (∃ n : SmartNum F, LimitIs .strict (f.div g) ⟨"x"⟩ zero 2 (.normal (ofNum n)) ∧ n.exact? = some (-3 / 2)) ∧
    LimitErr .strict (f.div g) ⟨"x"⟩ zero 1 ∧ LimitIs .strict (h.div g) ⟨"x"⟩ zero 2 .infinity := by
  intro x y f g h
  have bn : ∀ v, Built .debug (ofI64 v : Expr F) := fun v => .num _ (.ofI64 v)
  have bx : Built .debug x := .var _
  have fx : PolyForm x := .var _
  have num : ∀ {v : Int64} {q : ℚ}, (SmartNum.ofI64 v : SmartNum F).exact? = some q → q ≠ 0 →
      PolyForm (ofI64 v : Expr F) ∧ terms .positive ⟨"x"⟩ (ofI64 v : Expr F) = {(SignType.sign q, 0)} := fun h hq =>
    ⟨.num _ _ h hq, terms_num h hq⟩
  obtain ⟨f3, t3⟩ := num (v := -3) (q := -3) (by rfl) (by norm_num)
  obtain ⟨f2, t2⟩ := num (v := 2) (q := 2) (by rfl) (by norm_num)
  obtain ⟨f1, t1⟩ := num (v := -1) (q := -1) (by rfl) (by norm_num)
  rw [sign_neg (by norm_num)] at t3 t1
  rw [sign_pos (by norm_num)] at t2
  have tx : terms .positive ⟨"x"⟩ x = {(1, 1)} := terms_self
  have ty : terms .positive ⟨"x"⟩ y = {(1, 0)} := terms_other (by decide)
  have tf : terms .positive ⟨"x"⟩ f = {(-1, 2)} ∪ {(1, 3)} := by
    simp only [f, terms_add, terms_mul, t3, tx, ty, Pat.single_mul]; rfl
  have tg : terms .positive ⟨"x"⟩ g = {(1, 2)} := by
    simp only [g, terms_mul, t2, tx, Pat.single_mul]; rfl
  have th : terms .positive ⟨"x"⟩ h = {(1, 1)} ∪ {(-1, 2)} := by
    simp only [h, terms_add, terms_mul, t1, tx, Pat.single_mul]; rfl
  have mf : ∀ s d, HasTerm .positive ⟨"x"⟩ s d f ↔ (s = -1 ∧ d = 2) ∨ (s = 1 ∧ d = 3) := fun s d => by
    show (s, d) ∈ terms .positive _ _ ↔ _
    rw [tf]; simp; tauto
  have mg : ∀ s d, HasTerm .positive ⟨"x"⟩ s d g ↔ s = 1 ∧ d = 2 := fun s d => by
    show (s, d) ∈ terms .positive _ _ ↔ _
    rw [tg]; simp
  have mh : ∀ s d, HasTerm .positive ⟨"x"⟩ s d h ↔ (s = 1 ∧ d = 1) ∨ (s = -1 ∧ d = 2) := fun s d => by
    show (s, d) ∈ terms .positive _ _ ↔ _
    rw [th]; simp; tauto
  refine ⟨.add _ _ (.mul _ _ (.mul _ _ (bn _) bx) bx) (.mul _ _ (.mul _ _ (.mul _ _ (.var _) bx) bx) bx),
    .mul _ _ bx (.mul _ _ (bn 2) bx), .add _ _ bx (.mul _ _ (.mul _ _ (bn _) bx) bx),
    ⟨.add (.mul (.mul f3 fx) fx) (.mul (.mul (.mul (.var _) fx) fx) fx), fun s t d h1 h2 => ?_, ⟨-1, (mf _ _).2 (by simp)⟩,
      fun s d h1 => ?_⟩,
    ⟨.mul fx (.mul f2 fx), fun s t d h1 h2 => ?_, ⟨1, (mg _ _).2 (by simp)⟩, fun s d h1 => ?_⟩,
    ⟨.add fx (.mul (.mul f1 fx) fx), fun s t d h1 h2 => ?_, ⟨1, (mh _ _).2 (by simp)⟩, fun s d h1 => ?_⟩,
    (mf _ _).2 (by simp), (mg _ _).2 (by simp),
    ⟨⟨.rational ⟨-1, 3, 2⟩, .nothing⟩, ⟨20, by krfl⟩, ?_⟩, ⟨20, by krfl⟩, ⟨20, by krfl⟩⟩
  · rcases (mf _ _).1 h1 with ⟨rfl, rfl⟩ | ⟨rfl, rfl⟩ <;> rcases (mf _ _).1 h2 with ⟨rfl, h⟩ | ⟨rfl, h⟩ <;> first | rfl | cases h
  · rcases (mf _ _).1 h1 with ⟨rfl, rfl⟩ | ⟨rfl, rfl⟩ <;> omega
  · rw [((mg _ _).1 h1).1, ((mg _ _).1 h2).1]
  · exact ((mg _ _).1 h1).2.ge
  · rcases (mh _ _).1 h1 with ⟨rfl, rfl⟩ | ⟨rfl, rfl⟩ <;> rcases (mh _ _).1 h2 with ⟨rfl, h⟩ | ⟨rfl, h⟩ <;> first | rfl | cases h
  · rcases (mh _ _).1 h1 with ⟨rfl, rfl⟩ | ⟨rfl, rfl⟩ <;> omega
  · simp [SmartNum.exact?, SmartNumVal.exact?, RationalNum.value]

/-- Non-vacuous, with a negative variable: in y + (-1)*z nothing cancels when y is positive and z negative, and
(y + (-1)*z)/x at 0 is answered Infinity; when both are positive there is cancellation. -/
theorem C96_instance_signs :
    let x : Expr F := newVariable "x"
    let f := (newVariable "y").add ((ofI64 (-1)).mul (newVariable "z"))
    let σ : Signs := ⟨fun v => if v = ⟨"z"⟩ then -1 else 1, fun v => by split <;> decide⟩
    Built .debug f ∧ Uncancelled σ ⟨"x"⟩ 0 f ∧ ¬ Uncancelled .positive ⟨"x"⟩ 0 f ∧ Uncancelled σ ⟨"x"⟩ 1 x ∧
    LimitIs .strict (f.div x) ⟨"x"⟩ zero 2 .infinity := by
  intro x f σ
  have f1 : PolyForm (ofI64 (-1) : Expr F) := .num _ (-1) (by rfl) (by norm_num)
  have tm : ∀ ρ : Signs, terms ρ ⟨"x"⟩ f = {(ρ.sign ⟨"y"⟩, 0)} ∪ {(-1 * ρ.sign ⟨"z"⟩, 0)} := fun ρ => by
    have t1 : terms ρ ⟨"x"⟩ (ofI64 (-1) : Expr F) = {(-1, 0)} := by
      have := terms_num (σ := ρ) (x := ⟨"x"⟩) (n := (SmartNum.ofI64 (-1) : SmartNum F)) (q := -1) (by rfl) (by norm_num)
      rwa [sign_neg (by norm_num : (-1 : ℚ) < 0)] at this
    have ty : terms ρ ⟨"x"⟩ (newVariable "y" : Expr F) = {(ρ.sign ⟨"y"⟩, 0)} := terms_other (by decide)
    have tz : terms ρ ⟨"x"⟩ (newVariable "z" : Expr F) = {(ρ.sign ⟨"z"⟩, 0)} := terms_other (by decide)
    simp only [f, terms_add, terms_mul, t1, ty, tz, Pat.single_mul]
  have mf : ∀ (ρ : Signs) s d, HasTerm ρ ⟨"x"⟩ s d f ↔ (s = ρ.sign ⟨"y"⟩ ∨ s = -1 * ρ.sign ⟨"z"⟩) ∧ d = 0 := fun ρ s d => by
    show (s, d) ∈ terms _ _ _ ↔ _
    rw [tm]; simp; tauto
  have one_term : ∀ {s d}, HasTerm σ ⟨"x"⟩ s d x → s = 1 ∧ d = 1 := fun {s d} h => by
    have h : (s, d) ∈ terms σ ⟨"x"⟩ x := h
    rw [show terms σ ⟨"x"⟩ x = {(1, 1)} from terms_self] at h
    simpa using h
  have sy : σ.sign ⟨"y"⟩ = 1 := by
    show (if (⟨"y"⟩ : Variable) = ⟨"z"⟩ then (-1 : SignType) else 1) = 1
    decide
  have sz : σ.sign ⟨"z"⟩ = -1 := by
    show (if (⟨"z"⟩ : Variable) = ⟨"z"⟩ then (-1 : SignType) else 1) = -1
    decide
  refine ⟨.add _ _ (.var _) (.mul _ _ (.num _ (.ofI64 _)) (.var _)),
    ⟨.add (.var _) (.mul f1 (.var _)), fun s t d h1 h2 => ?_, ⟨_, (mf σ _ _).2 ⟨.inl rfl, rfl⟩⟩, fun _ _ _ => Nat.zero_le _⟩,
    fun h => ?_, ⟨.var _, fun s t d h1 h2 => by rw [(one_term h1).1, (one_term h2).1], ⟨1, .self⟩, fun s d h => (one_term h).2.ge⟩, ⟨20, by krfl⟩⟩
  · have e1 := ((mf σ _ _).1 h1).1
    have e2 := ((mf σ _ _).1 h2).1
    rw [sy, sz] at e1 e2
    clear h1 h2
    revert e1 e2
    revert s t
    decide
  · have := h.signs _ _ 0 ((mf .positive 1 0).2 ⟨.inl rfl, rfl⟩) ((mf .positive (-1) 0).2 ⟨.inr rfl, rfl⟩)
    exact absurd this (by decide)

end SymRust
