import Verif.Proofs.PosPoly
import Verif.Props.LimitForm
import Verif.Props.LimitTerm
/-! # C70: quotients of polynomials with positive coefficients at 0 -/

namespace SymRust
variable {F : Type} [FloatOps F]
open Expr Filter Topology

omit [FloatOps F] in
theorem isZero_num {e : Expr F} (h : Tree e) (hz : e.isZero = true) : ∃ n : SmartNum F, e = ofNum n ∧ n.isZero = true := by
  cases h with
  | num n _ => exact ⟨n, rfl, hz⟩
  | _ => cases hz

/-- C70: the index of `PosPoly` is what it is meant to be: when the variables other than `x` have positive values, the
value of the expression at x = t is t^i times a continuous function of t that is positive at 0. -/
theorem C70_lowest_power (m : Mode) (e : Expr F) (x : Variable) (i : ℕ) (he : Built m e) (h : PosPoly x i e) (env : Env)
    (hp : ∀ v, 0 < env v) :
    ∃ g : ℝ → ℝ, Continuous g ∧ 0 < g 0 ∧ ∀ t, denote SmartNum.exactReal (env.set x t) e = some (t ^ i * g t) :=
  h.value (fun _ hn _ hq => exactReal_of_exact hq hn) he.valid hp

theorem PosPoly.positive {x : Variable} {i : ℕ} {e : Expr F} (he : WF SmartNum.Valid e) (h : PosPoly x i e) {env : Env}
    (hp : ∀ v, 0 < env v) : ∃ v, 0 < v ∧ denote SmartNum.exactReal env e = some v := by
  induction h with
  | num n q h1 h2 => exact ⟨q, by exact_mod_cast h2, by rw [denote_ofNum, exactReal_of_exact h1 (WF.num_iff.1 he)]⟩
  | self => exact ⟨_, hp x, denote_ofVar ..⟩
  | other v => exact ⟨_, hp v, denote_ofVar ..⟩
  | add _ _ i j =>
    have hw := WF.add_iff.1 he
    obtain ⟨u, pu, hu⟩ := i hw.1
    obtain ⟨v, pv, hv⟩ := j hw.2
    exact ⟨u + v, add_pos pu pv, denote_add.2 ⟨u, v, hu, hv, rfl⟩⟩
  | mul _ _ i j =>
    have hw := WF.mul_iff.1 he
    obtain ⟨u, pu, hu⟩ := i hw.1
    obtain ⟨v, pv, hv⟩ := j hw.2
    exact ⟨u * v, mul_pos pu pv, denote_mul.2 ⟨u, v, hu, hv, rfl⟩⟩

theorem quotient_value {x : Variable} {c d q : Expr F} (vc : WF SmartNum.Valid c) (vd : WF SmartNum.Valid d)
    (pc : PosPoly x 0 c) (pd : PosPoly x 0 d) (h : Agg .strict (c.div d) q) {env : Env} (hp : ∀ v, 0 < env v) :
    ∃ v, denote SmartNum.exactReal env q = some v := by
  have wf : ∀ {a a' : Expr F}, WF SmartNum.Valid a → Agg .strict a a' → WF SmartNum.Valid a' :=
    fun v h => h.wf (numClosed_valid _) v
  have vq := wf (.div _ _ vc vd) h
  generalize he : c.div d = s at h
  cases h with
  | @div_num a b u v w h1 h2 h3 =>
    expr_inj at he; obtain ⟨rfl, rfl⟩ := he
    obtain ⟨-, p, hu, -⟩ := posPoly_num (pc.agg vc h1)
    obtain ⟨-, r, hv, pr⟩ := posPoly_num (pd.agg vd h2)
    have := SmartNum.div_exact (m := .strict) (by simp) (WF.num_iff.1 (wf vc h1)) (WF.num_iff.1 (wf vd h2)) hu hv pr.ne' h3
    exact ⟨_, by rw [denote_ofNum, exactReal_of_exact this (WF.num_iff.1 vq)]⟩
  | div_zero_l h1 h2 h3 =>
    expr_inj at he; obtain ⟨rfl, rfl⟩ := he
    have := (pc.agg vc h1).not_zero (wf vc h1)
    rw [isZero_ofNum, h3] at this; cases this
  | div h1 h2 =>
    expr_inj at he; obtain ⟨rfl, rfl⟩ := he
    obtain ⟨u, pu, hu⟩ := (pc.agg vc h1).positive (wf vc h1) hp
    obtain ⟨v, pv, hv⟩ := (pd.agg vd h2).positive (wf vd h2) hp
    exact ⟨u / v, denote_div.2 ⟨u, v, hu, hv, pv.ne', rfl⟩⟩
  | _ => expr_inj at he

theorem posPoly_answer {m m' : Mode} {f g pt : Expr F} {x : Variable} {k : UInt64} {i j : ℕ} (hf : Built m f) (hg : Built m g)
    (hpt : Built m' pt) (hz : pt.isZero = true) (pf : PosPoly x i f) (pg : PosPoly x j g) :
    LimitPanics .strict (f.div g) x pt k ∨
    (k.toNat < min i j ∧ LimitErr .strict (f.div g) x pt k) ∨
    (min i j ≤ k.toNat ∧ ((j < i ∧ LimitIs .strict (f.div g) x pt k .infinitesimal) ∨
      (i < j ∧ LimitIs .strict (f.div g) x pt k .infinity) ∨
      (i = j ∧ ∃ c, LimitIs .strict (f.div g) x pt k (.normal c) ∧
        ∀ env : Env, (∀ v, 0 < env v) → ∃ v, denote SmartNum.exactReal env c = some v))) := by
  obtain ⟨n, hn⟩ : End.Ends .strict x pt k (f.div g) := End.ends hpt.tree (.div _ _ hf.valid hg.valid)
  cases n with
  | zero => exact absurd rfl hn
  | succ n =>
    rw [limit_div] at hn
    have hl := limit_div .strict x pt k n f g
    rcases pf.divLoop (k := k) hz n (k.toNat + 1) hf.valid hg.valid pg with h | h | ⟨h1, h⟩ | ⟨h1, h⟩
    · rw [h] at hn; exact absurd rfl hn
    · exact .inl ⟨n + 1, by rw [hl, h]; rfl⟩
    · exact .inr (.inl ⟨by omega, n + 1, by rw [hl, h]; rfl⟩)
    · rcases h with ⟨h2, h⟩ | ⟨h2, h⟩ | ⟨h2, c, d, h, vc, vd, pc, pd⟩
      · exact .inr (.inr ⟨by omega, .inl ⟨h2, n + 1, by rw [hl, h]; rfl⟩⟩)
      · exact .inr (.inr ⟨by omega, .inr (.inl ⟨h2, n + 1, by rw [hl, h]; rfl⟩)⟩)
      · cases ha : (c.div d).numAggregate .strict with
        | panic => exact .inl ⟨n + 1, by rw [hl, h]; simp [finish, ha]⟩
        | ok q => exact .inr (.inr ⟨by omega, .inr (.inr ⟨h2, q, ⟨n + 1, by rw [hl, h]; simp [finish, ha]⟩, fun env hp =>
          quotient_value vc vd pc pd (agg_of_numAggregate (.div _ _ vc.tree vd.tree) ha) hp⟩)⟩)

/-- C70: let `f` and `g` be written with positive exact numbers, variables, `+` and `*`, with lowest powers `i` and `j`
of `x`.  As x tends to 0, a run of the limit of f/g in which no integer overflows answers, if order_try is at least
min i j: Infinitesimal if i > j, Infinity if i < j, Normal if i = j; and if order_try is smaller: Err. -/
theorem C70_answer (m m' : Mode) (f g pt : Expr F) (x : Variable) (k : UInt64) (i j : ℕ) (hf : Built m f) (hg : Built m g)
    (hpt : Built m' pt) (hz : pt.isZero = true) (pf : PosPoly x i f) (pg : PosPoly x j g) :
    LimitPanics .strict (f.div g) x pt k ∨
    (k.toNat < min i j ∧ LimitErr .strict (f.div g) x pt k) ∨
    (min i j ≤ k.toNat ∧ ((j < i ∧ LimitIs .strict (f.div g) x pt k .infinitesimal) ∨
      (i < j ∧ LimitIs .strict (f.div g) x pt k .infinity) ∨
      (i = j ∧ ∃ c, LimitIs .strict (f.div g) x pt k (.normal c)))) := by
  rcases posPoly_answer (k := k) hf hg hpt hz pf pg with h | h | ⟨h, h' | h' | ⟨h1, c, h2, -⟩⟩
  · exact .inl h
  · exact .inr (.inl h)
  · exact .inr (.inr ⟨h, .inl h'⟩)
  · exact .inr (.inr ⟨h, .inr (.inl h')⟩)
  · exact .inr (.inr ⟨h, .inr (.inr ⟨h1, c, h2⟩)⟩)

/-- C70: and the answers are true, for all positive values of the other variables: Infinitesimal means that the quotient
tends to 0, Infinity that its absolute value tends to infinity, and Normal(c) that it tends to the value of `c`. -/
theorem C70_true (m m' : Mode) (f g pt : Expr F) (x : Variable) (k : UInt64) (i j : ℕ) (hf : Built m f) (hg : Built m g)
    (hpt : Built m' pt) (hz : pt.isZero = true) (pf : PosPoly x i f) (pg : PosPoly x j g) (z : LimitExpression F)
    (h : LimitIs .strict (f.div g) x pt k z) (env : Env) (hp : ∀ v, 0 < env v) :
    z.Describes SmartNum.exactReal env (𝓝[≠] 0) (fn SmartNum.exactReal env x (f.div g)) := by
  obtain ⟨u, cu, pu, hu⟩ := pf.value (ν := SmartNum.exactReal) (fun _ hn _ hq => exactReal_of_exact hq hn) hf.valid hp
  obtain ⟨w, cw, pw, hw⟩ := pg.value (ν := SmartNum.exactReal) (fun _ hn _ hq => exactReal_of_exact hq hn) hg.valid hp
  have fu : ∀ t, fn SmartNum.exactReal env x f t = t ^ i * u t := fun t => by rw [fn, hu]; rfl
  have gw : ∀ t, fn SmartNum.exactReal env x g t = t ^ j * w t := fun t => by rw [fn, hw]; rfl
  have w0 : ∀ᶠ t in 𝓝[≠] (0 : ℝ), w t ≠ 0 :=
    ((cw.tendsto 0).eventually (isOpen_ne.mem_nhds pw.ne')).filter_mono nhdsWithin_le_nhds
  have hfg : ∀ᶠ t in 𝓝[≠] (0 : ℝ), fn SmartNum.exactReal env x (f.div g) t =
      fn SmartNum.exactReal env x f t / fn SmartNum.exactReal env x g t := by
    filter_upwards [w0, self_mem_nhdsWithin] with t ht h0
    have : t ^ j * w t ≠ 0 := mul_ne_zero (pow_ne_zero _ h0) ht
    rw [fu, gw, fn, denote_div.2 ⟨_, _, hu t, hw t, this, rfl⟩]; rfl
  have huw : Tendsto (fun t => u t / w t) (𝓝[≠] 0) (𝓝 (u 0 / w 0)) :=
    ((cu.tendsto 0).div (cw.tendsto 0) pw.ne').mono_left nhdsWithin_le_nhds
  have tp : Tree pt := hpt.tree
  have te : Tree (f.div g) := .div _ _ hf.tree hg.tree
  have tpow : ∀ {q : ℕ}, 0 < q → Tendsto (fun t : ℝ => t ^ q) (𝓝[≠] 0) (𝓝 0) := by
    intro q hq
    have := ((continuous_pow q (M := ℝ)).tendsto 0).mono_left (nhdsWithin_le_nhds (s := {0}ᶜ))
    rwa [zero_pow hq.ne'] at this
  have uni : ∀ {o}, o ≠ .fuel → (∃ n, Expr.limit .strict x pt k n (f.div g) = o) → o = .ok z := by
    rintro o ho ⟨n, hn⟩
    obtain ⟨n', hn'⟩ := h
    rw [← hn, ← hn']
    exact limit_outcome_unique tp te (by rw [hn]; exact ho) (by rw [hn']; simp)
  rcases posPoly_answer (k := k) hf hg hpt hz pf pg with hP | ⟨-, hE⟩ | ⟨-, ⟨hij, hI⟩ | ⟨hij, hI⟩ | ⟨hij, c, hI, hv⟩⟩
  · cases uni (by simp) hP
  · cases uni (by simp) hE
  · cases uni (by simp) hI
    have h1 := (tpow (q := i - j) (by omega)).mul huw
    rw [zero_mul] at h1
    refine h1.congr' ?_
    filter_upwards [hfg, w0, self_mem_nhdsWithin] with t ht h2 h0
    have h0 : t ≠ 0 := h0
    rw [ht, fu, gw, show i = (i - j) + j by omega, pow_add, show i - j + j - j = i - j by omega]
    field_simp
  · cases uni (by simp) hI
    have h1 : Tendsto (fun t : ℝ => |t ^ (j - i)|) (𝓝[≠] 0) (𝓝[>] 0) := by
      refine tendsto_nhdsWithin_iff.2 ⟨by simpa using (tpow (q := j - i) (by omega)).abs, ?_⟩
      filter_upwards [self_mem_nhdsWithin] with t ht
      exact abs_pos.2 (pow_ne_zero _ ht)
    have h2 := (tendsto_inv_nhdsGT_zero.comp h1).atTop_mul_pos (abs_pos.2 (div_pos pu pw).ne') huw.abs
    refine h2.congr' ?_
    filter_upwards [hfg, w0, self_mem_nhdsWithin] with t ht h2 h0
    have h0 : t ≠ 0 := h0
    simp only [Function.comp_apply]
    rw [ht, fu, gw, ← abs_inv, ← abs_mul]
    congr 1
    obtain ⟨d, rfl⟩ : ∃ d, j = i + d := ⟨j - i, by omega⟩
    rw [Nat.add_sub_cancel_left, pow_add]
    field_simp
  · cases uni (by simp) hI
    subst hij
    obtain ⟨v, hv⟩ := hv env hp
    refine ⟨v, hv, ?_⟩
    obtain ⟨n0, hn0, hz0⟩ := isZero_num tp hz
    subst hn0
    have hpt0 : ∀ env, denote SmartNum.exactReal env (ofNum n0) = some 0 := fun env => by
      rw [denote_ofNum, exactReal_of_exact ((WF.num_iff.1 hpt.valid).zero_iff.1 hz0) (WF.num_iff.1 hpt.valid)]; simp
    have quot : ∀ {e : Expr F} {i : ℕ}, Built m e → PosPoly x i e → Quotable m env x (ofNum n0) 0 e := by
      intro e i he hp'
      obtain ⟨g, -, -, hg⟩ := hp'.value (ν := SmartNum.exactReal) (fun _ hn _ hq => exactReal_of_exact hq hn) he.valid hp
      have pA : ∀ {Q : Expr F → Expr F → Prop}, PowAll Q e := by
        intro Q
        clear he hg
        induction hp' with
        | num => exact powAll_ofNum _
        | self | other => exact powAll_ofVar _
        | add _ _ i j => exact powAll_add.2 ⟨i, j⟩
        | mul _ _ i j => exact powAll_mul.2 ⟨i, j⟩
      have tA : ∀ {Q : Expr F → Prop}, TrigAll Q e := by
        intro Q
        clear he hg pA
        induction hp' with
        | num => exact trigAll_ofNum _
        | self | other => exact trigAll_ofVar _
        | add _ _ i j => exact trigAll_add.2 ⟨i, j⟩
        | mul _ _ i j => exact trigAll_mul.2 ⟨i, j⟩
      have sA : ∀ {E : Set Env}, SafeD SmartNum.exactReal E e := by
        intro E
        clear he hg pA tA
        induction hp' with
        | num => exact safeD_ofNum _
        | self | other => exact safeD_ofVar _
        | add _ _ i j => exact safeD_add.2 ⟨i, j⟩
        | mul _ _ i j => exact safeD_mul.2 ⟨i, j⟩
      exact ⟨he, ⟨_, hg 0⟩, sA, fun a b h => ((pA (Q := fun _ _ => False)) _ h a b rfl).elim, pA, fun _ a ha => by
        have := tA (Q := fun _ => False)
        rcases ha with ha | ha
        · exact (this _ ha a (.inl rfl)).elim
        · exact (this _ ha a (.inr rfl)).elim⟩
    have ql := quot hf pf
    have qr := quot hg pg
    obtain ⟨n, h⟩ := h
    obtain ⟨d, h1, h2, h3⟩ := limit_lift (.div _ _ hf.valid hg.valid) hpt.valid h
    obtain ⟨rl, fl⟩ := ql.lift hpt.valid
    obtain ⟨rr, fr⟩ := qr.lift hpt.valid
    obtain ⟨r, hm, ht⟩ := PosPoly.quotient (l := f.lift) (r := g.lift) (z := d) (denote_lift hpt.valid.tree (hpt0 env))
      (wf_lift hpt.valid) ((safe_ofNum _ : Safe SmartNum.exactReal Set.univ (ofNum n0)).lift (E' := Set.univ) subset_rfl hpt.valid.tree)
      (by rw [isZero_lift hpt.valid]; exact hz0) hp rl rr (pf.lift hf.valid) (pg.lift hg.valid) h1
    rw [fl, fr] at ht
    have := tells_of_means hm ht
    rw [h2] at this
    obtain ⟨v', hs, ht'⟩ := this
    rw [hs.1 v hv]
    refine ht'.congr' ?_
    filter_upwards [hfg] with t ht
    rw [ht]

/-! ### panics -/

theorem RingForm.agg {m : Mode} {e e' : Expr F} (h : RingForm e) (ha : Agg m e e') : RingForm e' := by
  induction h generalizing e' with
  | num n => obtain rfl := ha.unique (.num _ trivial) (.num n); exact .num n
  | var v => obtain rfl := ha.unique (.var _) (.var v); exact .var v
  | @add a b _ _ i j =>
    generalize he : a.add b = e at ha
    cases ha with
    | add_num => exact .num _
    | add_zero_l h1 h2 => expr_inj at he; obtain ⟨rfl, rfl⟩ := he; exact j h2
    | add_zero_r h1 h2 => expr_inj at he; obtain ⟨rfl, rfl⟩ := he; exact i h1
    | add h1 h2 => expr_inj at he; obtain ⟨rfl, rfl⟩ := he; exact .add (i h1) (j h2)
    | _ => expr_inj at he
  | @mul a b _ _ i j =>
    generalize he : a.mul b = e at ha
    cases ha with
    | mul_num => exact .num _
    | mul_zero_l h1 h2 => exact .num _
    | mul_zero_r h1 h2 => exact .num _
    | mul_one_l h1 h2 => expr_inj at he; obtain ⟨rfl, rfl⟩ := he; exact j h2
    | mul_one_r h1 h2 => expr_inj at he; obtain ⟨rfl, rfl⟩ := he; exact i h1
    | mul h1 h2 => expr_inj at he; obtain ⟨rfl, rfl⟩ := he; exact .mul (i h1) (j h2)
    | _ => expr_inj at he

theorem RingForm.der {m : Mode} {x : Variable} {e d : Expr F} (h : RingForm e) (hd : Der m x e d) : RingForm d := by
  induction h generalizing d with
  | num n =>
    generalize hs : (ofNum n : Expr F) = s at hd
    cases hd with
    | num => exact .num _
    | _ => expr_inj at hs
  | var v =>
    generalize hs : (ofVar v : Expr F) = s at hd
    cases hd with
    | var => exact .num _
    | var_ne => exact .num _
    | _ => expr_inj at hs
  | @add a b _ _ i j =>
    generalize hs : a.add b = s at hd
    cases hd with
    | add h1 h2 h3 => expr_inj at hs; obtain ⟨rfl, rfl⟩ := hs; exact (RingForm.add (i h1) (j h2)).agg h3
    | _ => expr_inj at hs
  | @mul a b ha hb i j =>
    generalize hs : a.mul b = s at hd
    cases hd with
    | mul h1 h2 h3 =>
      expr_inj at hs; obtain ⟨rfl, rfl⟩ := hs
      exact (RingForm.add (.mul (i h1) hb) (.mul ha (j h2))).agg h3
    | _ => expr_inj at hs

omit [FloatOps F] in
theorem RingForm.quotientFree {e : Expr F} (h : RingForm e) : QuotientFree e := by
  induction h with
  | num n => exact .num n
  | var v => exact .var v
  | add _ _ i j => exact .add i j
  | mul _ _ i j => exact .mul i j

omit [FloatOps F] in
theorem PosPoly.ringForm {x : Variable} {i : ℕ} {e : Expr F} (h : PosPoly x i e) : RingForm e := by
  induction h with
  | num n => exact .num n
  | self => exact .var _
  | other v => exact .var v
  | add _ _ i j => exact .add i j
  | mul _ _ i j => exact .mul i j

/-- C70: only integer overflow can make such a limit panic: in release builds the limit of a quotient of two expressions
made of numbers, variables, sums and products never panics, whatever the numbers, point and order; it has an answer or
returns Err. -/
theorem C70_release (f g pt : Expr F) (x : Variable) (k : UInt64) (hf : Built .release f) (hg : Built .release g)
    (hpt : Built .release pt) (rf : RingForm f) (rg : RingForm g) :
    ¬ LimitPanics .release (f.div g) x pt k ∧
    ((∃ z, LimitIs .release (f.div g) x pt k z) ∨ LimitErr .release (f.div g) x pt k) := by
  have lim : ∀ {e : Expr F} (n : Nat), Built .release e → RingForm e → Expr.limit .release x pt k n e ≠ .panic := by
    intro e n he hr hp
    obtain ⟨z, -, hz⟩ := C68_release e pt x he hpt hr.quotientFree
    obtain ⟨n', hz⟩ := hz k
    have := limit_outcome_unique hpt.tree he.tree (n := n) (n' := n') (by rw [hp]; simp) (by rw [hz]; simp)
    rw [hp, hz] at this
    cases this
  have loop : ∀ (n N : Nat) {l r : Expr F}, Built .release l → Built .release r → RingForm l → RingForm r →
      divLoop .release (Expr.limit .release x pt k n) x N l r ≠ .panic := by
    intro n N
    induction N with
    | zero => intro l r _ _ _ _ h; cases h
    | succ N ih =>
      intro l r hl hr rl rr h
      simp only [divLoop] at h
      cases h1 : Expr.limit .release x pt k n l with
      | panic => exact lim n hl rl h1
      | err => rw [h1] at h; cases h
      | fuel => rw [h1] at h; cases h
      | ok a =>
        cases h2 : Expr.limit .release x pt k n r with
        | panic => exact lim n hr rr h2
        | err => rw [h1, h2] at h; cases h
        | fuel => rw [h1, h2] at h; cases h
        | ok b =>
          rw [h1, h2] at h
          simp only [LOut.ok_bind] at h
          cases h3 : a.div b with
          | some z => rw [h3] at h; cases h
          | none =>
            rw [h3] at h
            obtain ⟨l', h4⟩ := derivative_release hl.tree x
            obtain ⟨r', h5⟩ := derivative_release hr.tree x
            simp only [h4, h5, LOut.ofOut_ok, LOut.ok_bind] at h
            have d1 := der_of_derivative hl.tree h4
            have d2 := der_of_derivative hr.tree h5
            exact ih (d1.wf (numClosed_reachable _) hl) (d2.wf (numClosed_reachable _) hr) (rl.der d1) (rr.der d2) h
  have np : ¬ LimitPanics .release (f.div g) x pt k := by
    rintro ⟨n, h⟩
    cases n with
    | zero => cases h
    | succ n =>
      rw [limit_div] at h
      cases h1 : divLoop .release (Expr.limit .release x pt k n) x (k.toNat + 1) f g with
      | panic => exact loop n _ hf hg rf rg h1
      | err => rw [h1] at h; cases h
      | fuel => rw [h1] at h; cases h
      | ok z =>
        rw [h1] at h
        cases z with
        | normal c =>
          have hc : LimWF (fun _ => True) (.normal c : LimitExpression F) := divLoop_wf (numClosed_true _)
            (fun e z he hz => limit_wf (numClosed_true _) hpt.tree he hz) _ hf.tree hg.tree h1
          obtain ⟨q, hq⟩ := numAggregate_release (e := c) hc
          simp [finish, hq] at h
        | _ => cases h
  refine ⟨np, ?_⟩
  rcases C53_terminates .release (f.div g) pt (.div _ _ hf hg) hpt x k with h | h | h
  · exact .inl h
  · exact .inr h
  · exact (np h).elim

/-! ### examples -/

/-- Non-vacuous: 3*x*x + y*x*x*x over x*(2*x), lowest powers 2 and 2, answers Normal(3/2) with order_try 2 and Err with
order_try 1 (in runs without overflow; the same in debug and release builds). -/
theorem C70_example :
    let x : Expr F := newVariable "x"
    let y : Expr F := newVariable "y"
    let f := (((ofI64 3).mul x).mul x).add (((y.mul x).mul x).mul x)
    let g := x.mul ((ofI64 2).mul x)
    Built .debug f ∧ Built .debug g ∧ PosPoly ⟨"x"⟩ 2 f ∧ PosPoly ⟨"x"⟩ 2 g ∧
    (∃ n : SmartNum F, LimitIs .strict (f.div g) ⟨"x"⟩ zero 2 (.normal (ofNum n)) ∧ n.exact? = some (3 / 2)) ∧
    LimitErr .strict (f.div g) ⟨"x"⟩ zero 1 ∧
    LimitIs .strict ((f.mul x).div g) ⟨"x"⟩ zero 2 .infinitesimal ∧
    LimitIs .strict (f.div (g.mul x)) ⟨"x"⟩ zero 2 .infinity := by
  intro x y f g
  have bn : ∀ v, Built .debug (ofI64 v : Expr F) := fun v => .num _ (.ofI64 v)
  have bx : Built .debug x := .var _
  have px : PosPoly ⟨"x"⟩ 1 x := .self
  have py : PosPoly ⟨"x"⟩ 0 y := .other ⟨"y"⟩ (by decide)
  have p3 : PosPoly ⟨"x"⟩ 0 (ofI64 3 : Expr F) := .num _ 3 (by rfl) (by norm_num)
  have p2 : PosPoly ⟨"x"⟩ 0 (ofI64 2 : Expr F) := .num _ 2 (by rfl) (by norm_num)
  refine ⟨.add _ _ (.mul _ _ (.mul _ _ (bn 3) bx) bx) (.mul _ _ (.mul _ _ (.mul _ _ (.var _) bx) bx) bx),
    .mul _ _ bx (.mul _ _ (bn 2) bx), ((p3.mul px).mul px).add (((py.mul px).mul px).mul px), px.mul (p2.mul px),
    ⟨⟨.rational ⟨1, 3, 2⟩, .nothing⟩, ⟨20, by krfl⟩, ?_⟩, ⟨20, by krfl⟩, ⟨20, by krfl⟩, ⟨20, by krfl⟩⟩
  simp [SmartNum.exact?, SmartNumVal.exact?, RationalNum.value]

end SymRust
