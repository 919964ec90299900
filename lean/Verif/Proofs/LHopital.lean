import Verif.Proofs.LimitSem
/-! # L'Hôpital steps of `limit` -/

namespace SymRust
open Expr Filter Topology LimitExpression
variable {F : Type}

theorem divLoop_steps [FloatOps F] {m : Mode} {rec : LimitFn F} {x : Variable} {l0 r0 : Expr F} (j : Nat) :
    ∀ {c : Nat} {l r : Expr F} {z : LimitExpression F}, nthDerivative m l0 x c = .ok l → nthDerivative m r0 x c = .ok r →
    divLoop m rec x j l r = .ok z →
    ∃ i, c ≤ i ∧ i < c + j ∧ (∃ li ri a b, nthDerivative m l0 x i = .ok li ∧ nthDerivative m r0 x i = .ok ri ∧
      rec li = .ok a ∧ rec ri = .ok b ∧ a.div b = some z) ∧
      ∀ i', c ≤ i' → i' < i → ∃ li ri a b, nthDerivative m l0 x i' = .ok li ∧ nthDerivative m r0 x i' = .ok ri ∧
        rec li = .ok a ∧ rec ri = .ok b ∧ a.div b = none := by
  induction j with
  | zero => intro c l r z _ _ h; cases h
  | succ j ih =>
    intro c l r z hl hr h
    simp only [divLoop, LOut.bind_eq_ok] at h
    obtain ⟨a, ha, b, hb, h⟩ := h
    cases hd : a.div b with
    | some w =>
      rw [hd] at h; cases h
      exact ⟨c, le_rfl, by omega, ⟨l, r, a, b, hl, hr, ha, hb, hd⟩, fun i' h1 h2 => by omega⟩
    | none =>
      rw [hd] at h
      simp only [LOut.bind_eq_ok, LOut.ofOut_eq_ok] at h
      obtain ⟨l', h1, r', h2, h⟩ := h
      obtain ⟨i, k1, k2, k3, k4⟩ := ih (c := c + 1) (l := l') (r := r')
        (by simp only [nthDerivative, hl]; exact h1) (by simp only [nthDerivative, hr]; exact h2) h
      refine ⟨i, by omega, by omega, k3, fun i' h3 h4 => ?_⟩
      rcases Nat.eq_or_lt_of_le h3 with rfl | h3
      · exact ⟨l, r, a, b, hl, hr, ha, hb, hd⟩
      · exact k4 i' h3 h4

/-- A function that is F·(t-p)^i up to O((t-p)^(i+1)). -/
theorem leading_limit {f : ℝ → ℝ} {p c : ℝ} {i : Nat}
    (h : (fun t => f t - c * (t - p) ^ i) =O[𝓝 p] fun t => (t - p) ^ (i + 1)) :
    Tendsto (fun t => f t / (t - p) ^ i) (𝓝[≠] p) (𝓝 c) := by
  have h1 := h.mono (nhdsWithin_le_nhds (s := {p}ᶜ))
  have h2 : (fun t => f t / (t - p) ^ i - c) =O[𝓝[≠] p] fun t => t - p := by
    have h3 := h1.mul (Asymptotics.isBigO_refl (fun t : ℝ => ((t - p) ^ i)⁻¹) (𝓝[≠] p))
    refine h3.congr' ?_ ?_
    · filter_upwards [self_mem_nhdsWithin] with t ht
      have : t - p ≠ 0 := sub_ne_zero.2 ht
      field_simp
    · filter_upwards [self_mem_nhdsWithin] with t ht
      have : t - p ≠ 0 := sub_ne_zero.2 ht
      rw [pow_succ]; field_simp
  have h4 : Tendsto (fun t : ℝ => t - p) (𝓝[≠] p) (𝓝 0) := by
    have : Tendsto (fun t : ℝ => t - p) (𝓝 p) (𝓝 (p - p)) := (continuous_id.sub continuous_const).tendsto p
    rw [sub_self] at this
    exact this.mono_left nhdsWithin_le_nhds
  have h5 := h2.trans_tendsto h4
  simpa using h5.add_const c

section
variable [ExactFloat F] {x : Variable} {env : Env} {p r : ℝ}

theorem fn_leading {e : Expr F} (he : Tree e) (hr : denote SmartNum.value? (env.set x p) e = some r)
    (hp : PowOK SmartNum.value? (env.set x p) x e) (i : Nat)
    (h0 : ∀ k < i, iteratedDeriv k (fn SmartNum.value? env x e) p = 0) :
    Tendsto (fun t => fn SmartNum.value? env x e t / (t - p) ^ i) (𝓝[≠] p)
      (𝓝 (iteratedDeriv i (fn SmartNum.value? env x e) p / (i.factorial : ℝ))) := by
  refine leading_limit ?_
  refine (taylor_remainder he hr hp i).congr_left fun t => ?_
  rw [Finset.sum_range_succ, Finset.sum_eq_zero, zero_add]
  intro k hk
  rw [h0 k (Finset.mem_range.1 hk)]; simp

/-- The hypotheses on one operand of the division. -/
structure Regular (env : Env) (x : Variable) (pt : Expr F) (p : ℝ) (e : Expr F) : Prop where
  wf : WF SmartNum.Valid e
  safe : SafeD SmartNum.value? (AtPoint SmartNum.value? x pt) e
  ln : LnOK x pt e
  val : ∃ r, denote SmartNum.value? (env.set x p) e = some r
  pow : PowOK SmartNum.value? (env.set x p) x e
  trig : pt.isZero = true → TrigAll (SinZeroAt SmartNum.value? (env.set x p)) e

theorem trigInv_sinZero (env : Env) : TrigInv (F := F) (SinZeroAt SmartNum.value? env) :=
  fun _ _ hs ⟨w, hw, h⟩ => ⟨w, hs _ _ hw, h⟩

theorem Regular.sin {pt e : Expr F} (h : Regular env x pt p e) : pt.isZero = true →
    Everywhere (fun s => ∀ a : Expr F, s = a.sin → SinZeroAt SmartNum.value? (env.set x p) a) e :=
  fun h0 s hs a ha => h.trig h0 s hs a (.inl ha)

theorem Regular.derivative {pt e d : Expr F} (h : Regular env x pt p e) (i : Nat)
    (hd : nthDerivative .strict e x i = .ok d) : Regular env x pt p d ∧
      denote SmartNum.value? (env.set x p) d = some (iteratedDeriv i (fn SmartNum.value? env x e) p) := by
  obtain ⟨r, hr⟩ := h.val
  obtain ⟨i1, i2, i3⟩ := nthDerivative_inv h.wf h.safe i hd
  have hval := (nthDerivative_value h.wf h.safe hr h.pow i hd).self_of_nhds
  simp only [Env.set_same, Env.set_set] at hval
  have hfn : fn SmartNum.value? (env.set x p) x e = fn SmartNum.value? env x e := by
    funext t; simp [fn]
  rw [hfn] at hval
  exact ⟨⟨i1, i2, i3 _ (powInv_ln x pt) h.ln, ⟨_, hval⟩, i3 _ (powInv_powOK _ x) h.pow,
    fun h0 => nthDerivative_trig (trigInv_sinZero _) h.wf h.safe (h.trig h0) i hd⟩, hval⟩

variable {pt : Expr F} {k : UInt64} {n : Nat} {l r : Expr F} {z : LimitExpression F}

theorem lhopital_steps (hpt : denote SmartNum.value? env pt = some p)
    (wp : WF SmartNum.Valid pt) (sp : Safe SmartNum.value? Set.univ pt) (hl : Regular env x pt p l)
    (hr : Regular env x pt p r) (h : limit .strict x pt k n (l.div r) = .ok z) :
    ∃ i ≤ k.toNat, ∃ li ri a b, nthDerivative .strict l x i = .ok li ∧ nthDerivative .strict r x i = .ok ri ∧
      limit .strict x pt k (n - 1) li = .ok a ∧ limit .strict x pt k (n - 1) ri = .ok b ∧
      Means env (iteratedDeriv i (fn SmartNum.value? env x l) p) a ∧
      Means env (iteratedDeriv i (fn SmartNum.value? env x r) p) b ∧
      (∃ w, a.div b = some w ∧ finish .strict w = .ok z) ∧
      ∀ i' < i, iteratedDeriv i' (fn SmartNum.value? env x l) p = 0 ∧
        iteratedDeriv i' (fn SmartNum.value? env x r) p = 0 := by
  cases n with
  | zero => cases h
  | succ n =>
    rw [limit_div, LOut.bind_eq_ok] at h
    obtain ⟨w, h1, h⟩ := h
    obtain ⟨i, -, hi, ⟨li, ri, a, b, g1, g2, g3, g4, g5⟩, hlt⟩ :=
      divLoop_steps (l0 := l) (r0 := r) (k.toNat + 1) (c := 0) rfl rfl h1
    have means : ∀ {e : Expr F}, Regular env x pt p e → ∀ {i : Nat} {d : Expr F} {a : LimitExpression F},
        nthDerivative .strict e x i = .ok d → limit .strict x pt k n d = .ok a →
        Means env (iteratedDeriv i (fn SmartNum.value? env x e) p) a := by
      intro e he i d a hd ha
      obtain ⟨h1, h2⟩ := he.derivative i hd
      exact limit_means hpt wp sp h1.wf h1.safe.1 h1.ln h2 h1.sin ha
    refine ⟨i, by omega, li, ri, a, b, g1, g2, g3, g4, means hl g1 g3, means hr g2 g4, ⟨w, g5, h⟩, fun i' hi' => ?_⟩
    obtain ⟨li', ri', a', b', k1, k2, k3, k4, k5⟩ := hlt i' (Nat.zero_le _) hi'
    exact div_none_means (means hl k1 k3) (means hr k2 k4) k5

/-- The quotient tends to the quotient of the leading coefficients. -/
theorem quotient_tendsto (hl : Regular env x pt p l) (hr : Regular env x pt p r) {i : Nat}
    (h0 : ∀ i' < i, iteratedDeriv i' (fn SmartNum.value? env x l) p = 0 ∧
        iteratedDeriv i' (fn SmartNum.value? env x r) p = 0)
    (hd : iteratedDeriv i (fn SmartNum.value? env x r) p ≠ 0) :
    Tendsto (fun t => fn SmartNum.value? env x l t / fn SmartNum.value? env x r t) (𝓝[≠] p)
      (𝓝 (iteratedDeriv i (fn SmartNum.value? env x l) p / iteratedDeriv i (fn SmartNum.value? env x r) p)) := by
  obtain ⟨u, hu⟩ := hl.val
  obtain ⟨v, hv⟩ := hr.val
  have h1 := fn_leading hl.wf.tree hu hl.pow i fun k hk => (h0 k hk).1
  have h2 := fn_leading hr.wf.tree hv hr.pow i fun k hk => (h0 k hk).2
  have hfac : (i.factorial : ℝ) ≠ 0 := by exact_mod_cast i.factorial_ne_zero
  have h3 := h1.div h2 (div_ne_zero hd hfac)
  rw [div_div_div_cancel_right₀ hfac] at h3
  refine h3.congr' ?_
  filter_upwards [self_mem_nhdsWithin] with t ht
  have : (t - p) ^ i ≠ 0 := pow_ne_zero _ (sub_ne_zero.2 ht)
  simp only [Pi.div_apply]
  exact div_div_div_cancel_right₀ this _ _

/-- The quotient is unbounded if the divisor vanishes to a higher order. -/
theorem quotient_infinity (hl : Regular env x pt p l) (hr : Regular env x pt p r) {i : Nat}
    (h0 : ∀ i' < i, iteratedDeriv i' (fn SmartNum.value? env x l) p = 0 ∧
        iteratedDeriv i' (fn SmartNum.value? env x r) p = 0)
    (hn : iteratedDeriv i (fn SmartNum.value? env x l) p ≠ 0)
    (hd : iteratedDeriv i (fn SmartNum.value? env x r) p = 0)
    (hg : ∀ᶠ t in 𝓝[≠] p, fn SmartNum.value? env x r t ≠ 0) :
    Tendsto (fun t => |fn SmartNum.value? env x l t / fn SmartNum.value? env x r t|) (𝓝[≠] p) atTop := by
  obtain ⟨u, hu⟩ := hl.val
  obtain ⟨v, hv⟩ := hr.val
  have h1 := fn_leading hl.wf.tree hu hl.pow i fun k hk => (h0 k hk).1
  have h2 := fn_leading hr.wf.tree hv hr.pow i fun k hk => (h0 k hk).2
  have hfac : (i.factorial : ℝ) ≠ 0 := by exact_mod_cast i.factorial_ne_zero
  rw [hd, zero_div] at h2
  set f := fn SmartNum.value? env x l
  set g := fn SmartNum.value? env x r
  have h3 : Tendsto (fun t => |g t / (t - p) ^ i|) (𝓝[≠] p) (𝓝[>] 0) := by
    refine tendsto_nhdsWithin_iff.2 ⟨by simpa using h2.abs, ?_⟩
    filter_upwards [hg, self_mem_nhdsWithin] with t ht hp
    exact abs_pos.2 (div_ne_zero ht (pow_ne_zero _ (sub_ne_zero.2 hp)))
  have h4 : Tendsto (fun t => |g t / (t - p) ^ i|⁻¹) (𝓝[≠] p) atTop := tendsto_inv_nhdsGT_zero.comp h3
  have h5 := h4.atTop_mul_pos (abs_pos.2 (div_ne_zero hn hfac)) h1.abs
  refine h5.congr' ?_
  filter_upwards [hg, self_mem_nhdsWithin] with t ht hp
  have : (t - p) ^ i ≠ 0 := pow_ne_zero _ (sub_ne_zero.2 hp)
  rw [← abs_inv, ← abs_mul]
  congr 1
  field_simp

end

end SymRust
