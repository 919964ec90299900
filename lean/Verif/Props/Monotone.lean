import Verif.Props.Residual
import Mathlib.Analysis.Calculus.Deriv.MeanValue
import Mathlib.MeasureTheory.Integral.IntervalIntegral.FundThmCalculus
/-! # What a derivative tells about an expression: property C94 -/

namespace SymRust
variable {F : Type} [FloatOps F]
open Expr Set

namespace Growth

theorem hasDerivAt_fn {m : Mode} {e d : Expr F} (he : Built m e) {x : Variable} {E : Set Env}
    (hs : SafeD SmartNum.exactReal E e) (h : e.derivative .strict x = .ok d) {env : Env} {p s : ℝ}
    (hd : ValueBetween env x p s e) {u : ℝ} (hu : u ∈ uIcc p s) :
    ∃ w, HasDerivAt (fn SmartNum.exactReal env x e) w u ∧ StandsFor (env.set x u) d w := by
  obtain ⟨⟨r, hr⟩, hp⟩ := hd u hu
  obtain ⟨w, ⟨g, hg, hw⟩, h2⟩ := C30_derivative m e d he x E hs h _ r hr hp
  refine ⟨w, ?_, h2⟩
  rw [Env.set_same] at hg hw
  refine hw.congr_of_eventuallyEq ?_
  filter_upwards [hg] with t ht
  rw [Env.set_set] at ht
  rw [fn, ht]; rfl

theorem cont {m : Mode} {e d : Expr F} (he : Built m e) {x : Variable} {E : Set Env}
    (hs : SafeD SmartNum.exactReal E e) (h : e.derivative .strict x = .ok d) {env : Env} {p s : ℝ}
    (hd : ValueBetween env x p s e) : ContinuousOn (fn SmartNum.exactReal env x e) (uIcc p s) := fun _ hu =>
  let ⟨_, h1, _⟩ := hasDerivAt_fn he hs h hd hu
  h1.continuousAt.continuousWithinAt

/-- The derivative is what the returned expression has as value. -/
theorem hasDerivAt_of {m : Mode} {e d : Expr F} (he : Built m e) {x : Variable} {E : Set Env}
    (hs : SafeD SmartNum.exactReal E e) (h : e.derivative .strict x = .ok d) {env : Env} {p s : ℝ}
    (hd : ValueBetween env x p s e) {u : ℝ} (hu : u ∈ uIcc p s) {w : ℝ}
    (hw : denote SmartNum.exactReal (env.set x u) d = some w) : HasDerivAt (fn SmartNum.exactReal env x e) w u := by
  obtain ⟨w', h1, h2⟩ := hasDerivAt_fn he hs h hd hu
  rwa [h2.1 w hw]

end Growth
open Growth

section
variable (m : Mode) (e d : Expr F) (he : Built m e) (x : Variable) (E : Set Env) (hs : SafeD SmartNum.exactReal E e)
  (h : e.derivative .strict x = .ok d) (env : Env) (p s : ℝ) (hps : p < s) (hd : ValueBetween env x p s e)

include he hs h hps hd

/-- **C94** (mean value). The value of `e` at `s` minus that at `p` is (s - p) times what the derivative stands for at some
place between `p` and `s`. -/
theorem C94_mean_value : ∃ u ∈ Ioo p s, ∃ w, StandsFor (env.set x u) d w ∧
    fn SmartNum.exactReal env x e s - fn SmartNum.exactReal env x e p = w * (s - p) := by
  have hu : ∀ u ∈ Icc p s, u ∈ uIcc p s := fun u hu => by rwa [uIcc_of_le hps.le]
  choose! f hf using fun u (hu : u ∈ uIcc p s) => hasDerivAt_fn he hs h hd hu
  have hc := cont he hs h hd
  rw [uIcc_of_le hps.le] at hc
  obtain ⟨u, h1, h2⟩ := exists_hasDerivAt_eq_slope _ f hps hc fun u h' => (hf u (hu u (Ioo_subset_Icc_self h'))).1
  refine ⟨u, h1, f u, (hf u (hu u (Ioo_subset_Icc_self h1))).2, ?_⟩
  rw [h2, div_mul_cancel₀ _ (sub_ne_zero.2 hps.ne')]

/-- **C94** (growth). If the derivative is at least 0 between `p` and `s`, `e` grows there; at most 0: it falls; positive
or negative: strictly; 0: `e` is constant; never 0: `e` takes no value twice. -/
theorem C94_growth :
    ((∀ u ∈ Ioo p s, ∃ w, denote SmartNum.exactReal (env.set x u) d = some w ∧ 0 ≤ w) →
      MonotoneOn (fn SmartNum.exactReal env x e) (Icc p s)) ∧
    ((∀ u ∈ Ioo p s, ∃ w, denote SmartNum.exactReal (env.set x u) d = some w ∧ w ≤ 0) →
      AntitoneOn (fn SmartNum.exactReal env x e) (Icc p s)) ∧
    ((∀ u ∈ Ioo p s, ∃ w, denote SmartNum.exactReal (env.set x u) d = some w ∧ 0 < w) →
      StrictMonoOn (fn SmartNum.exactReal env x e) (Icc p s)) ∧
    ((∀ u ∈ Ioo p s, ∃ w, denote SmartNum.exactReal (env.set x u) d = some w ∧ w < 0) →
      StrictAntiOn (fn SmartNum.exactReal env x e) (Icc p s)) ∧
    ((∀ u ∈ Ioo p s, denote SmartNum.exactReal (env.set x u) d = some 0) →
      ∀ u ∈ Icc p s, fn SmartNum.exactReal env x e u = fn SmartNum.exactReal env x e p) ∧
    ((∀ u ∈ Ioo p s, ∃ w, denote SmartNum.exactReal (env.set x u) d = some w ∧ w ≠ 0) →
      InjOn (fn SmartNum.exactReal env x e) (Icc p s)) := by
  have hi : interior (Icc p s) = Ioo p s := interior_Icc
  have hc := cont he hs h hd
  rw [uIcc_of_le hps.le] at hc
  have hu : ∀ u ∈ Ioo p s, u ∈ uIcc p s := fun u hu => by rw [uIcc_of_le hps.le]; exact Ioo_subset_Icc_self hu
  have hD : ∀ u ∈ Ioo p s, ∀ w, denote SmartNum.exactReal (env.set x u) d = some w →
      HasDerivAt (fn SmartNum.exactReal env x e) w u := fun u h1 w hw => hasDerivAt_of he hs h hd (hu u h1) hw
  have hdiff : (∀ u ∈ Ioo p s, ∃ w, denote SmartNum.exactReal (env.set x u) d = some w) →
      DifferentiableOn ℝ (fn SmartNum.exactReal env x e) (interior (Icc p s)) := fun g u h1 => by
    rw [hi] at h1
    obtain ⟨w, hw⟩ := g u h1
    exact (hD u h1 w hw).differentiableAt.differentiableWithinAt
  refine ⟨fun g => ?_, fun g => ?_, fun g => ?_, fun g => ?_, fun g => ?_, fun g => ?_⟩
  · refine monotoneOn_of_deriv_nonneg (convex_Icc _ _) hc (hdiff fun u h1 => (g u h1).imp fun _ h => h.1) fun u h1 => ?_
    rw [hi] at h1
    obtain ⟨w, hw, h0⟩ := g u h1
    rwa [(hD u h1 w hw).deriv]
  · refine antitoneOn_of_deriv_nonpos (convex_Icc _ _) hc (hdiff fun u h1 => (g u h1).imp fun _ h => h.1) fun u h1 => ?_
    rw [hi] at h1
    obtain ⟨w, hw, h0⟩ := g u h1
    rwa [(hD u h1 w hw).deriv]
  · refine strictMonoOn_of_deriv_pos (convex_Icc _ _) hc fun u h1 => ?_
    rw [hi] at h1
    obtain ⟨w, hw, h0⟩ := g u h1
    rwa [(hD u h1 w hw).deriv]
  · refine strictAntiOn_of_deriv_neg (convex_Icc _ _) hc fun u h1 => ?_
    rw [hi] at h1
    obtain ⟨w, hw, h0⟩ := g u h1
    rwa [(hD u h1 w hw).deriv]
  · intro u h1
    have hmem : p ∈ Icc p s := left_mem_Icc.2 hps.le
    have mono := monotoneOn_of_deriv_nonneg (convex_Icc p s) hc (hdiff fun u h1 => ⟨0, g u h1⟩) fun u h1 => by
      rw [hi] at h1; exact (hD u h1 0 (g u h1)).deriv.ge
    have anti := antitoneOn_of_deriv_nonpos (convex_Icc p s) hc (hdiff fun u h1 => ⟨0, g u h1⟩) fun u h1 => by
      rw [hi] at h1; exact (hD u h1 0 (g u h1)).deriv.le
    exact le_antisymm (anti hmem h1 h1.1) (mono hmem h1 h1.1)
  · have key : ∀ a ∈ Icc p s, ∀ b ∈ Icc p s, a < b → fn SmartNum.exactReal env x e a ≠ fn SmartNum.exactReal env x e b := by
      intro a ha b hb hab hne
      obtain ⟨u, h1, h2⟩ := exists_deriv_eq_zero hab (hc.mono (Icc_subset_Icc ha.1 hb.2)) hne
      have h1' : u ∈ Ioo p s := ⟨ha.1.trans_lt h1.1, h1.2.trans_le hb.2⟩
      obtain ⟨w, hw, h0⟩ := g u h1'
      rw [(hD u h1' w hw).deriv] at h2
      exact h0 h2
    intro a ha b hb hab
    rcases lt_trichotomy a b with h1 | h1 | h1
    · exact absurd hab (key a ha b hb h1)
    · exact h1
    · exact absurd hab.symm (key b hb a ha h1)

/-- **C94** (bounds). If the derivative is at most `M` in absolute value between `p` and `s`, values of `e` differ by at
most `M` times the distance. -/
theorem C94_bound (M : ℝ) (hM : ∀ u ∈ Ioo p s, ∃ w, denote SmartNum.exactReal (env.set x u) d = some w ∧ |w| ≤ M) :
    |fn SmartNum.exactReal env x e s - fn SmartNum.exactReal env x e p| ≤ M * (s - p) := by
  obtain ⟨u, h1, w, h2, h3⟩ := C94_mean_value m e d he x E hs h env p s hps hd
  obtain ⟨w', h4, h5⟩ := hM u h1
  rw [← h2.1 w' h4] at h3
  rw [h3, abs_mul, abs_of_pos (sub_pos.2 hps)]
  exact mul_le_mul_of_nonneg_right h5 (sub_pos.2 hps).le

/-- **C94** (necessity). Conversely, where `e` grows between `p` and `s` the derivative stands for a number at least 0, where
it falls for one at most 0, and at a local maximum or minimum between `p` and `s` for 0. -/
theorem C94_extremum (u : ℝ) (hu : u ∈ Ioo p s) :
    (MonotoneOn (fn SmartNum.exactReal env x e) (Icc p s) → ∃ w, StandsFor (env.set x u) d w ∧ 0 ≤ w) ∧
    (AntitoneOn (fn SmartNum.exactReal env x e) (Icc p s) → ∃ w, StandsFor (env.set x u) d w ∧ w ≤ 0) ∧
    (IsLocalExtr (fn SmartNum.exactReal env x e) u → StandsFor (env.set x u) d 0) := by
  obtain ⟨w, h1, h2⟩ := hasDerivAt_fn he hs h hd (by rw [uIcc_of_le hps.le]; exact Ioo_subset_Icc_self hu : u ∈ uIcc p s)
  have hn : Icc p s ∈ nhds u := Icc_mem_nhds hu.1 hu.2
  refine ⟨fun g => ⟨w, h2, ?_⟩, fun g => ⟨w, h2, ?_⟩, fun g => ?_⟩
  · have := g.derivWithin_nonneg (x := u)
    rwa [h1.hasDerivWithinAt.derivWithin ((uniqueDiffOn_Icc hps) u (Ioo_subset_Icc_self hu))] at this
  · have := g.derivWithin_nonpos (x := u)
    rwa [h1.hasDerivWithinAt.derivWithin ((uniqueDiffOn_Icc hps) u (Ioo_subset_Icc_self hu))] at this
  · rwa [← g.hasDerivAt_eq_zero h1]

/-- **C94** (integral). If the derivative has a value on the whole segment, its integral from `p` to `s` is the value of `e` at `s`
minus that at `p`. -/
theorem C94_integral (hv : ∀ u ∈ Icc p s, ∃ w, denote SmartNum.exactReal (env.set x u) d = some w) :
    ∫ u in p..s, fn SmartNum.exactReal env x d u = fn SmartNum.exactReal env x e s - fn SmartNum.exactReal env x e p := by
  have hu : ∀ u ∈ uIcc p s, HasDerivAt (fn SmartNum.exactReal env x e) (fn SmartNum.exactReal env x d u) u := by
    intro u hu
    obtain ⟨w, hw⟩ := hv u (by rwa [uIcc_of_le hps.le] at hu)
    have : fn SmartNum.exactReal env x d u = w := by rw [fn, hw]; rfl
    rw [this]
    exact hasDerivAt_of he hs h hd hu hw
  refine intervalIntegral.integral_eq_sub_of_hasDerivAt hu (ContinuousOn.intervalIntegrable ?_)
  have hc : ContinuousOn (deriv (fn SmartNum.exactReal env x e)) (uIcc p s) := fun u h' => by
    obtain ⟨⟨r, hr⟩, hp⟩ := hd u h'
    have h1 : ContDiffAt ℝ 0 (fderiv ℝ (fn SmartNum.exactReal env x e)) u :=
      (contDiffAt_fn he.valid.tree hr hp 1).fderiv_right (by norm_num)
    exact (h1.continuousAt.clm_apply continuousAt_const (g := fun _ => (1 : ℝ))).continuousWithinAt
  exact hc.congr fun u h' => (hu u h').deriv.symm

omit hps hd in
/-- **C94** (same derivative). If the derivatives of `e` and `a` have the same values between `p` and `s`, `e` and `a` differ by
a constant there. -/
theorem C94_same_derivative (a d' : Expr F) (ha : Built m a) (hsa : SafeD SmartNum.exactReal E a)
    (h' : a.derivative .strict x = .ok d') (hps : p < s) (hd : ValueBetween env x p s e) (hd' : ValueBetween env x p s a)
    (hsame : ∀ u ∈ Ioo p s, ∃ w, denote SmartNum.exactReal (env.set x u) d = some w ∧
      denote SmartNum.exactReal (env.set x u) d' = some w) :
    ∃ c, ∀ u ∈ Icc p s, fn SmartNum.exactReal env x e u = fn SmartNum.exactReal env x a u + c := by
  have c1 := cont he hs h hd
  have c2 := cont ha hsa h' hd'
  rw [uIcc_of_le hps.le] at c1 c2
  refine ⟨fn SmartNum.exactReal env x e p - fn SmartNum.exactReal env x a p, fun u hu => ?_⟩
  rcases hu.1.eq_or_lt with rfl | hpu
  · ring
  have hc : ContinuousOn (fn SmartNum.exactReal env x e - fn SmartNum.exactReal env x a) (Icc p u) :=
    (c1.sub c2).mono (Icc_subset_Icc le_rfl hu.2)
  obtain ⟨t, h1, h2⟩ := exists_hasDerivAt_eq_slope _ (fun _ => 0) hpu hc fun t ht => by
    have ht' : t ∈ Ioo p s := ⟨ht.1, ht.2.trans_le hu.2⟩
    have htu : t ∈ uIcc p s := by rw [uIcc_of_le hps.le]; exact Ioo_subset_Icc_self ht'
    obtain ⟨w, w1, w2⟩ := hsame t ht'
    have := (hasDerivAt_of he hs h hd htu w1).sub (hasDerivAt_of ha hsa h' hd' htu w2)
    rwa [sub_self] at this
  rw [eq_comm, div_eq_zero_iff, or_iff_left (sub_ne_zero.2 hpu.ne'), Pi.sub_apply, Pi.sub_apply] at h2
  linarith

end

/-- Non-vacuous: `x * x` and `x * x + 5` on every segment; their derivative is `x + x` in every build, which is positive right
of 0, so both grow there; the minimum of `x * x` is at 0, and its values at 0 < p < s differ by at most 2 s (s - p). -/
theorem C94_instance (env : Env) :
    let x : Expr F := newVariable "x"
    let e := x.mul x
    let a := e.add (ofI64 5)
    Built .debug e ∧ Built .debug a ∧ SafeD SmartNum.exactReal Set.univ e ∧ SafeD SmartNum.exactReal Set.univ a ∧
    e.derivative .strict ⟨"x"⟩ = .ok (x.add x) ∧ a.derivative .strict ⟨"x"⟩ = .ok (x.add x) ∧
    (∀ p s, ValueBetween env ⟨"x"⟩ p s e ∧ ValueBetween env ⟨"x"⟩ p s a) ∧
    (∀ u, denote SmartNum.exactReal (env.set ⟨"x"⟩ u) (x.add x) = some (u + u)) ∧
    IsLocalExtr (fn SmartNum.exactReal env ⟨"x"⟩ e) 0 ∧
    (∀ p s : ℝ, 0 ≤ p → p < s → StrictMonoOn (fn SmartNum.exactReal env ⟨"x"⟩ a) (Icc p s) ∧
      |fn SmartNum.exactReal env ⟨"x"⟩ a s - fn SmartNum.exactReal env ⟨"x"⟩ a p| ≤ 2 * s * (s - p)) := by
  intro x e a
  have hx : x = ofVar ⟨"x"⟩ := rfl
  have vx : ∀ t : ℝ, denote SmartNum.exactReal (env.set ⟨"x"⟩ t) x = some t := fun t => by rw [hx]; simp
  have v5 : ∀ t : ℝ, denote SmartNum.exactReal (env.set ⟨"x"⟩ t) (ofI64 5 : Expr F) = some 5 := fun t => by
    rw [denote_int]; simp [show (5 : Int64).toInt = 5 by decide]
  have be : Built .debug e := .mul _ _ (.var _) (.var _)
  have ba : Built .debug a := .add _ _ be (.num _ (.ofI64 5))
  have se : SafeD SmartNum.exactReal Set.univ e := safeD_mul.2 ⟨safeD_ofVar _, safeD_ofVar _⟩
  have sa : SafeD SmartNum.exactReal Set.univ a := safeD_add.2 ⟨se, safeD_ofNum _⟩
  have de : e.derivative .strict ⟨"x"⟩ = .ok (x.add x) := by krfl
  have da : a.derivative .strict ⟨"x"⟩ = .ok (x.add x) := by krfl
  have ve : ∀ t, denote SmartNum.exactReal (env.set ⟨"x"⟩ t) e = some (t * t) := fun t => denote_mul.2 ⟨t, t, vx t, vx t, rfl⟩
  have va : ∀ t, denote SmartNum.exactReal (env.set ⟨"x"⟩ t) a = some (t * t + 5) := fun t => denote_add.2 ⟨_, _, ve t, v5 t, rfl⟩
  have vd : ∀ t, denote SmartNum.exactReal (env.set ⟨"x"⟩ t) (x.add x) = some (t + t) := fun t => denote_add.2 ⟨t, t, vx t, vx t, rfl⟩
  have pe : ∀ env, PowOK SmartNum.exactReal env ⟨"x"⟩ e := fun _ => powAll_mul.2 ⟨powAll_ofVar _, powAll_ofVar _⟩
  have pa : ∀ env, PowOK SmartNum.exactReal env ⟨"x"⟩ a := fun _ => powAll_add.2 ⟨pe _, powAll_ofNum _⟩
  have hv : ∀ p s, ValueBetween env ⟨"x"⟩ p s e ∧ ValueBetween env ⟨"x"⟩ p s a := fun p s =>
    ⟨fun u _ => ⟨⟨_, ve u⟩, pe _⟩, fun u _ => ⟨⟨_, va u⟩, pa _⟩⟩
  refine ⟨be, ba, se, sa, de, da, hv, vd, .inl (Filter.Eventually.of_forall fun t => ?_), fun p s h0 hps => ⟨?_, ?_⟩⟩
  · simp only [fn, ve, Option.getD_some]
    nlinarith [mul_self_nonneg t]
  · refine (C94_growth .debug a _ ba ⟨"x"⟩ _ sa da env p s hps (hv p s).2).2.2.1 fun u hu => ⟨_, vd u, ?_⟩
    linarith [hu.1]
  · refine C94_bound .debug a _ ba ⟨"x"⟩ _ sa da env p s hps (hv p s).2 _ fun u hu => ⟨_, vd u, ?_⟩
    rw [abs_of_nonneg (by linarith [hu.1])]
    linarith [hu.2]

end SymRust
