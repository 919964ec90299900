import Verif.Props.Curvature
/-! # Zeros of an expression and its derivatives: property C99 -/

namespace SymRust
variable {F : Type} [FloatOps F]
open Expr Set
open Growth

section
variable (m : Mode) (e d : Expr F) (he : Built m e) (x : Variable) (E : Set Env) (hs : SafeD SmartNum.exactReal E e)
  (h : e.derivative .strict x = .ok d) (env : Env) (p s : ℝ) (hps : p < s) (hd : ValueBetween env x p s e)

include he hd hps

/-- **C99** (existence). If `e` has a value at most `c` at one end of the segment and at least `c` at the other, it has the value `c`
somewhere on it. -/
theorem C99_exists (c : ℝ) (a b : ℝ) (ha : a ∈ Icc p s) (hb : b ∈ Icc p s)
    (h1 : ∃ w, denote SmartNum.exactReal (env.set x a) e = some w ∧ w ≤ c)
    (h2 : ∃ w, denote SmartNum.exactReal (env.set x b) e = some w ∧ c ≤ w) :
    ∃ u ∈ uIcc a b, denote SmartNum.exactReal (env.set x u) e = some c := by
  obtain ⟨v, hv, hvc⟩ := h1
  obtain ⟨w, hw, hwc⟩ := h2
  have hsub : uIcc a b ⊆ Icc p s := by
    rw [← uIcc_of_le hps.le] at ha hb ⊢
    exact uIcc_subset_uIcc ha hb
  have hc : ContinuousOn (fn SmartNum.exactReal env x e) (uIcc a b) := fun u hu =>
    (smooth m e he x env p s hd hps (hsub hu) 0).continuousAt.continuousWithinAt
  obtain ⟨u, hu, g⟩ := intermediate_value_uIcc hc (show c ∈ uIcc (fn SmartNum.exactReal env x e a) (fn SmartNum.exactReal env x e b) by
    rw [fn, fn, hv, hw]; exact Icc_subset_uIcc ⟨hvc, hwc⟩)
  obtain ⟨⟨r, hr⟩, -⟩ := hd u (by rw [uIcc_of_le hps.le]; exact hsub hu)
  refine ⟨u, hu, ?_⟩
  rw [fn, hr] at g
  rw [hr, ← g]; rfl

include hs h

/-- **C99** (exactly one). If moreover the derivative is never 0 between the ends, there is exactly one such place. -/
theorem C99_unique (c : ℝ) (a b : ℝ) (ha : a ∈ Icc p s) (hb : b ∈ Icc p s)
    (h1 : ∃ w, denote SmartNum.exactReal (env.set x a) e = some w ∧ w ≤ c)
    (h2 : ∃ w, denote SmartNum.exactReal (env.set x b) e = some w ∧ c ≤ w)
    (h0 : ∀ u ∈ Ioo p s, ∃ w, denote SmartNum.exactReal (env.set x u) d = some w ∧ w ≠ 0) :
    ∃! u, u ∈ Icc p s ∧ denote SmartNum.exactReal (env.set x u) e = some c := by
  obtain ⟨u, hu, g⟩ := C99_exists m e he x env p s hps hd c a b ha hb h1 h2
  have hsub : uIcc a b ⊆ Icc p s := by
    rw [← uIcc_of_le hps.le] at ha hb ⊢
    exact uIcc_subset_uIcc ha hb
  refine ⟨u, ⟨hsub hu, g⟩, fun u' ⟨hu', g'⟩ => ?_⟩
  have hinj := (C94_growth m e d he x E hs h env p s hps hd).2.2.2.2.2 h0
  exact hinj hu' (hsub hu) (by rw [fn, fn, g, g'])

/-- **C99** (how far). If the derivative is at least `M` > 0 in absolute value, a place where `e` has the value `w` is at most |w| / M away from
every zero of `e` on the segment. -/
theorem C99_distance (M : ℝ) (hM : 0 < M) (a u w : ℝ) (ha : a ∈ Icc p s) (hu : u ∈ Icc p s)
    (hw : denote SmartNum.exactReal (env.set x a) e = some w) (hz : denote SmartNum.exactReal (env.set x u) e = some 0)
    (h0 : ∀ u ∈ Ioo p s, ∃ w, denote SmartNum.exactReal (env.set x u) d = some w ∧ M ≤ |w|) : |a - u| ≤ |w| / M := by
  rw [le_div_iff₀ hM]
  rcases eq_or_ne a u with rfl | hne
  · simp
  have key : ∀ a b : ℝ, a ∈ Icc p s → b ∈ Icc p s → a < b →
      |a - b| * M ≤ |fn SmartNum.exactReal env x e b - fn SmartNum.exactReal env x e a| := by
    intro a b ha hb hab
    have hab' : ValueBetween env x a b e := fun t ht => hd t (by
      rw [uIcc_of_le hab.le] at ht
      rw [uIcc_of_le hps.le]; exact Icc_subset_Icc ha.1 hb.2 ht)
    obtain ⟨t, ht, w, h2, h3⟩ := C94_mean_value m e d he x E hs h env a b hab hab'
    obtain ⟨w', h4, h5⟩ := h0 t ⟨ha.1.trans_lt ht.1, ht.2.trans_le hb.2⟩
    obtain rfl := h2.1 w' h4
    rw [h3, abs_mul, abs_sub_comm a b, mul_comm]
    exact mul_le_mul_of_nonneg_right h5 (abs_nonneg _)
  rcases lt_or_gt_of_ne hne with hl | hl
  · have := key a u ha hu hl
    rwa [fn, fn, hz, hw, Option.getD_some, Option.getD_some, zero_sub, abs_neg] at this
  · have := key u a hu ha hl
    rwa [fn, fn, hz, hw, Option.getD_some, Option.getD_some, sub_zero, abs_sub_comm] at this

/-- **C99** (Newton's step). Let `dd` be the derivative of `d`, at most `B` in absolute value on the segment. From a place `a` where `e` and `d`
have the values `w` and `w'`, |w'| at least M > 0, Newton's step a - w / w' comes as close to every zero u of `e` as B / (2 M) times (a - u)²: the
number of right digits doubles. -/
theorem C99_newton (dd : Expr F) (h2 : d.derivative .strict x = .ok dd) (B M : ℝ) (hM : 0 < M) (a u w w' : ℝ) (ha : a ∈ Icc p s)
    (hu : u ∈ Icc p s) (hw : denote SmartNum.exactReal (env.set x a) e = some w)
    (hw' : denote SmartNum.exactReal (env.set x a) d = some w') (hMw : M ≤ |w'|)
    (hz : denote SmartNum.exactReal (env.set x u) e = some 0)
    (hB : ∀ t ∈ Ioo p s, ∃ v, denote SmartNum.exactReal (env.set x t) dd = some v ∧ |v| ≤ B) :
    |(a - w / w') - u| ≤ B / (2 * M) * (a - u) ^ 2 := by
  have hw0 : w' ≠ 0 := fun h => by rw [h, abs_zero] at hMw; linarith
  rcases eq_or_ne a u with rfl | hne
  · rw [hw] at hz
    rw [Option.some.inj hz]; simp
  have hsub : uIcc a u ⊆ Icc p s := by
    rw [← uIcc_of_le hps.le] at ha hu ⊢
    exact uIcc_subset_uIcc ha hu
  have hc : ContDiffOn ℝ ((1 : ℕ) + 1) (fn SmartNum.exactReal env x e) (uIcc a u) := fun t ht => by
    exact_mod_cast (smooth m e he x env p s hd hps (hsub ht) 2).contDiffWithinAt
  obtain ⟨t, ht, g⟩ := taylor_mean_remainder_lagrange_iteratedDeriv hne hc
  have hto : t ∈ Ioo p s := by
    have h1 : a ⊓ u < t := ht.1
    have h3 : t < a ⊔ u := ht.2
    exact ⟨(le_inf ha.1 hu.1).trans_lt h1, h3.trans_le (sup_le ha.2 hu.2)⟩
  obtain ⟨v, hv, hvB⟩ := hB t hto
  have e2 : v = iteratedDeriv (1 + 1) (fn SmartNum.exactReal env x e) t :=
    (stands m e he x E hs env p s hd (twice e x d dd h h2) hps (Ioo_subset_Icc_self hto)).1 v hv
  have e1 : HasDerivAt (fn SmartNum.exactReal env x e) w' a :=
    hasDerivAt_of he hs h hd (by rwa [uIcc_of_le hps.le]) hw'
  have hT : taylorWithinEval (fn SmartNum.exactReal env x e) 1 (uIcc a u) a u = w + w' * (u - a) := by
    rw [taylorWithinEval_succ, taylor_within_zero_eval, iteratedDerivWithin_one,
      e1.hasDerivWithinAt.derivWithin (uniqueDiffOn_uIcc hne a left_mem_uIcc), fn, hw]
    simp; ring
  rw [hT, ← e2, fn, hz, Option.getD_some] at g
  have hN : (a - w / w') - u = v / (2 * w') * (a - u) ^ 2 := by
    have : w = -(w' * (u - a)) - v * (u - a) ^ 2 / 2 := by
      norm_num [Nat.factorial] at g
      linarith
    rw [this]
    field_simp
    ring
  have hB0 : 0 ≤ B := (abs_nonneg v).trans hvB
  rw [hN, abs_mul, abs_of_nonneg (sq_nonneg (a - u)), abs_div, abs_mul, abs_two]
  gcongr

end

/-- Non-vacuous: x * x - 2, written x * x + (-2), has the derivatives x + x and 2, so exactly one zero between 1 and 2; 3/2, where its value is
1/4, is at most 1/8 away from it, and Newton's step from there, to 17/12, is at most a third of the square of that away. -/
theorem C99_instance (env : Env) :
    let x : Expr F := newVariable "x"
    let e := (x.mul x).add (ofI64 (-2))
    Built .debug e ∧ SafeD SmartNum.exactReal Set.univ e ∧
    e.derivative .strict ⟨"x"⟩ = .ok (x.add x) ∧ (x.add x).derivative .strict ⟨"x"⟩ = .ok (ofI64 2) ∧
    (∀ p s, ValueBetween env ⟨"x"⟩ p s e) ∧
    ∃! u, (u ∈ Icc (1 : ℝ) 2 ∧ denote SmartNum.exactReal (env.set ⟨"x"⟩ u) e = some 0) ∧
      |3 / 2 - u| ≤ 1 / 8 ∧ |17 / 12 - u| ≤ 1 / 3 * (3 / 2 - u) ^ 2 := by
  intro x e
  have hx : x = ofVar ⟨"x"⟩ := rfl
  have vx : ∀ t : ℝ, denote SmartNum.exactReal (env.set ⟨"x"⟩ t) x = some t := fun t => by rw [hx]; simp
  have v2 : ∀ t : ℝ, denote SmartNum.exactReal (env.set ⟨"x"⟩ t) (ofI64 (-2) : Expr F) = some (-2) := fun t => by
    rw [denote_int]; simp [show (-2 : Int64).toInt = -2 by decide]
  have v2' : ∀ t : ℝ, denote SmartNum.exactReal (env.set ⟨"x"⟩ t) (ofI64 2 : Expr F) = some 2 := fun t => by
    rw [denote_int]; simp [show (2 : Int64).toInt = 2 by decide]
  have be : Built .debug e := .add _ _ (.mul _ _ (.var _) (.var _)) (.num _ (.ofI64 (-2)))
  have se : SafeD SmartNum.exactReal Set.univ e := safeD_add.2 ⟨safeD_mul.2 ⟨safeD_ofVar _, safeD_ofVar _⟩, safeD_ofNum _⟩
  have pe : ∀ env, PowOK SmartNum.exactReal env ⟨"x"⟩ e := fun _ =>
    powAll_add.2 ⟨powAll_mul.2 ⟨powAll_ofVar _, powAll_ofVar _⟩, powAll_ofNum _⟩
  have de : e.derivative .strict ⟨"x"⟩ = .ok (x.add x) := by krfl
  have dd : (x.add x).derivative .strict ⟨"x"⟩ = .ok (ofI64 2) := by krfl
  have ve : ∀ t, denote SmartNum.exactReal (env.set ⟨"x"⟩ t) e = some (t * t + -2) := fun t =>
    denote_add.2 ⟨_, _, denote_mul.2 ⟨t, t, vx t, vx t, rfl⟩, v2 t, rfl⟩
  have vd : ∀ t, denote SmartNum.exactReal (env.set ⟨"x"⟩ t) (x.add x) = some (t + t) := fun t =>
    denote_add.2 ⟨t, t, vx t, vx t, rfl⟩
  have hv : ∀ p s, ValueBetween env ⟨"x"⟩ p s e := fun p s u _ => ⟨⟨_, ve u⟩, pe _⟩
  refine ⟨be, se, de, dd, hv, ?_⟩
  have h12 : (1 : ℝ) < 2 := by norm_num
  obtain ⟨u, ⟨hu, hz⟩, huniq⟩ := C99_unique .debug e _ be ⟨"x"⟩ _ se de env 1 2 h12 (hv 1 2) 0 1 2 ⟨le_rfl, h12.le⟩ ⟨h12.le, le_rfl⟩
    ⟨_, ve 1, by norm_num⟩ ⟨_, ve 2, by norm_num⟩ fun u hu => ⟨_, vd u, by linarith [hu.1]⟩
  refine ⟨u, ⟨⟨hu, hz⟩, ?_, ?_⟩, fun u' h' => huniq u' h'.1⟩
  · refine (C99_distance .debug e _ be ⟨"x"⟩ _ se de env 1 2 h12 (hv 1 2) 2 (by norm_num) (3 / 2) u _ ⟨by norm_num, by norm_num⟩ hu
      (ve _) hz fun t ht => ⟨_, vd t, ?_⟩).trans (by norm_num)
    rw [abs_of_pos (by linarith [ht.1])]; linarith [ht.1]
  · have := C99_newton .debug e _ be ⟨"x"⟩ _ se de env 1 2 h12 (hv 1 2) _ dd 2 3 (by norm_num) (3 / 2) u _ _
      ⟨by norm_num, by norm_num⟩ hu (ve _) (vd _) (by norm_num) hz fun t _ => ⟨2, v2' t, by norm_num⟩
    norm_num at this
    norm_num
    exact this

end SymRust
