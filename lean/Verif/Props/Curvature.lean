import Verif.Props.Monotone
import Verif.Props.LimitSem
import Mathlib.Analysis.Convex.Deriv
/-! # What higher derivatives tell about an expression: property C97 -/

namespace SymRust
variable {F : Type} [FloatOps F]
open Expr Set

namespace Growth

theorem nthDerivative_up {m : Mode} {x : Variable} {e : Expr F} (he : WF SmartNum.Valid e) (k : Nat) {d : Expr F}
    (h : nthDerivative m e x k = .ok d) :
    ∃ d', nthDerivative m e.lift x k = .ok d' ∧ d'.map Prod.fst = d ∧ WF SmartNum.Valid d' := by
  induction k generalizing d with
  | zero => cases h; exact ⟨_, rfl, map_lift he, wf_lift he⟩
  | succ k ih =>
    obtain ⟨d1, h1, h2⟩ := Out.bind_eq_ok.1 h
    obtain ⟨d1', i1, i2, i3⟩ := ih h1
    have := derivative_map fstHom m x i3.tree
    rw [i2, h2] at this
    obtain ⟨d', g1, g2⟩ := (Out.bimap_eq_ok _ _).1 this.symm
    refine ⟨d', ?_, g2, (der_of_derivative i3.tree g1).wf (numClosed_valid m) i3⟩
    rw [nthDerivative, i1]; exact g1

theorem contDiffAt_iteratedDeriv {f : ℝ → ℝ} {u : ℝ} (h : ∀ n : ℕ, ContDiffAt ℝ n f u) (j n : ℕ) :
    ContDiffAt ℝ n (iteratedDeriv j f) u := by
  induction j generalizing n with
  | zero => simpa using h n
  | succ j ih =>
    rw [iteratedDeriv_succ]
    have h1 : ContDiffAt ℝ n (fderiv ℝ (iteratedDeriv j f)) u := (ih (n + 1)).fderiv_right (by norm_cast)
    exact h1.clm_apply contDiffAt_const (g := fun _ => (1 : ℝ))

theorem hasDerivAt_iteratedDeriv {f : ℝ → ℝ} {u : ℝ} (h : ∀ n : ℕ, ContDiffAt ℝ n f u) (j : ℕ) :
    HasDerivAt (iteratedDeriv j f) (iteratedDeriv (j + 1) f u) u := by
  rw [iteratedDeriv_succ]
  exact ((contDiffAt_iteratedDeriv h j 1).differentiableAt (by norm_num)).hasDerivAt

/-- Rolle's theorem, `k` times. -/
theorem rolle (k : ℕ) : ∀ (G : ℕ → ℝ → ℝ) (t : ℕ → ℝ),
    (∀ j < k, ∀ u ∈ Icc (t 0) (t k), HasDerivAt (G j) (G (j + 1) u) u) → (∀ i < k, t i < t (i + 1)) →
    (∀ i ≤ k, G 0 (t i) = 0) → ∃ u ∈ Icc (t 0) (t k), (0 < k → u ∈ Ioo (t 0) (t k)) ∧ G k u = 0 := by
  induction k with
  | zero => intro G t _ _ h0; exact ⟨t 0, ⟨le_rfl, le_rfl⟩, fun h => absurd h (lt_irrefl 0), h0 0 le_rfl⟩
  | succ k ih =>
    intro G t hG ht h0
    have hmono : ∀ i j, i ≤ j → j ≤ k + 1 → t i ≤ t j := by
      intro i j hij
      induction j, hij using Nat.le_induction with
      | base => intro _; exact le_rfl
      | succ j _ ihj => intro hj; exact (ihj (by omega)).trans (ht j (by omega)).le
    have hin : ∀ i ≤ k, ∃ u ∈ Ioo (t i) (t (i + 1)), G 1 u = 0 := by
      intro i hi
      have hsub : Icc (t i) (t (i + 1)) ⊆ Icc (t 0) (t (k + 1)) :=
        Icc_subset_Icc (hmono _ _ (Nat.zero_le _) (by omega)) (hmono _ _ (by omega) le_rfl)
      exact exists_hasDerivAt_eq_zero (ht i (by omega))
        (fun u hu => (hG 0 (by omega) u (hsub hu)).continuousAt.continuousWithinAt)
        (by rw [h0 i (by omega), h0 (i + 1) (by omega)])
        fun u hu => hG 0 (by omega) u (hsub (Ioo_subset_Icc_self hu))
    choose! t' ht' h0' using hin
    have hsub : Icc (t' 0) (t' k) ⊆ Icc (t 0) (t (k + 1)) :=
      Icc_subset_Icc (ht' 0 (Nat.zero_le _)).1.le ((ht' k le_rfl).2.le)
    obtain ⟨u, hu, -, h⟩ := ih (fun j => G (j + 1)) t' (fun j hj u hu => hG (j + 1) (by omega) u (hsub hu))
      (fun i hi => (ht' i (by omega)).2.trans (ht' (i + 1) (by omega)).1) h0'
    exact ⟨u, hsub hu, fun _ => ⟨(ht' 0 (Nat.zero_le _)).1.trans_le hu.1, hu.2.trans_lt (ht' k le_rfl).2⟩, h⟩

end Growth
open Growth

/-- **C97** (derivatives of derivatives). Where `e` has a value, what `derivative` returns when it is called `k` times in a
row stands for the k-th derivative. -/
theorem C97_repeated (m : Mode) (e d : Expr F) (he : Built m e) (x : Variable) (E : Set Env)
    (hs : SafeD SmartNum.exactReal E e) (k : Nat) (h : nthDerivative .strict e x k = .ok d) (env : Env) (r : ℝ)
    (hr : denote SmartNum.exactReal env e = some r) (hp : PowOK SmartNum.exactReal env x e) :
    StandsFor env d (iteratedDeriv k (fn SmartNum.exactReal env x e) (env x)) := by
  obtain ⟨d', h1, rfl, h2⟩ := nthDerivative_up he.valid k h
  have hsl := hs.lift (E' := E) subset_rfl he.valid.tree
  have := (nthDerivative_value (wf_lift he.valid) hsl (denote_lift he.valid.tree hr) (hp.lift he.valid.tree) k h1).self_of_nhds
  rw [Env.set_self, fn_lift he.valid hr] at this
  exact denote_down h2 this

section
variable (m : Mode) (e : Expr F) (he : Built m e) (x : Variable) (E : Set Env) (hs : SafeD SmartNum.exactReal E e)
  (env : Env) (p s : ℝ) (hps : p < s) (hd : ValueBetween env x p s e)

include he hd in
theorem Growth.smooth (hps : p < s) {u : ℝ} (hu : u ∈ Icc p s) (n : ℕ) :
    ContDiffAt ℝ n (fn SmartNum.exactReal env x e) u := by
  obtain ⟨⟨r, hr⟩, hp⟩ := hd u (by rwa [uIcc_of_le hps.le])
  exact contDiffAt_fn he.valid.tree hr hp n

include he hs hd in
theorem Growth.stands {k : ℕ} {d : Expr F} (h : nthDerivative .strict e x k = .ok d) (hps : p < s) {u : ℝ} (hu : u ∈ Icc p s) :
    StandsFor (env.set x u) d (iteratedDeriv k (fn SmartNum.exactReal env x e) u) := by
  obtain ⟨⟨r, hr⟩, hp⟩ := hd u (by rwa [uIcc_of_le hps.le])
  have := C97_repeated m e d he x E hs k h _ r hr hp
  rwa [Env.set_same, show fn SmartNum.exactReal (env.set x u) x e = fn SmartNum.exactReal env x e from by
    funext t; unfold fn; rw [Env.set_set]] at this

include he hs hps hd

/-- **C97** (few zeros). If the k-th derivative is never 0 between `p` and `s`, `e` takes no value more than `k` times there. -/
theorem C97_few_zeros (k : Nat) (d : Expr F) (h : nthDerivative .strict e x k = .ok d)
    (h0 : ∀ u ∈ Ioo p s, ∃ w, denote SmartNum.exactReal (env.set x u) d = some w ∧ w ≠ 0) (c : ℝ) (hk : 1 ≤ k) :
    {u | u ∈ Icc p s ∧ denote SmartNum.exactReal (env.set x u) e = some c}.encard ≤ k := by
  by_contra hlt
  rw [not_le] at hlt
  obtain ⟨S, hS, hcard⟩ := Set.exists_subset_encard_eq (k := ((k + 1 : ℕ) : ℕ∞)) (by
    rw [Nat.cast_add, Nat.cast_one]; exact Order.add_one_le_of_lt hlt)
  have hfin : S.Finite := Set.finite_of_encard_eq_coe hcard
  obtain ⟨T, rfl⟩ := hfin.exists_finset_coe
  rw [Set.encard_coe_eq_coe_finsetCard] at hcard
  have hT : T.card = k + 1 := by exact_mod_cast hcard
  let t : ℕ → ℝ := fun i => if hi : i < k + 1 then T.orderEmbOfFin hT ⟨i, hi⟩ else 0
  have htT : ∀ i ≤ k, t i ∈ T := fun i hi => by
    simp only [t, dif_pos (show i < k + 1 by omega)]
    exact Finset.orderEmbOfFin_mem _ _ _
  have hmem : ∀ i ≤ k, t i ∈ Icc p s ∧ denote SmartNum.exactReal (env.set x (t i)) e = some c := fun i hi => hS (htT i hi)
  have hsub : Icc (t 0) (t k) ⊆ Icc p s := Icc_subset_Icc (hmem 0 (Nat.zero_le _)).1.1 (hmem k le_rfl).1.2
  obtain ⟨u, hu, huo, hz⟩ := rolle k (fun j => if j = 0 then fun u => fn SmartNum.exactReal env x e u - c else
      iteratedDeriv j (fn SmartNum.exactReal env x e)) t
    (fun j hj u hu => by
      have := hasDerivAt_iteratedDeriv (fun n => smooth m e he x env p s hd hps (hsub hu) n) j
      by_cases hj0 : j = 0
      · subst hj0
        simp only [if_true, zero_add, one_ne_zero, if_false]
        rw [iteratedDeriv_zero] at this
        exact this.sub_const c
      · simp only [if_neg hj0, if_neg (Nat.succ_ne_zero j)]
        exact this)
    (fun i hi => by
      simp only [t, dif_pos (show i < k + 1 by omega), dif_pos (show i + 1 < k + 1 by omega)]
      exact (T.orderEmbOfFin hT).strictMono (by simp))
    (fun i hi => by
      rw [if_pos rfl, fn, (hmem i hi).2]; simp)
  rw [if_neg (by omega)] at hz
  have huo := huo hk
  obtain ⟨w, hw, hw0⟩ := h0 u ⟨(hmem 0 (Nat.zero_le _)).1.1.trans_lt huo.1, huo.2.trans_le (hmem k le_rfl).1.2⟩
  exact hw0 (((stands m e he x E hs env p s hd h hps (hsub hu)).1 w hw).trans hz)

/-- **C97** (polynomials). If the k-th derivative, k at least 1, is 0 between `p` and `s`, the values of `e` there are those of a
polynomial of degree less than `k`. -/
theorem C97_polynomial (k : Nat) (d : Expr F) (h : nthDerivative .strict e x k = .ok d)
    (h0 : ∀ u ∈ Ioo p s, denote SmartNum.exactReal (env.set x u) d = some 0) (hk : 1 ≤ k) :
    ∃ y : ℕ → ℝ, ∀ t ∈ Icc p s, fn SmartNum.exactReal env x e t = ∑ j ∈ Finset.range k, y j * (t - p) ^ j := by
  obtain ⟨n, rfl⟩ : ∃ n, k = n + 1 := ⟨k - 1, by omega⟩
  refine ⟨fun j => iteratedDeriv j (fn SmartNum.exactReal env x e) p / (j.factorial : ℝ), fun t ht => ?_⟩
  rcases ht.1.eq_or_lt with rfl | hpt
  · rw [Finset.sum_range_succ', Finset.sum_eq_zero (fun j _ => by simp)]
    simp
  have hsub : uIcc p t ⊆ Icc p s := by rw [uIcc_of_le hpt.le]; exact Icc_subset_Icc le_rfl ht.2
  have hc : ContDiffOn ℝ (n + 1) (fn SmartNum.exactReal env x e) (uIcc p t) := fun u hu => by
    exact_mod_cast (smooth m e he x env p s hd hps (hsub hu) (n + 1)).contDiffWithinAt
  obtain ⟨u, hu, h1⟩ := taylor_mean_remainder_lagrange_iteratedDeriv hpt.ne hc
  have huo : u ∈ Ioo p s := by
    rw [uIoo_of_lt hpt] at hu
    exact ⟨hu.1, hu.2.trans_le ht.2⟩
  rw [← (stands m e he x E hs env p s hd h hps (Ioo_subset_Icc_self huo)).1 0 (h0 u huo), zero_mul, zero_div, sub_eq_zero] at h1
  rw [h1, taylor_within_apply]
  refine Finset.sum_congr rfl fun j hj => ?_
  rw [iteratedDerivWithin_eq_iteratedDeriv (uniqueDiffOn_uIcc hpt.ne) (smooth m e he x env p s hd hps ⟨le_rfl, hps.le⟩ j)
    left_mem_uIcc, smul_eq_mul]
  ring

variable (d dd : Expr F) (h : e.derivative .strict x = .ok d) (h2 : d.derivative .strict x = .ok dd)

include h h2

omit hps hs hd he in
theorem Growth.twice : nthDerivative .strict e x 2 = .ok dd := by
  have h1 : nthDerivative .strict e x 1 = .ok d := by rw [nthDerivative, nthDerivative]; exact h
  rw [nthDerivative, h1]; exact h2

/-- **C97** (curvature). If the second derivative is at least 0 between `p` and `s`, the curve of `e` lies below its chords
there, if at most 0 above them, strictly if it is positive or negative. -/
theorem C97_curvature :
    ((∀ u ∈ Ioo p s, ∃ w, denote SmartNum.exactReal (env.set x u) dd = some w ∧ 0 ≤ w) →
      ConvexOn ℝ (Icc p s) (fn SmartNum.exactReal env x e)) ∧
    ((∀ u ∈ Ioo p s, ∃ w, denote SmartNum.exactReal (env.set x u) dd = some w ∧ w ≤ 0) →
      ConcaveOn ℝ (Icc p s) (fn SmartNum.exactReal env x e)) ∧
    ((∀ u ∈ Ioo p s, ∃ w, denote SmartNum.exactReal (env.set x u) dd = some w ∧ 0 < w) →
      StrictConvexOn ℝ (Icc p s) (fn SmartNum.exactReal env x e)) ∧
    ((∀ u ∈ Ioo p s, ∃ w, denote SmartNum.exactReal (env.set x u) dd = some w ∧ w < 0) →
      StrictConcaveOn ℝ (Icc p s) (fn SmartNum.exactReal env x e)) := by
  have hc : ContinuousOn (fn SmartNum.exactReal env x e) (Icc p s) := fun u hu =>
    (smooth m e he x env p s hd hps hu 0).continuousAt.continuousWithinAt
  have hi : interior (Icc p s) = Ioo p s := interior_Icc
  have hsm : ∀ u ∈ interior (Icc p s), ∀ n : ℕ, ContDiffAt ℝ n (fn SmartNum.exactReal env x e) u := fun u hu n =>
    smooth m e he x env p s hd hps (interior_subset hu) n
  have d1 : DifferentiableOn ℝ (fn SmartNum.exactReal env x e) (interior (Icc p s)) := fun u hu => by
    have := hasDerivAt_iteratedDeriv (hsm u hu) 0
    rw [iteratedDeriv_zero] at this
    exact this.differentiableAt.differentiableWithinAt
  have d2 : DifferentiableOn ℝ (deriv (fn SmartNum.exactReal env x e)) (interior (Icc p s)) := fun u hu => by
    have := hasDerivAt_iteratedDeriv (hsm u hu) 1
    rw [iteratedDeriv_one] at this
    exact this.differentiableAt.differentiableWithinAt
  have hv : ∀ u ∈ interior (Icc p s), ∀ w, denote SmartNum.exactReal (env.set x u) dd = some w →
      deriv^[2] (fn SmartNum.exactReal env x e) u = w := fun u hu w hw => by
    rw [← iteratedDeriv_eq_iterate]
    exact ((stands m e he x E hs env p s hd (twice e x d dd h h2) hps (interior_subset hu)).1 w hw).symm
  refine ⟨fun g => convexOn_of_deriv2_nonneg (convex_Icc _ _) hc d1 d2 fun u hu => ?_,
    fun g => concaveOn_of_deriv2_nonpos (convex_Icc _ _) hc d1 d2 fun u hu => ?_,
    fun g => strictConvexOn_of_deriv2_pos (convex_Icc _ _) hc fun u hu => ?_,
    fun g => strictConcaveOn_of_deriv2_neg (convex_Icc _ _) hc fun u hu => ?_⟩ <;>
  · obtain ⟨w, hw, hw0⟩ := g u (by rwa [hi] at hu)
    rw [hv u hu w hw]; exact hw0

/-- **C97** (tangents). If the second derivative is at least 0 between `p` and `s`, the curve of `e` lies above each tangent, whose
slope is what the first derivative stands for; if at most 0, below. -/
theorem C97_tangent (u : ℝ) (hu : u ∈ Icc p s) : ∃ w, StandsFor (env.set x u) d w ∧
    ((∀ u ∈ Ioo p s, ∃ w, denote SmartNum.exactReal (env.set x u) dd = some w ∧ 0 ≤ w) →
      ∀ t ∈ Icc p s, fn SmartNum.exactReal env x e u + w * (t - u) ≤ fn SmartNum.exactReal env x e t) ∧
    ((∀ u ∈ Ioo p s, ∃ w, denote SmartNum.exactReal (env.set x u) dd = some w ∧ w ≤ 0) →
      ∀ t ∈ Icc p s, fn SmartNum.exactReal env x e t ≤ fn SmartNum.exactReal env x e u + w * (t - u)) := by
  obtain ⟨w, h1, h3⟩ := hasDerivAt_fn he hs h hd (by rwa [uIcc_of_le hps.le] : u ∈ uIcc p s)
  obtain ⟨c1, c2, -, -⟩ := C97_curvature m e he x E hs env p s hps hd d dd h h2
  refine ⟨w, h3, fun g t ht => ?_, fun g t ht => ?_⟩
  · rcases lt_trichotomy u t with hlt | rfl | hlt
    · have := (c1 g).le_slope_of_hasDerivAt hu ht hlt h1
      rw [slope_def_field, le_div_iff₀ (sub_pos.2 hlt)] at this
      linarith
    · simp
    · have := (c1 g).slope_le_of_hasDerivAt ht hu hlt h1
      rw [slope_def_field, div_le_iff₀ (sub_pos.2 hlt)] at this
      linarith
  · rcases lt_trichotomy u t with hlt | rfl | hlt
    · have := (c2 g).slope_le_of_hasDerivAt hu ht hlt h1
      rw [slope_def_field, div_le_iff₀ (sub_pos.2 hlt)] at this
      linarith
    · simp
    · have := (c2 g).le_slope_of_hasDerivAt ht hu hlt h1
      rw [slope_def_field, le_div_iff₀ (sub_pos.2 hlt)] at this
      linarith

/-- **C97** (critical places). So a place of the segment where the first derivative is 0 is the minimum of `e` on the segment
if the second derivative is at least 0 there, the maximum if at most 0. -/
theorem C97_critical (u : ℝ) (hu : u ∈ Icc p s) (h0 : denote SmartNum.exactReal (env.set x u) d = some 0) :
    ((∀ u ∈ Ioo p s, ∃ w, denote SmartNum.exactReal (env.set x u) dd = some w ∧ 0 ≤ w) →
      IsMinOn (fn SmartNum.exactReal env x e) (Icc p s) u) ∧
    ((∀ u ∈ Ioo p s, ∃ w, denote SmartNum.exactReal (env.set x u) dd = some w ∧ w ≤ 0) →
      IsMaxOn (fn SmartNum.exactReal env x e) (Icc p s) u) := by
  obtain ⟨w, h1, h3, h4⟩ := C97_tangent m e he x E hs env p s hps hd d dd h h2 u hu
  obtain rfl := h1.1 0 h0
  refine ⟨fun g t ht => ?_, fun g t ht => ?_⟩
  · have := h3 g t ht; simpa using this
  · have := h4 g t ht; simpa using this

/-- **C97** (necessity). Conversely, where the curve of `e` lies below its chords the second derivative stands for a number at
least 0, where it lies above them for one at most 0. -/
theorem C97_necessary (u : ℝ) (hu : u ∈ Ioo p s) :
    (ConvexOn ℝ (Icc p s) (fn SmartNum.exactReal env x e) → ∃ w, StandsFor (env.set x u) dd w ∧ 0 ≤ w) ∧
    (ConcaveOn ℝ (Icc p s) (fn SmartNum.exactReal env x e) → ∃ w, StandsFor (env.set x u) dd w ∧ w ≤ 0) := by
  have hw := stands m e he x E hs env p s hd (twice e x d dd h h2) hps (Ioo_subset_Icc_self hu)
  have h1 := hasDerivAt_iteratedDeriv (fun n => smooth m e he x env p s hd hps (Ioo_subset_Icc_self hu) n) 1
  rw [iteratedDeriv_one] at h1
  have hdiff : ∀ t ∈ Icc p s, DifferentiableAt ℝ (fn SmartNum.exactReal env x e) t := fun t ht =>
    (smooth m e he x env p s hd hps ht 1).differentiableAt (by norm_num)
  refine ⟨fun g => ⟨_, hw, ?_⟩, fun g => ⟨_, hw, ?_⟩⟩
  · have := (g.monotoneOn_deriv hdiff).derivWithin_nonneg (x := u)
    rwa [h1.hasDerivWithinAt.derivWithin ((uniqueDiffOn_Icc hps) u (Ioo_subset_Icc_self hu))] at this
  · have := (g.antitoneOn_deriv hdiff).derivWithin_nonpos (x := u)
    rwa [h1.hasDerivWithinAt.derivWithin ((uniqueDiffOn_Icc hps) u (Ioo_subset_Icc_self hu))] at this

end

/-- Non-vacuous: exp(x) is its own derivative, which is positive, so its curve lies above its tangents; sin(x) takes no value
more than twice between 0 and 3, as its second derivative is negative there; x * x + 5 is a polynomial. -/
theorem C97_instance (env : Env) :
    let x : Expr F := newVariable "x"
    let a := (x.mul x).add (ofI64 5)
    Built .debug x.exp ∧ Built .debug x.sin ∧ Built .debug a ∧
    (∃ E, SafeD SmartNum.exactReal E x.exp ∧ SafeD SmartNum.exactReal E x.sin ∧ SafeD SmartNum.exactReal E a) ∧
    x.exp.derivative .strict ⟨"x"⟩ = .ok x.exp ∧
    nthDerivative .strict x.sin ⟨"x"⟩ 2 = .ok x.sin.neg ∧
    nthDerivative .strict a ⟨"x"⟩ 3 = .ok (ofI64 0) ∧
    (∀ p s, ValueBetween env ⟨"x"⟩ p s x.exp ∧ ValueBetween env ⟨"x"⟩ p s x.sin ∧ ValueBetween env ⟨"x"⟩ p s a) ∧
    (∀ p s : ℝ, p < s → StrictConvexOn ℝ (Icc p s) (fn SmartNum.exactReal env ⟨"x"⟩ x.exp)) ∧
    (∀ t : ℝ, 0 < t → fn SmartNum.exactReal env ⟨"x"⟩ x.exp 0 + 1 * (t - 0) ≤ fn SmartNum.exactReal env ⟨"x"⟩ x.exp t) ∧
    (∀ c, {u | u ∈ Icc (0 : ℝ) 3 ∧ denote SmartNum.exactReal (env.set ⟨"x"⟩ u) x.sin = some c}.encard ≤ (2 : ℕ)) ∧
    ∃ y : ℕ → ℝ, ∀ t ∈ Icc (0 : ℝ) 1, fn SmartNum.exactReal env ⟨"x"⟩ a t = ∑ j ∈ Finset.range 3, y j * (t - 0) ^ j := by
  intro x a
  have hx : x = ofVar ⟨"x"⟩ := rfl
  have vx : ∀ (env : Env) (t : ℝ), denote SmartNum.exactReal (env.set ⟨"x"⟩ t) x = some t := fun env t => by rw [hx]; simp
  have v5 : ∀ (env : Env) (t : ℝ), denote SmartNum.exactReal (env.set ⟨"x"⟩ t) (ofI64 5 : Expr F) = some 5 := fun env t => by
    rw [denote_int]; simp [show (5 : Int64).toInt = 5 by decide]
  have be : Built .debug x.exp := .exp _ (.var _)
  have bs : Built .debug x.sin := .sin _ (.var _)
  have ba : Built .debug a := .add _ _ (.mul _ _ (.var _) (.var _)) (.num _ (.ofI64 5))
  have ve : ∀ (env : Env) t, denote SmartNum.exactReal (env.set ⟨"x"⟩ t) x.exp = some (Real.exp t) := fun env t =>
    denote_exp.2 ⟨t, vx env t, rfl⟩
  have vs : ∀ (env : Env) t, denote SmartNum.exactReal (env.set ⟨"x"⟩ t) x.sin = some (Real.sin t) := fun env t =>
    denote_sin.2 ⟨t, vx env t, rfl⟩
  have va : ∀ (env : Env) t, denote SmartNum.exactReal (env.set ⟨"x"⟩ t) a = some (t * t + 5) := fun env t =>
    denote_add.2 ⟨_, _, denote_mul.2 ⟨t, t, vx env t, vx env t, rfl⟩, v5 env t, rfl⟩
  have se : SafeD SmartNum.exactReal Set.univ x.exp := safeD_exp.2 (safeD_ofVar _)
  have ss : SafeD SmartNum.exactReal Set.univ x.sin :=
    safeD_sin.2 ⟨⟨env.set ⟨"x"⟩ 0, mem_univ _, 0, vx env 0, Real.pi_ne_zero.symm⟩, safeD_ofVar _⟩
  have sa : SafeD SmartNum.exactReal Set.univ a := safeD_add.2 ⟨safeD_mul.2 ⟨safeD_ofVar _, safeD_ofVar _⟩, safeD_ofNum _⟩
  have pe : ∀ env, PowOK SmartNum.exactReal env ⟨"x"⟩ x.exp := fun _ =>
    everywhere_exp.2 ⟨fun a b h => by expr_inj at h, everywhere_ofVar.2 fun a b h => by expr_inj at h⟩
  have ps : ∀ env, PowOK SmartNum.exactReal env ⟨"x"⟩ x.sin := fun _ =>
    everywhere_sin.2 ⟨fun a b h => by expr_inj at h, everywhere_ofVar.2 fun a b h => by expr_inj at h⟩
  have pa : ∀ env, PowOK SmartNum.exactReal env ⟨"x"⟩ a := fun _ =>
    powAll_add.2 ⟨powAll_mul.2 ⟨powAll_ofVar _, powAll_ofVar _⟩, powAll_ofNum _⟩
  have de : x.exp.derivative .strict ⟨"x"⟩ = .ok x.exp := derivative_exp_var _ _
  have ds : nthDerivative .strict x.sin ⟨"x"⟩ 2 = .ok x.sin.neg := nthDerivative_sinCycle .strict ⟨"x"⟩ 0 2
  have da : nthDerivative .strict a ⟨"x"⟩ 3 = .ok (ofI64 0) := by krfl
  have hv : ∀ p s, ValueBetween env ⟨"x"⟩ p s x.exp ∧ ValueBetween env ⟨"x"⟩ p s x.sin ∧ ValueBetween env ⟨"x"⟩ p s a :=
    fun p s => ⟨fun u _ => ⟨⟨_, ve env u⟩, pe _⟩, fun u _ => ⟨⟨_, vs env u⟩, ps _⟩, fun u _ => ⟨⟨_, va env u⟩, pa _⟩⟩
  refine ⟨be, bs, ba, ⟨_, se, ss, sa⟩, de, ds, da, hv, fun p s hps => ?_, fun t ht => ?_, fun c => ?_, ?_⟩
  · exact (C97_curvature .debug _ be ⟨"x"⟩ _ se env p s hps (hv p s).1 _ _ de de).2.2.1 fun u _ =>
      ⟨_, ve env u, Real.exp_pos u⟩
  · obtain ⟨w, h1, h2, -⟩ := C97_tangent .debug _ be ⟨"x"⟩ _ se env 0 t ht (hv 0 t).1 _ _ de de 0 ⟨le_rfl, ht.le⟩
    obtain rfl := h1.1 1 (by rw [ve, Real.exp_zero])
    exact h2 (fun u _ => ⟨_, ve env u, (Real.exp_pos u).le⟩) t ⟨ht.le, le_rfl⟩
  · refine C97_few_zeros .debug _ bs ⟨"x"⟩ _ ss env 0 3 (by norm_num) (hv 0 3).2.1 2 _ ds (fun u hu => ?_) c (by norm_num)
    refine ⟨-Real.sin u, denote_neg.2 ⟨_, vs env u, rfl⟩, ?_⟩
    have := Real.sin_pos_of_pos_of_lt_pi hu.1 (hu.2.trans Real.pi_gt_three)
    linarith
  · exact C97_polynomial .debug _ ba ⟨"x"⟩ _ sa env 0 1 (by norm_num) (hv 0 1).2.2 3 _ da
      (fun u _ => denote_zero_lit _) (by norm_num)

end SymRust
