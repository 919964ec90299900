import Verif.Props.TaylorTotal
import Verif.Props.Structure
import Verif.Spec.Residual
import Mathlib.Analysis.Calculus.Taylor
/-! # The residual bounds the error of an expansion: property C78 -/

namespace SymRust
variable {F : Type} [FloatOps F]
open Expr Set

theorem contDiffAt_fn {e : Expr F} (he : Tree e) {env : Env} {x : Variable} {u r : ℝ}
    (hr : denote SmartNum.exactReal (env.set x u) e = some r) (hp : PowOK SmartNum.exactReal (env.set x u) x e) (n : ℕ) :
    ContDiffAt ℝ n (fn SmartNum.exactReal env x e) u := by
  obtain ⟨g, h1, h2, -⟩ := denote_smooth he hr hp (n : WithTop ℕ∞)
  simp only [Env.set_same, Env.set_set] at h1 h2
  refine h2.congr_of_eventuallyEq ?_
  filter_upwards [h1] with t ht
  rw [fn, ht]; rfl

/-- C78: where the expression has a value, the residual of an expansion of order `n` stands for its derivative of order
n + 1. -/
theorem C78_residual (m m' : Mode) (e v : Expr F) (he : Built m e) (hv : Built m' v) (x : Variable) (n : UInt64)
    (t : PartialExpansion F) (h : e.taylorExpansion .strict x v n = .ok t) (E : Set Env)
    (hs : SafeD SmartNum.exactReal E e) (env : Env) (r : ℝ) (hr : denote SmartNum.exactReal env e = some r)
    (hp : PowOK SmartNum.exactReal env x e) :
    StandsFor env t.residual (iteratedDeriv (n.toNat + 1) (fn SmartNum.exactReal env x e) (env x)) := by
  obtain ⟨d, h1, rfl, -⟩ := taylorExpansion_lift he.valid hv.valid h
  obtain ⟨-, -, -, -, h2, -⟩ := C33_shape .strict e.lift v.lift x n d h1
  have hsl := hs.lift (E' := E) subset_rfl he.valid.tree
  obtain ⟨w, -, -⟩ := nthDerivative_inv (wf_lift he.valid) hsl _ h2
  have := (nthDerivative_value (wf_lift he.valid) hsl (denote_lift he.valid.tree hr) (hp.lift he.valid.tree) _ h2).self_of_nhds
  rw [Env.set_self, fn_lift he.valid hr] at this
  exact denote_down w this

/-- C78: Taylor's theorem with the residual that `taylor_expansion` returns: if the expression has a value on the segment
from `p` to `s`, the error of the expansion at `s` is the residual at some place between `p` and `s`, times
(s - p)^(n+1)/(n+1)!. -/
theorem C78_lagrange (m m' : Mode) (e v : Expr F) (he : Built m e) (hv : Built m' v) (x : Variable) (n : UInt64)
    (t : PartialExpansion F) (h : e.taylorExpansion .strict x v n = .ok t)
    (hsv : Safe SmartNum.exactReal Set.univ v) (hs : SafeD SmartNum.exactReal (AtPoint SmartNum.exactReal x v) e)
    (hl : NoLnIntoBase x v e) (env : Env) (p s : ℝ) (hpt : denote SmartNum.exactReal env v = some p)
    (hd : ValueBetween env x p s e) (hps : p ≠ s) (y : Nat → ℝ)
    (hy : ∀ k, k ≤ n.toNat → ∃ c, t.coefficient[k]? = some c ∧ denote SmartNum.exactReal env c = some (y k)) :
    ∃ u ∈ uIoo p s, ∃ w, StandsFor (env.set x u) t.residual w ∧
      fn SmartNum.exactReal env x e s = (∑ k ∈ Finset.range (n.toNat + 1), y k * (s - p) ^ k) +
        w * (s - p) ^ (n.toNat + 1) / ((n.toNat + 1).factorial : ℝ) := by
  obtain ⟨⟨r, hr⟩, hp⟩ := hd p left_mem_uIcc
  have hyk : ∀ k, k ≤ n.toNat → y k = iteratedDeriv k (fn SmartNum.exactReal env x e) p / (k.factorial : ℝ) := by
    intro k hk
    obtain ⟨c, h1, h2⟩ := hy k hk
    obtain ⟨c', h3, h4⟩ := C34_coefficients m m' e v he hv x n t h hsv hs hl env p r hpt hr hp k hk
    rw [h1] at h3
    cases h3
    exact h4.1 _ h2
  have hc : ContDiffOn ℝ (n.toNat + 1) (fn SmartNum.exactReal env x e) (uIcc p s) := fun u hu => by
    obtain ⟨⟨r, hr⟩, hp⟩ := hd u hu
    exact_mod_cast (contDiffAt_fn he.valid.tree hr hp (n.toNat + 1)).contDiffWithinAt
  obtain ⟨u, hu, h1⟩ := taylor_mean_remainder_lagrange_iteratedDeriv hps hc
  have huc : u ∈ uIcc p s := uIoo_subset_uIcc_self hu
  obtain ⟨⟨ru, hru⟩, hpu⟩ := hd u huc
  have h2 := C78_residual m m' e v he hv x n t h _ hs _ ru hru hpu
  rw [Env.set_same, show fn SmartNum.exactReal (env.set x u) x e = fn SmartNum.exactReal env x e from by
    funext t; unfold fn; rw [Env.set_set]] at h2
  refine ⟨u, hu, _, h2, ?_⟩
  have h3 : taylorWithinEval (fn SmartNum.exactReal env x e) n.toNat (uIcc p s) p s =
      ∑ k ∈ Finset.range (n.toNat + 1), y k * (s - p) ^ k := by
    rw [taylor_within_apply]
    refine Finset.sum_congr rfl fun k hk => ?_
    rw [iteratedDerivWithin_eq_iteratedDeriv (uniqueDiffOn_uIcc hps) (contDiffAt_fn he.valid.tree hr hp k) left_mem_uIcc,
      hyk k (by simpa [Nat.lt_succ_iff] using hk), smul_eq_mul]
    ring
  rw [← h3]
  linarith

/-- C78: so a bound `M` for the residual between `p` and `s` bounds the error of the expansion at `s` by
M |s - p|^(n+1)/(n+1)!. -/
theorem C78_error_bound (m m' : Mode) (e v : Expr F) (he : Built m e) (hv : Built m' v) (x : Variable) (n : UInt64)
    (t : PartialExpansion F) (h : e.taylorExpansion .strict x v n = .ok t)
    (hsv : Safe SmartNum.exactReal Set.univ v) (hs : SafeD SmartNum.exactReal (AtPoint SmartNum.exactReal x v) e)
    (hl : NoLnIntoBase x v e) (env : Env) (p s : ℝ) (hpt : denote SmartNum.exactReal env v = some p)
    (hd : ValueBetween env x p s e) (y : Nat → ℝ)
    (hy : ∀ k, k ≤ n.toNat → ∃ c, t.coefficient[k]? = some c ∧ denote SmartNum.exactReal env c = some (y k))
    (M : ℝ) (hM : ∀ u ∈ uIoo p s, ∃ w, denote SmartNum.exactReal (env.set x u) t.residual = some w ∧ |w| ≤ M) :
    |fn SmartNum.exactReal env x e s - ∑ k ∈ Finset.range (n.toNat + 1), y k * (s - p) ^ k| ≤
      M * |s - p| ^ (n.toNat + 1) / ((n.toNat + 1).factorial : ℝ) := by
  by_cases hps : p = s
  · subst hps
    obtain ⟨⟨r, hr⟩, hp⟩ := hd p left_mem_uIcc
    obtain ⟨c, h1, h2⟩ := hy 0 (Nat.zero_le _)
    obtain ⟨c', h3, h4⟩ := C34_coefficients m m' e v he hv x n t h hsv hs hl env p r hpt hr hp 0 (Nat.zero_le _)
    rw [h1] at h3
    cases h3
    have h5 := h4.1 _ h2
    simp only [iteratedDeriv_zero, Nat.factorial_zero, Nat.cast_one, div_one] at h5
    rw [Finset.sum_range_succ', Finset.sum_eq_zero (fun k _ => by simp), h5]
    simp
  · obtain ⟨u, hu, w, h1, h2⟩ := C78_lagrange m m' e v he hv x n t h hsv hs hl env p s hpt hd hps y hy
    obtain ⟨w', h3, h4⟩ := hM u hu
    rw [← h1.1 w' h3] at h2
    rw [h2, add_sub_cancel_left, abs_div, abs_mul, abs_pow, Nat.abs_cast]
    gcongr

theorem denote_sinCycle (x : Variable) (k : Nat) (env : Env) :
    denote SmartNum.exactReal env (sinCycle x k : Expr F) = some (sinCycleR k (env x)) := by
  unfold sinCycle sinCycleR
  rcases mod4 k with ⟨h, -⟩ | ⟨h, -⟩ | ⟨h, -⟩ | ⟨h, -⟩ <;> rw [h]
  · exact denote_sin.2 ⟨_, denote_ofVar _ _ _, rfl⟩
  · exact denote_cos.2 ⟨_, denote_ofVar _ _ _, rfl⟩
  · exact denote_neg.2 ⟨_, denote_sin.2 ⟨_, denote_ofVar _ _ _, rfl⟩, rfl⟩
  · exact denote_neg.2 ⟨_, denote_cos.2 ⟨_, denote_ofVar _ _ _, rfl⟩, rfl⟩

theorem abs_sinCycleR_le (k : Nat) (u : ℝ) : |sinCycleR k u| ≤ 1 := by
  unfold sinCycleR
  rcases mod4 k with ⟨h, -⟩ | ⟨h, -⟩ | ⟨h, -⟩ | ⟨h, -⟩ <;> rw [h]
  · exact Real.abs_sin_le_one u
  · exact Real.abs_cos_le_one u
  · simpa using Real.abs_sin_le_one u
  · simpa using Real.abs_cos_le_one u

theorem denote_zero_lit (env : Env) : denote SmartNum.exactReal env (ofI64 0 : Expr F) = some 0 := by
  rw [denote_int]; simp [show (0 : Int64).toInt = 0 by decide]

/-- C78: in every build, for every variable, every order n up to 20 and every real s, the polynomial with the
coefficients returned for `sin x` at 0 is within |s|^(n+1)/(n+1)! of sin s. -/
theorem C78_sin (m : Mode) (x : Variable) (n : UInt64) (hn : n ≤ 20) :
    ∃ (t : PartialExpansion F) (y : Nat → ℝ), (ofVar x : Expr F).sin.taylorExpansion m x (ofI64 0) n = .ok t ∧
      (∀ k, k ≤ n.toNat → ∃ c, t.coefficient[k]? = some c ∧ ∀ env, denote SmartNum.exactReal env c = some (y k)) ∧
      ∀ s : ℝ, |Real.sin s - ∑ k ∈ Finset.range (n.toNat + 1), y k * s ^ k| ≤
        |s| ^ (n.toNat + 1) / ((n.toNat + 1).factorial : ℝ) := by
  obtain ⟨t, h1, h2, -⟩ := cycle_expansion (F := F) .strict x 0 n hn fun _ => 0
  have hb : Built .debug (ofVar x : Expr F).sin := .sin _ (.var x)
  have hz : Built .debug (ofI64 0 : Expr F) := .num _ (.ofI64 0)
  have hln : NoLn (ofI64 0 : Expr F) := noLn_iff.2 (everywhere_ofNum.2 (by intro c h; expr_inj at h))
  have h3 : ∀ k, k ≤ n.toNat → ∃ c, t.coefficient[k]? = some c ∧ ∀ env, denote SmartNum.exactReal env c =
      some (iteratedDeriv k Real.sin 0 / (k.factorial : ℝ)) := by
    intro k hk
    obtain ⟨t', g1, -, g2⟩ := cycle_expansion (F := F) .strict x 0 n hn fun _ => 0
    obtain ⟨c, g3, -⟩ := g2 k hk
    refine ⟨c, by rw [← g3]; rw [h1] at g1; cases g1; rfl, fun env => ?_⟩
    obtain ⟨t'', g4, -, g5⟩ := cycle_expansion (F := F) .strict x 0 n hn env
    rw [g1] at g4
    cases g4
    obtain ⟨c', g6, g7⟩ := g5 k hk
    rw [g3] at g6
    cases g6
    exact g7
  refine ⟨t, _, (C07_wrap_free m _ _ hb.tree hz.tree x n).2.2.1 t h1, h3, fun s => ?_⟩
  have hset : ∀ (env : Env) (u : ℝ), denote SmartNum.exactReal (env.set x u) (ofVar x : Expr F).sin = some (Real.sin u) :=
    fun env u => denote_sin.2 ⟨_, denote_ofVar _ _ _, by rw [Env.set_same]⟩
  have := C78_error_bound .debug .debug _ _ hb hz x n t h1 (safe_ofNum _)
    (safeD_sin.2 ⟨⟨Env.set (fun _ => 0) x 0, ⟨_, 0, denote_zero_lit _, rfl⟩, 0, by rw [denote_ofVar, Env.set_same],
      Real.pi_ne_zero.symm⟩, safeD_ofVar _⟩)
    (fun _ _ _ _ => hln)
    (fun _ => 0) 0 s (denote_zero_lit _) (fun u _ => ⟨⟨_, hset _ u⟩, everywhere_sin.2 ⟨fun a b h => by expr_inj at h,
      everywhere_ofVar.2 fun a b h => by expr_inj at h⟩⟩) _
    (fun k hk => by obtain ⟨c, g1, g2⟩ := h3 k hk; exact ⟨c, g1, g2 _⟩) 1
    (fun u _ => ⟨_, by rw [h2]; exact denote_sinCycle x _ _, abs_sinCycleR_le _ _⟩)
  simpa [fn, hset] using this

/-- C78: the same for exp, with the factor that the residual exp u contributes. -/
theorem C78_exp (m : Mode) (x : Variable) (n : UInt64) (hn : n ≤ 20) :
    ∃ (t : PartialExpansion F) (y : Nat → ℝ), (ofVar x : Expr F).exp.taylorExpansion m x (ofI64 0) n = .ok t ∧
      (∀ k, k ≤ n.toNat → ∃ c, t.coefficient[k]? = some c ∧ ∀ env, denote SmartNum.exactReal env c = some (y k)) ∧
      ∀ s : ℝ, |Real.exp s - ∑ k ∈ Finset.range (n.toNat + 1), y k * s ^ k| ≤
        Real.exp (max s 0) * |s| ^ (n.toNat + 1) / ((n.toNat + 1).factorial : ℝ) := by
  obtain ⟨t, h1, h2⟩ := C57_exp (F := F) .strict x n hn fun _ => 0
  have hb : Built .debug (ofVar x : Expr F).exp := .exp _ (.var x)
  have hz : Built .debug (ofI64 0 : Expr F) := .num _ (.ofI64 0)
  have hln : NoLn (ofI64 0 : Expr F) := noLn_iff.2 (everywhere_ofNum.2 (by intro c h; expr_inj at h))
  have h3 : ∀ k, k ≤ n.toNat → ∃ c, t.coefficient[k]? = some c ∧ ∀ env, denote SmartNum.exactReal env c =
      some (iteratedDeriv k Real.exp 0 / (k.factorial : ℝ)) := by
    intro k hk
    obtain ⟨c, g3, -⟩ := h2 k hk
    refine ⟨c, g3, fun env => ?_⟩
    obtain ⟨t'', g4, g5⟩ := C57_exp (F := F) .strict x n hn env
    rw [h1] at g4
    cases g4
    obtain ⟨c', g6, g7⟩ := g5 k hk
    rw [g3] at g6
    cases g6
    exact g7
  obtain ⟨-, -, -, -, h4, -⟩ := C33_shape .strict _ _ _ _ _ h1
  rw [nthDerivative_exp_var] at h4
  have h4 := (Out.ok.inj h4).symm
  refine ⟨t, _, (C07_wrap_free m _ _ hb.tree hz.tree x n).2.2.1 t h1, h3, fun s => ?_⟩
  have hset : ∀ (env : Env) (u : ℝ), denote SmartNum.exactReal (env.set x u) (ofVar x : Expr F).exp = some (Real.exp u) :=
    fun env u => denote_exp.2 ⟨_, denote_ofVar _ _ _, by rw [Env.set_same]⟩
  have := C78_error_bound .debug .debug _ _ hb hz x n t h1 (safe_ofNum _) (safeD_exp.2 (safeD_ofVar _))
    (fun _ _ _ _ => hln)
    (fun _ => 0) 0 s (denote_zero_lit _) (fun u _ => ⟨⟨_, hset _ u⟩, everywhere_exp.2 ⟨fun a b h => by expr_inj at h,
      everywhere_ofVar.2 fun a b h => by expr_inj at h⟩⟩) _
    (fun k hk => by obtain ⟨c, g1, g2⟩ := h3 k hk; exact ⟨c, g1, g2 _⟩) (Real.exp (max s 0))
    (fun u hu => ⟨_, by rw [h4]; exact hset _ _, by
      rw [abs_of_pos (Real.exp_pos _), Real.exp_le_exp]
      have := hu.2
      simp only [max_comm] at this ⊢
      exact this.le⟩)
  simpa [fn, hset] using this

end SymRust
