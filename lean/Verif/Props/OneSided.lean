import Verif.Props.Residual
/-! # The residual tells on which side of an expansion the expression lies: property C98 -/

namespace SymRust
variable {F : Type} [FloatOps F]
open Expr Set Filter Topology

section
variable (m m' : Mode) (e v : Expr F) (he : Built m e) (hv : Built m' v) (x : Variable) (n : UInt64)
  (t : PartialExpansion F) (h : e.taylorExpansion .strict x v n = .ok t)
  (hsv : Safe SmartNum.exactReal Set.univ v) (hs : SafeD SmartNum.exactReal (AtPoint SmartNum.exactReal x v) e)
  (hl : NoLnIntoBase x v e) (env : Env) (p : ℝ) (hpt : denote SmartNum.exactReal env v = some p)
  (y : Nat → ℝ) (hy : ∀ k, k ≤ n.toNat → ∃ c, t.coefficient[k]? = some c ∧ denote SmartNum.exactReal env c = some (y k))

include he hv h hsv hs hl hpt hy

/-- **C98** (enclosure). If the residual has values between `lo` and `hi` strictly between `p` and `s`, the error of the expansion
at `s` lies between `lo` and `hi` times (s - p)^(n+1)/(n+1)!; the other way round if this is negative. -/
theorem C98_between (s : ℝ) (hd : ValueBetween env x p s e) (hps : p ≠ s) (lo hi : ℝ)
    (hM : ∀ u ∈ uIoo p s, ∃ w, denote SmartNum.exactReal (env.set x u) t.residual = some w ∧ lo ≤ w ∧ w ≤ hi) :
    let err := fn SmartNum.exactReal env x e s - ∑ k ∈ Finset.range (n.toNat + 1), y k * (s - p) ^ k
    let q := (s - p) ^ (n.toNat + 1) / ((n.toNat + 1).factorial : ℝ)
    (p < s ∨ Odd n.toNat → lo * q ≤ err ∧ err ≤ hi * q) ∧ (s < p → Even n.toNat → hi * q ≤ err ∧ err ≤ lo * q) := by
  intro err q
  obtain ⟨u, hu, w, h1, h2⟩ := C78_lagrange m m' e v he hv x n t h hsv hs hl env p s hpt hd hps y hy
  obtain ⟨w', h3, h4, h5⟩ := hM u hu
  obtain rfl := h1.1 w' h3
  have herr : err = w' * q := by
    simp only [err, q]; rw [h2]; ring
  have hf : (0 : ℝ) < ((n.toNat + 1).factorial : ℝ) := by exact_mod_cast Nat.factorial_pos _
  rw [herr]
  refine ⟨fun g => ?_, fun g g' => ?_⟩
  · have hq : 0 ≤ q := by
      refine div_nonneg ?_ hf.le
      rcases g with g | g
      · exact pow_nonneg (sub_nonneg.2 g.le) _
      · exact Even.pow_nonneg g.add_one _
    exact ⟨mul_le_mul_of_nonneg_right h4 hq, mul_le_mul_of_nonneg_right h5 hq⟩
  · have hq : q ≤ 0 := div_nonpos_of_nonpos_of_nonneg (Odd.pow_nonpos g'.add_one (sub_nonpos.2 g.le)) hf.le
    exact ⟨mul_le_mul_of_nonpos_right h5 hq, mul_le_mul_of_nonpos_right h4 hq⟩

/-- **C98** (sides). Right of the point the expression lies above the expansion while the residual is positive, below while it is
negative; left of the point too if the order is odd, and the other way round if it is even. -/
theorem C98_side (s : ℝ) (hd : ValueBetween env x p s e) (hps : p ≠ s) :
    let P := ∑ k ∈ Finset.range (n.toNat + 1), y k * (s - p) ^ k
    ((∀ u ∈ uIoo p s, ∃ w, denote SmartNum.exactReal (env.set x u) t.residual = some w ∧ 0 < w) →
      (p < s ∨ Odd n.toNat → P < fn SmartNum.exactReal env x e s) ∧
      (s < p → Even n.toNat → fn SmartNum.exactReal env x e s < P)) ∧
    ((∀ u ∈ uIoo p s, ∃ w, denote SmartNum.exactReal (env.set x u) t.residual = some w ∧ w < 0) →
      (p < s ∨ Odd n.toNat → fn SmartNum.exactReal env x e s < P) ∧
      (s < p → Even n.toNat → P < fn SmartNum.exactReal env x e s)) ∧
    ((∀ u ∈ uIoo p s, denote SmartNum.exactReal (env.set x u) t.residual = some 0) →
      fn SmartNum.exactReal env x e s = P) := by
  intro P
  obtain ⟨u, hu, w, h1, h2⟩ := C78_lagrange m m' e v he hv x n t h hsv hs hl env p s hpt hd hps y hy
  have hf : (0 : ℝ) < ((n.toNat + 1).factorial : ℝ) := by exact_mod_cast Nat.factorial_pos _
  have h2 : fn SmartNum.exactReal env x e s = P + w * ((s - p) ^ (n.toNat + 1) / ((n.toNat + 1).factorial : ℝ)) := by
    rw [h2]; simp only [P]; ring
  have hpos : p < s ∨ Odd n.toNat → 0 < (s - p) ^ (n.toNat + 1) / ((n.toNat + 1).factorial : ℝ) := fun g => by
    refine div_pos ?_ hf
    rcases g with g | g
    · exact pow_pos (sub_pos.2 g) _
    · exact Even.pow_pos g.add_one (sub_ne_zero.2 hps.symm)
  have hneg : s < p → Even n.toNat → (s - p) ^ (n.toNat + 1) / ((n.toNat + 1).factorial : ℝ) < 0 := fun g g' =>
    div_neg_of_neg_of_pos (Odd.pow_neg g'.add_one (sub_neg.2 g)) hf
  refine ⟨fun g => ?_, fun g => ?_, fun g => ?_⟩
  · obtain ⟨w', h3, h4⟩ := g u hu
    obtain rfl := h1.1 w' h3
    rw [h2]
    exact ⟨fun a => by have := mul_pos h4 (hpos a); linarith, fun a b => by have := mul_neg_of_pos_of_neg h4 (hneg a b); linarith⟩
  · obtain ⟨w', h3, h4⟩ := g u hu
    obtain rfl := h1.1 w' h3
    rw [h2]
    exact ⟨fun a => by have := mul_neg_of_neg_of_pos h4 (hpos a); linarith, fun a b => by have := mul_pos_of_neg_of_neg h4 (hneg a b); linarith⟩
  · obtain rfl := h1.1 0 (g u hu)
    rw [h2]; ring

/-- **C98** (first error term). If the residual has the value `w` at the point, the error of the expansion is asymptotically
w/(n+1)! times (s - p)^(n+1). -/
theorem C98_first_error (r : ℝ) (hr : denote SmartNum.exactReal (env.set x p) e = some r)
    (hp : PowOK SmartNum.exactReal (env.set x p) x e) (w : ℝ)
    (hw : denote SmartNum.exactReal (env.set x p) t.residual = some w) :
    Tendsto (fun s => (fn SmartNum.exactReal env x e s - ∑ k ∈ Finset.range (n.toNat + 1), y k * (s - p) ^ k) /
      (s - p) ^ (n.toNat + 1)) (𝓝[≠] p) (𝓝 (w / ((n.toNat + 1).factorial : ℝ))) := by
  have hyk : ∀ k, k ≤ n.toNat → y k = iteratedDeriv k (fn SmartNum.exactReal env x e) p / (k.factorial : ℝ) := by
    intro k hk
    obtain ⟨c, h1, h2⟩ := hy k hk
    obtain ⟨c', h3, h4⟩ := C34_coefficients m m' e v he hv x n t h hsv hs hl env p r hpt hr hp k hk
    rw [h1] at h3
    cases h3
    exact h4.1 _ h2
  have h2 := C78_residual m m' e v he hv x n t h _ hs _ r hr hp
  rw [Env.set_same, show fn SmartNum.exactReal (env.set x p) x e = fn SmartNum.exactReal env x e from by
    funext t; unfold fn; rw [Env.set_set]] at h2
  have hw' := h2.1 w hw
  have h3 := taylor_remainder (wf_lift he.valid).tree (denote_lift he.valid.tree hr) (hp.lift he.valid.tree) (n.toNat + 1)
  rw [fn_lift he.valid hr] at h3
  have hpow : (fun s : ℝ => (s - p) ^ (n.toNat + 1 + 1)) =o[𝓝 p] fun s => (s - p) ^ (n.toNat + 1) :=
    (Asymptotics.isLittleO_pow_pow (𝕜 := ℝ) (show n.toNat + 1 < n.toNat + 1 + 1 by omega)).comp_tendsto
      (show Tendsto (fun s : ℝ => s - p) (𝓝 p) (𝓝 0) by simpa using (tendsto_id (α := ℝ) (x := 𝓝 p)).sub_const p)
  have h4 := ((h3.trans_isLittleO hpow).tendsto_div_nhds_zero).mono_left (nhdsWithin_le_nhds (s := {p}ᶜ))
  have h5 := h4.add_const (w / ((n.toNat + 1).factorial : ℝ))
  rw [zero_add] at h5
  refine h5.congr' ?_
  filter_upwards [self_mem_nhdsWithin] with s hsp
  have hne : (s - p) ^ (n.toNat + 1) ≠ 0 := pow_ne_zero _ (sub_ne_zero.2 hsp)
  rw [Finset.sum_range_succ _ (n.toNat + 1), ← hw', eq_div_iff hne, add_mul, div_mul_cancel₀ _ hne,
    Finset.sum_congr rfl fun k hk => by rw [← hyk k (by simpa [Nat.lt_succ_iff] using hk)]]
  ring

end

/-- Non-vacuous, and useful: for n up to 20 and in every build, exp(x) lies above its expansion of order n at 0 right of 0; left of
0 above it if n is odd, below it if n is even; and the error divided by s^(n+1) tends to 1/(n+1)!. -/
theorem C98_instance (m : Mode) (x : Variable) (n : UInt64) (hn : n ≤ 20) :
    ∃ (t : PartialExpansion F) (y : Nat → ℝ), (ofVar x : Expr F).exp.taylorExpansion m x (ofI64 0) n = .ok t ∧
      (∀ k, k ≤ n.toNat → ∃ c, t.coefficient[k]? = some c ∧ ∀ env, denote SmartNum.exactReal env c = some (y k)) ∧
      (∀ s : ℝ, s ≠ 0 → (0 < s ∨ Odd n.toNat → ∑ k ∈ Finset.range (n.toNat + 1), y k * s ^ k < Real.exp s) ∧
        (s < 0 → Even n.toNat → Real.exp s < ∑ k ∈ Finset.range (n.toNat + 1), y k * s ^ k)) ∧
      Tendsto (fun s => (Real.exp s - ∑ k ∈ Finset.range (n.toNat + 1), y k * s ^ k) / s ^ (n.toNat + 1)) (𝓝[≠] 0)
        (𝓝 (1 / ((n.toNat + 1).factorial : ℝ))) := by
  obtain ⟨t, h1, h2⟩ := C57_exp (F := F) .strict x n hn fun _ => 0
  have hb : Built .debug (ofVar x : Expr F).exp := .exp _ (.var x)
  have hz : Built .debug (ofI64 0 : Expr F) := .num _ (.ofI64 0)
  have hln : NoLn (ofI64 0 : Expr F) := noLn_iff.2 (everywhere_ofNum.2 (by intro c h; expr_inj at h))
  have h3 : ∀ k, k ≤ n.toNat → ∃ c, t.coefficient[k]? = some c ∧ ∀ env, denote SmartNum.exactReal env c =
      some (iteratedDeriv k Real.exp 0 / (k.factorial : ℝ)) := by
    intro k hk
    obtain ⟨c, g3, -⟩ := h2 k hk
    refine ⟨c, g3, fun env => ?_⟩
    obtain ⟨t'', g4, g5⟩ := C57_exp (F := F) .strict x n hn env
    rw [h1] at g4
    cases g4
    obtain ⟨c', g6, g7⟩ := g5 k hk
    rw [g3] at g6
    cases g6
    exact g7
  obtain ⟨-, -, -, -, h4, -⟩ := C33_shape .strict _ _ _ _ _ h1
  rw [nthDerivative_exp_var] at h4
  have h4 := (Out.ok.inj h4).symm
  have hset : ∀ (env : Env) (u : ℝ), denote SmartNum.exactReal (env.set x u) (ofVar x : Expr F).exp = some (Real.exp u) :=
    fun env u => denote_exp.2 ⟨_, denote_ofVar _ _ _, by rw [Env.set_same]⟩
  have hpw : ∀ env, PowOK SmartNum.exactReal env x (ofVar x : Expr F).exp := fun env =>
    everywhere_exp.2 ⟨fun a b h => by expr_inj at h, everywhere_ofVar.2 fun a b h => by expr_inj at h⟩
  have hyy : ∀ k, k ≤ n.toNat → ∃ c, t.coefficient[k]? = some c ∧ denote SmartNum.exactReal (fun _ => 0) c =
      some (iteratedDeriv k Real.exp 0 / (k.factorial : ℝ)) := fun k hk => by
    obtain ⟨c, g1, g2⟩ := h3 k hk; exact ⟨c, g1, g2 _⟩
  refine ⟨t, _, (C07_wrap_free m _ _ hb.tree hz.tree x n).2.2.1 t h1, h3, fun s hs => ?_, ?_⟩
  · have := (C98_side .debug .debug _ _ hb hz x n t h1 (safe_ofNum _) (safeD_exp.2 (safeD_ofVar _))
      (fun _ _ _ _ => hln) (fun _ => 0) 0 (denote_zero_lit _) _ hyy s
      (fun u _ => ⟨⟨_, hset _ u⟩, hpw _⟩) hs.symm).1 fun u _ => ⟨_, by rw [h4]; exact hset _ _, Real.exp_pos u⟩
    simpa [fn, hset] using this
  · have := C98_first_error .debug .debug _ _ hb hz x n t h1 (safe_ofNum _) (safeD_exp.2 (safeD_ofVar _))
      (fun _ _ _ _ => hln) (fun _ => 0) 0 (denote_zero_lit _) _ hyy 1 (by rw [hset, Real.exp_zero]) (hpw _) 1
      (by rw [h4, hset, Real.exp_zero])
    simpa [fn, hset] using this

end SymRust
