import Verif.Proofs.Partial
/-! The chain rule for substitutions. -/

namespace SymRust
variable {F : Type} [FloatOps F]
open Expr Filter Topology

theorem SafeD.replace {ν : SmartNum F → Option ℝ} {e v : Expr F} (he : Tree e) {x : Variable}
    (h : SafeD ν (AtPoint ν x v) e) (hv : SafeD ν Set.univ v) (hl : NoLnIntoBase x v e) :
    SafeD ν Set.univ (e.replace x v) := by
  refine ⟨h.1.replace he hv.1 fun s hs a b hab ho => noLn_iff.1 (hl a b (hab ▸ hs) ho), ?_⟩
  have hq := h.2
  have hq' := hv.2
  clear h hv hl
  have triv : ∀ s : Expr F, (∀ a : Expr F, s ≠ a.sin) → ∀ a : Expr F, s = a.sin → Avoids ν Set.univ a Real.pi :=
    fun s hs a ha => absurd ha (hs a)
  induction he with
  | num n _ => rw [replace_ofNum]; exact everywhere_ofNum.2 (triv _ fun a h => by expr_inj at h)
  | var y =>
    rw [replace_ofVar]
    split_ifs
    · exact hq'
    · exact everywhere_ofVar.2 (triv _ fun a h => by expr_inj at h)
  | sin a ha i =>
    rw [replace_sin]
    obtain ⟨h1, h2⟩ := everywhere_sin.1 hq
    refine everywhere_sin.2 ⟨fun c hc => ?_, i h2⟩
    expr_inj at hc
    subst hc
    exact (h1 a rfl).replace ha
  | neg a _ i =>
    rw [replace_neg]; exact everywhere_neg.2 ⟨triv _ fun a h => by expr_inj at h, i (everywhere_neg.1 hq).2⟩
  | cos a _ i =>
    rw [replace_cos]; exact everywhere_cos.2 ⟨triv _ fun a h => by expr_inj at h, i (everywhere_cos.1 hq).2⟩
  | exp a _ i =>
    rw [replace_exp]; exact everywhere_exp.2 ⟨triv _ fun a h => by expr_inj at h, i (everywhere_exp.1 hq).2⟩
  | ln a _ i =>
    rw [replace_ln]; exact everywhere_ln.2 ⟨triv _ fun a h => by expr_inj at h, i (everywhere_ln.1 hq).2⟩
  | add a b _ _ i j =>
    rw [replace_add]
    exact everywhere_add.2 ⟨triv _ fun a h => by expr_inj at h, i (everywhere_add.1 hq).2.1, j (everywhere_add.1 hq).2.2⟩
  | sub a b _ _ i j =>
    rw [replace_sub]
    exact everywhere_sub.2 ⟨triv _ fun a h => by expr_inj at h, i (everywhere_sub.1 hq).2.1, j (everywhere_sub.1 hq).2.2⟩
  | mul a b _ _ i j =>
    rw [replace_mul]
    exact everywhere_mul.2 ⟨triv _ fun a h => by expr_inj at h, i (everywhere_mul.1 hq).2.1, j (everywhere_mul.1 hq).2.2⟩
  | div a b _ _ i j =>
    rw [replace_div]
    exact everywhere_div.2 ⟨triv _ fun a h => by expr_inj at h, i (everywhere_div.1 hq).2.1, j (everywhere_div.1 hq).2.2⟩
  | pow a b _ _ i j =>
    rw [replace_pow]
    exact everywhere_pow.2 ⟨triv _ fun a h => by expr_inj at h, i (everywhere_pow.1 hq).2.1, j (everywhere_pow.1 hq).2.2⟩

omit [FloatOps F] in
theorem PowOK.replace {ν : SmartNum F → Option ℝ} {e v : Expr F} (he : Tree e) {x y : Variable} {env : Env} {p : ℝ}
    (hpt : denote ν env v = some p) (hx : PowOK ν (env.set y p) x e) (hy : PowOK ν (env.set y p) y e)
    (hv : PowOK ν env x v) : PowOK ν env x (e.replace y v) := by
  induction he with
  | num n _ => rw [replace_ofNum]; exact powAll_ofNum _
  | var w =>
    rw [replace_ofVar]
    split_ifs
    · exact hv
    · exact powAll_ofVar _
  | neg a _ i => rw [replace_neg]; exact powAll_neg.2 (i (powAll_neg.1 hx) (powAll_neg.1 hy))
  | sin a _ i => rw [replace_sin]; exact powAll_sin.2 (i (powAll_sin.1 hx) (powAll_sin.1 hy))
  | cos a _ i => rw [replace_cos]; exact powAll_cos.2 (i (powAll_cos.1 hx) (powAll_cos.1 hy))
  | exp a _ i => rw [replace_exp]; exact powAll_exp.2 (i (powAll_exp.1 hx) (powAll_exp.1 hy))
  | ln a _ i => rw [replace_ln]; exact powAll_ln.2 (i (powAll_ln.1 hx) (powAll_ln.1 hy))
  | add a b _ _ i j =>
    rw [replace_add]
    exact powAll_add.2 ⟨i (powAll_add.1 hx).1 (powAll_add.1 hy).1, j (powAll_add.1 hx).2 (powAll_add.1 hy).2⟩
  | sub a b _ _ i j =>
    rw [replace_sub]
    exact powAll_sub.2 ⟨i (powAll_sub.1 hx).1 (powAll_sub.1 hy).1, j (powAll_sub.1 hx).2 (powAll_sub.1 hy).2⟩
  | mul a b _ _ i j =>
    rw [replace_mul]
    exact powAll_mul.2 ⟨i (powAll_mul.1 hx).1 (powAll_mul.1 hy).1, j (powAll_mul.1 hx).2 (powAll_mul.1 hy).2⟩
  | div a b _ _ i j =>
    rw [replace_div]
    exact powAll_div.2 ⟨i (powAll_div.1 hx).1 (powAll_div.1 hy).1, j (powAll_div.1 hx).2 (powAll_div.1 hy).2⟩
  | pow a b ha hb i j =>
    rw [replace_pow]
    obtain ⟨⟨u, hu, h1⟩, h2, h3⟩ := powAll_pow.1 hx
    obtain ⟨⟨u', hu', h1'⟩, h2', h3'⟩ := powAll_pow.1 hy
    rw [hu] at hu'; cases hu'
    refine powAll_pow.2 ⟨⟨u, by rw [denote_replace ha hpt]; exact hu, ?_⟩, i h2 h2', j h3 h3'⟩
    by_cases hpos : 0 < u
    · exact .inl hpos
    · refine .inr ⟨(h1.resolve_left hpos).1, ?_⟩
      rw [replace_of_not_occurs v (h1'.resolve_left hpos).2]
      exact (h1.resolve_left hpos).2

omit [FloatOps F] in
theorem HasDerivative.unique {ν : SmartNum F → Option ℝ} {e : Expr F} {x : Variable} {env : Env} {d d' : ℝ}
    (h : HasDerivative ν env x e d) (h' : HasDerivative ν env x e d') : d = d' := by
  obtain ⟨g, h1, h2⟩ := h
  obtain ⟨k, h3, h4⟩ := h'
  have : g =ᶠ[𝓝 (env x)] k := by
    filter_upwards [h1, h3] with t a b
    rw [a] at b; exact Option.some.inj b
  exact h2.unique (h4.congr_of_eventuallyEq this)

omit [FloatOps F] in
theorem Env.set_comm (env : Env) {x y : Variable} (h : x ≠ y) (s t : ℝ) :
    (env.set x s).set y t = (env.set y t).set x s := by
  funext v
  by_cases h1 : v = x
  · subst h1; rw [Env.set_ne _ _ h]; simp
  · by_cases h2 : v = y
    · subst h2; rw [Env.set_ne (env.set v t) _ h1]; simp
    · rw [Env.set_ne _ _ h2, Env.set_ne _ _ h1, Env.set_ne _ _ h1, Env.set_ne _ _ h2]

omit [FloatOps F] in
/-- The chain rule for the values. -/
theorem hasDerivative_chain {ν : SmartNum F → Option ℝ} {e v : Expr F} (he : Tree e) {x y : Variable} (hxy : x ≠ y)
    {env : Env} {p r d₁ d₂ d₃ : ℝ} (hpt : denote ν env v = some p) (hr : denote ν (env.set y p) e = some r)
    (hx : PowOK ν (env.set y p) x e) (hy : PowOK ν (env.set y p) y e)
    (h1 : HasDerivative ν (env.set y p) x e d₁) (h2 : HasDerivative ν (env.set y p) y e d₂)
    (h3 : HasDerivative ν env x v d₃) : HasDerivative ν env x (e.replace y v) (d₁ + d₂ * d₃) := by
  obtain ⟨k, k1, k2, k3⟩ := h3.at hpt
  have hs0 : ((env.set y p).set x (env x)) = env.set y p := by
    have : (env.set y p) x = env x := Env.set_ne _ _ hxy
    rw [← this, Env.set_self]
  let c : ℝ × ℝ → Env := fun q => (env.set x q.1).set y q.2
  have hc0 : c (env x, p) = env.set y p := by
    show (env.set x (env x)).set y p = _
    rw [Env.set_self]
  have hne : ({x, y} : Set Variable).Nonempty := ⟨x, by simp⟩
  obtain ⟨⟨G, g1, g2⟩, -⟩ := denote_smoothE (ν := ν) (n := 1) he (c := c) (q₀ := (env x, p)) (S := {x, y})
    (fun w => by
      by_cases hwy : w = y
      · subst hwy; simpa [c] using contDiffAt_snd
      · by_cases hwx : w = x
        · subst hwx; simpa [c, Env.set_ne _ _ hwy] using contDiffAt_fst
        · simpa [c, Env.set_ne _ _ hwy, Env.set_ne _ _ hwx] using contDiffAt_const)
    (fun w hw q => by
      have hwx : w ≠ x := fun h => hw (by simp [h])
      have hwy : w ≠ y := fun h => hw (by simp [h])
      simp [c, Env.set_ne _ _ hwy, Env.set_ne _ _ hwx])
    (by rw [hc0]; exact hr) (powOKs_of (fun w hw => by
      rw [hc0]
      rcases hw with rfl | rfl
      · exact hx
      · exact hy) hne)
  have hG : HasFDerivAt G (fderiv ℝ G (env x, p)) (env x, p) := (g2.differentiableAt (by simp)).hasFDerivAt
  have D1 : HasDerivAt (fun t => G (t, p)) (fderiv ℝ G (env x, p) (1, 0)) (env x) :=
    hG.comp_hasDerivAt (env x) ((hasDerivAt_id _).prodMk (hasDerivAt_const _ _))
  have D2 : HasDerivAt (fun t => G (env x, t)) (fderiv ℝ G (env x, p) (0, 1)) p :=
    hG.comp_hasDerivAt p ((hasDerivAt_const _ _).prodMk (hasDerivAt_id _))
  have e1 : d₁ = fderiv ℝ G (env x, p) (1, 0) := by
    refine h1.unique ⟨fun t => G (t, p), ?_, ?_⟩
    · rw [Env.set_ne _ _ hxy]
      have : Tendsto (fun t : ℝ => (t, p)) (𝓝 (env x)) (𝓝 (env x, p)) := by
        exact (continuous_id.prodMk continuous_const).tendsto (env x)
      filter_upwards [this.eventually g1] with t ht
      rw [← Env.set_comm _ hxy]; exact ht
    · rw [Env.set_ne _ _ hxy]; exact D1
  have e2 : d₂ = fderiv ℝ G (env x, p) (0, 1) := by
    refine h2.unique ⟨fun t => G (env x, t), ?_, ?_⟩
    · simp only [Env.set_same, Env.set_set]
      have : Tendsto (fun t : ℝ => (env x, t)) (𝓝 p) (𝓝 (env x, p)) := by
        exact (continuous_const.prodMk continuous_id).tendsto p
      filter_upwards [this.eventually g1] with t ht
      have : c (env x, t) = env.set y t := by
        show (env.set x (env x)).set y t = _
        rw [Env.set_self]
      rw [← this]; exact ht
    · simp only [Env.set_same]; exact D2
  refine ⟨fun t => G (t, k t), ?_, ?_⟩
  · have : Tendsto (fun t : ℝ => (t, k t)) (𝓝 (env x)) (𝓝 (env x, p)) := by
      rw [← k3]
      exact (continuousAt_id.prodMk k2.continuousAt).tendsto
    filter_upwards [this.eventually g1, k1] with t ht ht'
    rw [denote_replace he ht']
    exact ht
  · have hG' : HasFDerivAt G (fderiv ℝ G (env x, p)) (env x, k (env x)) := by rw [k3]; exact hG
    have := hG'.comp_hasDerivAt (env x) ((hasDerivAt_id _).prodMk k2)
    have heq : d₁ + d₂ * d₃ = fderiv ℝ G (env x, p) (1, d₃) := by
      rw [e1, e2, show ((1 : ℝ), d₃) = (1, 0) + d₃ • (0, 1) by simp, _root_.map_add, map_smul, smul_eq_mul, mul_comm]
    rw [heq]; exact this

omit [FloatOps F] in
/-- The chain rule for the values, with the substituted variable the one differentiated by. -/
theorem hasDerivative_chain_same {ν : SmartNum F → Option ℝ} {e v : Expr F} (he : Tree e) {x : Variable}
    {env : Env} {p d₂ d₃ : ℝ} (hpt : denote ν env v = some p)
    (h2 : HasDerivative ν (env.set x p) x e d₂)
    (h3 : HasDerivative ν env x v d₃) : HasDerivative ν env x (e.replace x v) (d₂ * d₃) := by
  obtain ⟨k, k1, k2, k3⟩ := h3.at hpt
  obtain ⟨g, g1, g2⟩ := h2
  simp only [Env.set_same, Env.set_set] at g1 g2
  refine ⟨fun t => g (k t), ?_, ?_⟩
  · have : Tendsto k (𝓝 (env x)) (𝓝 p) := by rw [← k3]; exact k2.continuousAt.tendsto
    filter_upwards [this.eventually g1, k1] with t ht ht'
    rw [denote_replace he ht', Env.set_set]
    exact ht
  · exact HasDerivAt.comp (env x) (by rw [k3]; exact g2) k2

end SymRust
