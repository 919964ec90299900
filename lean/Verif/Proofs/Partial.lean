import Verif.Spec.Partial
import Verif.Proofs.TaylorSem
import Verif.Proofs.Ghost
import Mathlib.Analysis.Calculus.FDeriv.Symmetric
import Mathlib.Analysis.Calculus.ContDiff.Basic
import Mathlib.Analysis.Calculus.Deriv.Pi
import Mathlib.Analysis.Calculus.ContDiff.Operations
/-! Values of expressions as functions of several variables: joint smoothness, symmetry of partial derivatives. -/

namespace SymRust
variable {F : Type}
open Expr Filter Topology

/-- `PowOK` for a set of variables at once. -/
def PowOKs (ν : SmartNum F → Option ℝ) (env : Env) (S : Set Variable) (e : Expr F) : Prop :=
  PowAll (fun a b => ∃ u, denote ν env a = some u ∧ (0 < u ∨ (u ≠ 0 ∧ ∀ x ∈ S, ¬ Occurs x b))) e

section
variable {ν : SmartNum F → Option ℝ} {E : Type} [NormedAddCommGroup E] [NormedSpace ℝ E]

theorem denote_smoothE {e : Expr F} (he : Tree e) {c : E → Env} {q₀ : E} {S : Set Variable} {n : WithTop ℕ∞}
    (hc : ∀ v, ContDiffAt ℝ n (fun q => c q v) q₀) (hS : ∀ v, v ∉ S → ∀ q, c q v = c q₀ v) {r : ℝ}
    (hr : denote ν (c q₀) e = some r) (hp : PowOKs ν (c q₀) S e) :
    (∃ g : E → ℝ, (∀ᶠ q in 𝓝 q₀, denote ν (c q) e = some (g q)) ∧ ContDiffAt ℝ n g q₀) ∧
    ∀ᶠ q in 𝓝 q₀, PowOKs ν (c q) S e := by
  have val : ∀ {e : Expr F} {r : ℝ} {g : E → ℝ}, denote ν (c q₀) e = some r →
      (∀ᶠ q in 𝓝 q₀, denote ν (c q) e = some (g q)) → g q₀ = r := by
    intro e r g hr h
    have := h.self_of_nhds
    rw [hr] at this
    exact (Option.some.inj this).symm
  induction he generalizing r with
  | num k _ => exact ⟨⟨fun _ => r, .of_forall fun t => by rw [denote_ofNum] at *; exact hr, contDiffAt_const⟩,
      .of_forall fun t => powAll_ofNum _⟩
  | var y => exact ⟨⟨fun q => c q y, .of_forall fun t => by simp, hc y⟩, .of_forall fun t => powAll_ofVar _⟩
  | neg a _ i =>
    obtain ⟨u, hu, rfl⟩ := denote_neg.1 hr
    obtain ⟨⟨g, h1, h2⟩, h0⟩ := i hu (powAll_neg.1 hp)
    exact ⟨⟨fun t => -g t, by filter_upwards [h1] with t ht using denote_neg.2 ⟨_, ht, rfl⟩, h2.neg⟩,
      by filter_upwards [h0] with t ht using powAll_neg.2 ht⟩
  | sin a _ i =>
    obtain ⟨u, hu, rfl⟩ := denote_sin.1 hr
    obtain ⟨⟨g, h1, h2⟩, h0⟩ := i hu (powAll_sin.1 hp)
    exact ⟨⟨fun t => Real.sin (g t), by filter_upwards [h1] with t ht using denote_sin.2 ⟨_, ht, rfl⟩, h2.sin⟩,
      by filter_upwards [h0] with t ht using powAll_sin.2 ht⟩
  | cos a _ i =>
    obtain ⟨u, hu, rfl⟩ := denote_cos.1 hr
    obtain ⟨⟨g, h1, h2⟩, h0⟩ := i hu (powAll_cos.1 hp)
    exact ⟨⟨fun t => Real.cos (g t), by filter_upwards [h1] with t ht using denote_cos.2 ⟨_, ht, rfl⟩, h2.cos⟩,
      by filter_upwards [h0] with t ht using powAll_cos.2 ht⟩
  | exp a _ i =>
    obtain ⟨u, hu, rfl⟩ := denote_exp.1 hr
    obtain ⟨⟨g, h1, h2⟩, h0⟩ := i hu (powAll_exp.1 hp)
    exact ⟨⟨fun t => Real.exp (g t), by filter_upwards [h1] with t ht using denote_exp.2 ⟨_, ht, rfl⟩, h2.exp⟩,
      by filter_upwards [h0] with t ht using powAll_exp.2 ht⟩
  | ln a _ i =>
    obtain ⟨u, hu, hu0, rfl⟩ := denote_ln.1 hr
    obtain ⟨⟨g, h1, h2⟩, h0⟩ := i hu (powAll_ln.1 hp)
    have hg := val hu h1
    have hpos : ∀ᶠ t in 𝓝 q₀, 0 < g t := h2.continuousAt.tendsto.eventually_const_lt (by rw [hg]; exact hu0)
    exact ⟨⟨fun t => Real.log (g t), by filter_upwards [h1, hpos] with t ht h0 using denote_ln.2 ⟨_, ht, h0, rfl⟩,
      h2.log (by rw [hg]; exact hu0.ne')⟩, by filter_upwards [h0] with t ht using powAll_ln.2 ht⟩
  | add a b _ _ i j =>
    obtain ⟨u, v, hu, hv, rfl⟩ := denote_add.1 hr
    obtain ⟨⟨g, h1, h2⟩, h0⟩ := i hu (powAll_add.1 hp).1
    obtain ⟨⟨k, h3, h4⟩, h0'⟩ := j hv (powAll_add.1 hp).2
    exact ⟨⟨fun t => g t + k t, by filter_upwards [h1, h3] with t ht ht' using denote_add.2 ⟨_, _, ht, ht', rfl⟩,
      h2.add h4⟩, by filter_upwards [h0, h0'] with t ht ht' using powAll_add.2 ⟨ht, ht'⟩⟩
  | sub a b _ _ i j =>
    obtain ⟨u, v, hu, hv, rfl⟩ := denote_sub.1 hr
    obtain ⟨⟨g, h1, h2⟩, h0⟩ := i hu (powAll_sub.1 hp).1
    obtain ⟨⟨k, h3, h4⟩, h0'⟩ := j hv (powAll_sub.1 hp).2
    exact ⟨⟨fun t => g t - k t, by filter_upwards [h1, h3] with t ht ht' using denote_sub.2 ⟨_, _, ht, ht', rfl⟩,
      h2.sub h4⟩, by filter_upwards [h0, h0'] with t ht ht' using powAll_sub.2 ⟨ht, ht'⟩⟩
  | mul a b _ _ i j =>
    obtain ⟨u, v, hu, hv, rfl⟩ := denote_mul.1 hr
    obtain ⟨⟨g, h1, h2⟩, h0⟩ := i hu (powAll_mul.1 hp).1
    obtain ⟨⟨k, h3, h4⟩, h0'⟩ := j hv (powAll_mul.1 hp).2
    exact ⟨⟨fun t => g t * k t, by filter_upwards [h1, h3] with t ht ht' using denote_mul.2 ⟨_, _, ht, ht', rfl⟩,
      h2.mul h4⟩, by filter_upwards [h0, h0'] with t ht ht' using powAll_mul.2 ⟨ht, ht'⟩⟩
  | div a b _ _ i j =>
    obtain ⟨u, v, hu, hv, hv0, rfl⟩ := denote_div.1 hr
    obtain ⟨⟨g, h1, h2⟩, h0⟩ := i hu (powAll_div.1 hp).1
    obtain ⟨⟨k, h3, h4⟩, h0'⟩ := j hv (powAll_div.1 hp).2
    have hk := val hv h3
    have hne : ∀ᶠ t in 𝓝 q₀, k t ≠ 0 := h4.continuousAt.eventually_ne (by rw [hk]; exact hv0)
    exact ⟨⟨fun t => g t / k t,
      by filter_upwards [h1, h3, hne] with t ht ht' h0 using denote_div.2 ⟨_, _, ht, ht', h0, rfl⟩,
      h2.div h4 (by rw [hk]; exact hv0)⟩, by filter_upwards [h0, h0'] with t ht ht' using powAll_div.2 ⟨ht, ht'⟩⟩
  | pow a b ha hb i j =>
    obtain ⟨u, v, hu, hv, huv⟩ := denote_pow.1 hr
    obtain ⟨hq, hpa, hpb⟩ := powAll_pow.1 hp
    obtain ⟨⟨g, h1, h2⟩, h0⟩ := i hu hpa
    obtain ⟨⟨k, h3, h4⟩, h0'⟩ := j hv hpb
    have hg := val hu h1
    obtain ⟨u', hu', hcc⟩ := hq
    rw [hu] at hu'; cases hu'
    by_cases hpos : 0 < u
    · have hgp : ∀ᶠ t in 𝓝 q₀, 0 < g t := h2.continuousAt.tendsto.eventually_const_lt (by rw [hg]; exact hpos)
      refine ⟨⟨fun t => g t ^ k t, by
        filter_upwards [h1, h3, hgp] with t ht ht' h0 using denote_pow.2 ⟨_, _, ht, ht', powValue_pos h0⟩,
        h2.rpow h4 (by rw [hg]; exact hpos.ne')⟩, ?_⟩
      filter_upwards [h0, h0', h1, hgp] with t k1 k2 k3 k4
      exact powAll_pow.2 ⟨⟨g t, k3, .inl k4⟩, k1, k2⟩
    · have hn := hcc.resolve_left hpos
      have hneg : u < 0 := lt_of_le_of_ne (not_lt.1 hpos) hn.1
      obtain ⟨z, rfl⟩ := powValue_neg hneg huv
      have hgn : ∀ᶠ t in 𝓝 q₀, g t < 0 := h2.continuousAt.tendsto.eventually_lt_const (by rw [hg]; exact hneg)
      refine ⟨⟨fun t => g t ^ (z : ℝ), ?_, h2.rpow contDiffAt_const (by rw [hg]; exact hneg.ne)⟩, ?_⟩
      · filter_upwards [h1, hgn] with t ht h0
        refine denote_pow.2 ⟨_, (z : ℝ), ht, ?_, ?_⟩
        · rw [← hv]
          exact denote_congr hb fun w hw => hS w (fun hws => hn.2 w hws hw) t
        · rw [powValue_int h0, Real.rpow_intCast]
      · filter_upwards [h0, h0', h1, hgn] with t k1 k2 k3 k4
        exact powAll_pow.2 ⟨⟨g t, k3, .inr ⟨k4.ne, hn.2⟩⟩, k1, k2⟩
end

theorem powOKs_of {ν : SmartNum F → Option ℝ} {env : Env} {S : Set Variable} {e : Expr F}
    (h : ∀ x ∈ S, PowOK ν env x e) (hne : S.Nonempty) : PowOKs ν env S e := by
  obtain ⟨x₀, hx₀⟩ := hne
  intro s hs a b hab
  obtain ⟨u, hu, h0⟩ := h x₀ hx₀ s hs a b hab
  refine ⟨u, hu, ?_⟩
  by_cases hpos : 0 < u
  · exact .inl hpos
  · refine .inr ⟨(h0.resolve_left hpos).1, fun x hx => ?_⟩
    obtain ⟨u', hu', h1⟩ := h x hx s hs a b hab
    rw [hu] at hu'
    cases hu'
    exact (h1.resolve_left hpos).2

theorem PowOKs.powOK {ν : SmartNum F → Option ℝ} {env : Env} {S : Set Variable} {e : Expr F} (h : PowOKs ν env S e)
    {x : Variable} (hx : x ∈ S) : PowOK ν env x e := by
  intro s hs a b hab
  obtain ⟨u, hu, h0⟩ := h s hs a b hab
  exact ⟨u, hu, h0.imp id fun h1 => ⟨h1.1, h1.2 x hx⟩⟩

/-- The assignments at which `e` has a value and its powers are differentiable by the variables in `S`. -/
def Good (ν : SmartNum F → Option ℝ) (S : Set Variable) (e : Expr F) : Set Env :=
  {env | (∃ r, denote ν env e = some r) ∧ PowOKs ν env S e}

/-! ### functions on assignments -/

/-- Open in each direction of `S`. -/
def OpenIn (S : Set Variable) (W : Set Env) : Prop := ∀ env ∈ W, ∀ x ∈ S, ∀ᶠ t in 𝓝 (env x), env.set x t ∈ W

theorem partialBy_congr {S : Set Variable} {W : Set Env} (hW : OpenIn S W) {f g : Env → ℝ} (h : ∀ env ∈ W, f env = g env)
    {x : Variable} (hx : x ∈ S) : ∀ env ∈ W, partialBy x f env = partialBy x g env := by
  intro env he
  refine Filter.EventuallyEq.deriv_eq ?_
  filter_upwards [hW env he x hx] with t ht using h _ ht

theorem partialsBy_congr {S : Set Variable} {W : Set Env} (hW : OpenIn S W) {f g : Env → ℝ} (h : ∀ env ∈ W, f env = g env)
    {xs : List Variable} (hx : ∀ x ∈ xs, x ∈ S) : ∀ env ∈ W, partialsBy xs f env = partialsBy xs g env := by
  induction xs generalizing f g with
  | nil => exact h
  | cons x xs ih =>
    exact ih (partialBy_congr hW h (hx x (by simp))) fun y hy => hx y (by simp [hy])

theorem good_open {ν : SmartNum F → Option ℝ} {S : Set Variable} {e : Expr F} (he : Tree e) : OpenIn S (Good ν S e) := by
  rintro env ⟨⟨r, hr⟩, hp⟩ x hx
  have hs : env.set x (env x) = env := Env.set_self ..
  obtain ⟨⟨g, h1, -⟩, h2⟩ := denote_smoothE (ν := ν) (n := 1) he (c := fun t => env.set x t) (q₀ := env x) (S := S)
    (fun v => by
      by_cases hv : v = x
      · subst hv; simpa using contDiffAt_fun_id
      · simpa [Env.set_ne _ _ hv] using contDiffAt_const)
    (fun v hv q => by
      have : v ≠ x := fun h => hv (h ▸ hx)
      simp [Env.set_ne _ _ this]) (by rw [hs]; exact hr) (by rw [hs]; exact hp)
  filter_upwards [h1, h2] with t a b using ⟨⟨_, a⟩, b⟩

/-! ### directional derivatives -/

section
variable {ι : Type} [Fintype ι] [DecidableEq ι]
set_option linter.unusedSectionVars false

/-- Derivatives in the directions of the list, in order. -/
noncomputable def dirs : List ι → ((ι → ℝ) → ℝ) → (ι → ℝ) → ℝ
  | [], h => h
  | i :: is, h => dirs is fun q => fderiv ℝ h q (Pi.single i 1)

variable {W : Set (ι → ℝ)}

theorem dir_congr (hW : IsOpen W) {f g : (ι → ℝ) → ℝ} (h : ∀ q ∈ W, f q = g q) (v : ι → ℝ) :
    ∀ q ∈ W, fderiv ℝ f q v = fderiv ℝ g q v := by
  intro q hq
  have : f =ᶠ[𝓝 q] g := by filter_upwards [hW.mem_nhds hq] with t ht using h t ht
  rw [this.fderiv_eq]

theorem dirs_congr (hW : IsOpen W) (is : List ι) {f g : (ι → ℝ) → ℝ} (h : ∀ q ∈ W, f q = g q) :
    ∀ q ∈ W, dirs is f q = dirs is g q := by
  induction is generalizing f g with
  | nil => exact h
  | cons i is ih => exact ih (dir_congr hW h _)

theorem dir_smooth (hW : IsOpen W) {h : (ι → ℝ) → ℝ} (hh : ContDiffOn ℝ (⊤ : ℕ∞) h W) (v : ι → ℝ) :
    ContDiffOn ℝ (⊤ : ℕ∞) (fun q => fderiv ℝ h q v) W :=
  (hh.fderiv_of_isOpen hW (m := (⊤ : ℕ∞)) le_rfl).clm_apply contDiffOn_const

theorem dirs_perm (hW : IsOpen W) {is js : List ι} (hp : is.Perm js) {h : (ι → ℝ) → ℝ}
    (hh : ContDiffOn ℝ (⊤ : ℕ∞) h W) : ∀ q ∈ W, dirs is h q = dirs js h q := by
  induction hp generalizing h with
  | nil => intro q _; rfl
  | cons i _ ih => exact ih (dir_smooth hW hh _)
  | swap i j is =>
    refine dirs_congr hW is fun q hq => ?_
    have hat : ContDiffAt ℝ (⊤ : ℕ∞) h q := hh.contDiffAt (hW.mem_nhds hq)
    have hsym : IsSymmSndFDerivAt ℝ h q := hat.isSymmSndFDerivAt (by
      rw [minSmoothness_of_isRCLikeNormedField]
      exact WithTop.coe_le_coe.2 (le_top : (2 : ℕ∞) ≤ ⊤))
    have hd : DifferentiableAt ℝ (fderiv ℝ h) q :=
      ((hh.fderiv_of_isOpen hW (m := (⊤ : ℕ∞)) le_rfl).contDiffAt (hW.mem_nhds hq)).differentiableAt (by simp)
    have key : ∀ v w : ι → ℝ, fderiv ℝ (fun q => fderiv ℝ h q v) q w = fderiv ℝ (fderiv ℝ h) q w v := by
      intro v w
      rw [fderiv_clm_apply hd (differentiableAt_const v)]
      simp
    rw [key, key]
    exact hsym _ _
  | trans _ _ ih1 ih2 => intro q hq; rw [ih1 hh q hq, ih2 hh q hq]

end

/-! ### the parametrisation of the assignments by the variables of a finite set -/

section
variable (T : Finset Variable) (env : Env)

/-- `env` with the variables in `T` set by `q`. -/
noncomputable def Env.over (q : T → ℝ) : Env := open Classical in fun v => if h : v ∈ T then q ⟨v, h⟩ else env v

theorem Env.over_mem (q : T → ℝ) {v : Variable} (h : v ∈ T) : env.over T q v = q ⟨v, h⟩ := by simp [Env.over, h]
theorem Env.over_not_mem (q : T → ℝ) {v : Variable} (h : v ∉ T) : env.over T q v = env v := by simp [Env.over, h]
theorem Env.over_self : env.over T (fun v => env v) = env := by
  funext v
  by_cases h : v ∈ T
  · rw [Env.over_mem T env _ h]
  · rw [Env.over_not_mem T env _ h]
theorem Env.over_set [DecidableEq T] (q : T → ℝ) (x : T) (t : ℝ) :
    (env.over T q).set x t = env.over T (Function.update q x t) := by
  funext v
  by_cases hv : v = x
  · subst hv; simp [Env.over_mem T env _ x.2]
  · rw [Env.set_ne _ _ hv]
    by_cases h : v ∈ T
    · rw [Env.over_mem T env _ h, Env.over_mem T env _ h, Function.update_of_ne]
      intro h'; exact hv (by rw [← h'])
    · rw [Env.over_not_mem T env _ h, Env.over_not_mem T env _ h]

variable [DecidableEq T]

theorem partialBy_over {f : Env → ℝ} {q : T → ℝ} (x : T)
    (h : DifferentiableAt ℝ (fun q => f (env.over T q)) q) :
    partialBy x f (env.over T q) = fderiv ℝ (fun q => f (env.over T q)) q (Pi.single x 1) := by
  unfold partialBy
  rw [Env.over_mem T env q x.2]
  have h1 : (fun t => f ((env.over T q).set x t)) = (fun q => f (env.over T q)) ∘ fun t => Function.update q x t := by
    funext t; simp [Env.over_set]
  rw [h1]
  have h2 := hasDerivAt_update q x (q x)
  have h3 : HasFDerivAt (fun q => f (env.over T q)) (fderiv ℝ (fun q => f (env.over T q)) q)
      (Function.update q x (q x)) := by rw [Function.update_eq_self]; exact h.hasFDerivAt
  exact (h3.comp_hasDerivAt (q x) h2).deriv

theorem partialsBy_over {W : Set (T → ℝ)} (hW : IsOpen W) (xs : List T) {f : Env → ℝ}
    (hf : ContDiffOn ℝ (⊤ : ℕ∞) (fun q => f (env.over T q)) W) :
    ∀ q ∈ W, partialsBy (xs.map Subtype.val) f (env.over T q) = dirs xs (fun q => f (env.over T q)) q := by
  induction xs generalizing f with
  | nil => intro q _; rfl
  | cons x xs ih =>
    have hd := dir_smooth hW hf (Pi.single x 1)
    have heq : ∀ q ∈ W, partialBy x f (env.over T q) = fderiv ℝ (fun q => f (env.over T q)) q (Pi.single x 1) :=
      fun q hq => partialBy_over T env x ((hf.contDiffAt (hW.mem_nhds hq)).differentiableAt (by simp))
    intro q hq
    have := ih (f := partialBy x f) (hd.congr heq) q hq
    rw [List.map_cons, partialsBy, this, dirs]
    exact dirs_congr hW xs heq q hq

end

/-- The order of the partial derivatives of the function of an expression does not matter. -/
theorem partialsBy_perm [FloatOps F] {ν : SmartNum F → Option ℝ} {e : Expr F} (he : Tree e)
    {xs ys : List Variable} (hp : xs.Perm ys) {env : Env} (hg : env ∈ Good ν {x | x ∈ xs} e) :
    partialsBy xs (fnAll ν e) env = partialsBy ys (fnAll ν e) env := by
  classical
  let T : Finset Variable := xs.toFinset
  let W : Set (T → ℝ) := {q | env.over T q ∈ Good ν {x | x ∈ xs} e}
  have main : ∀ q ∈ W, W ∈ 𝓝 q ∧ ContDiffAt ℝ (⊤ : ℕ∞) (fun q => fnAll ν e (env.over T q)) q := by
    rintro q ⟨⟨r, hr⟩, hq⟩
    obtain ⟨⟨g, h1, h2⟩, h3⟩ := denote_smoothE (ν := ν) (n := (⊤ : ℕ∞)) he (c := fun q => env.over T q) (q₀ := q)
      (S := {x | x ∈ xs})
      (fun v => by
        by_cases hv : v ∈ T
        · simp only [Env.over_mem T env _ hv]
          exact contDiffAt_apply ℝ ℝ _ _
        · simp only [Env.over_not_mem T env _ hv]
          exact contDiffAt_const)
      (fun v hv q' => by
        have hv : v ∉ T := by simpa [T] using hv
        simp only [Env.over_not_mem T env _ hv]) hr hq
    refine ⟨?_, h2.congr_of_eventuallyEq ?_⟩
    · filter_upwards [h1, h3] with q' a b using ⟨⟨_, a⟩, b⟩
    · filter_upwards [h1] with q' a
      rw [fnAll, a]; rfl
  have hW : IsOpen W := isOpen_iff_mem_nhds.2 fun q hq => (main q hq).1
  have hf : ContDiffOn ℝ (⊤ : ℕ∞) (fun q => fnAll ν e (env.over T q)) W :=
    fun q hq => (main q hq).2.contDiffWithinAt
  have h0 : (fun v : T => env v) ∈ W := by
    show env.over T (fun v => env v) ∈ Good ν {x | x ∈ xs} e
    rw [Env.over_self]; exact hg
  have key : ∀ zs : List Variable, (∀ z ∈ zs, z ∈ T) → ∃ ls : List T, ls.map Subtype.val = zs := by
    intro zs hz
    exact ⟨zs.attach.map fun z => ⟨z.1, hz z.1 z.2⟩, by simp⟩
  obtain ⟨ls, hls⟩ := key xs (by simp [T])
  obtain ⟨ks, hks⟩ := key ys (by intro z hz; simpa [T] using hp.mem_iff.2 hz)
  have hperm : ls.Perm ks := by
    have : (ls.map Subtype.val).Perm (ks.map Subtype.val) := by rw [hls, hks]; exact hp
    exact (List.map_perm_map_iff Subtype.val_injective).1 this
  have e1 := partialsBy_over T env hW ls hf _ h0
  have e2 := partialsBy_over T env hW ks hf _ h0
  rw [Env.over_self, hls] at e1
  rw [Env.over_self, hks] at e2
  rw [e1, e2]
  exact dirs_perm hW hperm hf _ h0

/-! ### the values of repeated derivatives -/

section
variable [ExactFloat F]

theorem powInv_powOKs (env : Env) (S : Set Variable) : PowInv (F := F) fun a b =>
    ∃ u, denote SmartNum.value? env a = some u ∧ (0 < u ∨ (u ≠ 0 ∧ ∀ x ∈ S, ¬ Occurs x b)) := by
  rintro a b a' b' hs - ho ⟨u, hu, h⟩
  exact ⟨u, hs _ _ hu, h.imp id fun h => ⟨h.1, fun x hS hx => h.2 x hS (ho x hx)⟩⟩

theorem der_value {x : Variable} {E : Set Env} {S : Set Variable} {e e' : Expr F} (h : Der .strict x e e')
    (he : WF SmartNum.Valid e) (hE : SafeD SmartNum.value? E e) (hx : x ∈ S) {env : Env}
    (hg : env ∈ Good SmartNum.value? S e) :
    denote SmartNum.value? env e' = some (partialBy x (fnAll SmartNum.value? e) env) ∧
    env ∈ Good SmartNum.value? S e' := by
  obtain ⟨⟨r, hr⟩, hp⟩ := hg
  obtain ⟨d, hd, g, hg1, hg2⟩ := h.hasDerivative he hE hr (hp.powOK hx)
  have : partialBy x (fnAll SmartNum.value? e) env = d := by
    unfold partialBy
    have : (fun t => fnAll SmartNum.value? e (env.set x t)) =ᶠ[𝓝 (env x)] g := by
      filter_upwards [hg1] with t ht
      rw [fnAll, ht]; rfl
    rw [this.deriv_eq, hg2.deriv]
  exact ⟨by rw [this, hd], ⟨d, hd⟩, h.powAll (powInv_powOKs env S) he hE hp⟩

theorem partials_value {E : Set Env} {S : Set Variable} {xs : List Variable} (hx : ∀ x ∈ xs, x ∈ S) {e a : Expr F}
    (he : WF SmartNum.Valid e) (hE : SafeD SmartNum.value? E e) (h : partials .strict e xs = .ok a) :
    ∀ env ∈ Good SmartNum.value? S e,
      denote SmartNum.value? env a = some (partialsBy xs (fnAll SmartNum.value? e) env) := by
  induction xs generalizing e with
  | nil =>
    cases h
    rintro env ⟨⟨r, hr⟩, -⟩
    simp [partialsBy, fnAll, hr]
  | cons x xs ih =>
    simp only [partials] at h
    split at h
    · rename_i d hd
      have hD := der_of_derivative he.tree hd
      have wd := hD.wf (numClosed_valid .strict) he
      have hxS := hx x (by simp)
      have hxs : ∀ y ∈ xs, y ∈ S := fun y hy => hx y (by simp [hy])
      intro env hg
      rw [ih hxs wd (hD.safeD he hE) h env (der_value hD he hE hxS hg).2, partialsBy]
      congr 1
      refine partialsBy_congr (good_open he.tree) (fun env' hg' => ?_) hxs env hg
      rw [fnAll, (der_value hD he hE hxS hg').1]; rfl
    · cases h
    · cases h

end

end SymRust
