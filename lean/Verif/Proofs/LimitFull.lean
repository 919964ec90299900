import Verif.Spec.LimitSearch
import Verif.Proofs.LHopital
import Verif.Props.LimitArith
import Verif.Props.LimitSem
import Mathlib.Analysis.Calculus.LHopital
import Mathlib.Analysis.Meromorphic.Order
/-! # Every answer of `limit` is true (exact floats)

By induction on the recursion bound.  The functions are meromorphic at the point, so they tend to a number or to
infinity, and L'Hôpital's rule applies in the form of `Truth.lhopital`. -/

namespace SymRust
open Expr Filter Topology LimitExpression
variable {F : Type}

section
variable [ExactFloat F]

/-- The answer is true of `f` at `p`. -/
def Truth (env : Env) (p : ℝ) (f : ℝ → ℝ) (z : LimitExpression F) : Prop :=
  (z = .infinity ∧ Tendsto (fun t => |f t|) (𝓝[≠] p) atTop) ∨ ∃ r, Tendsto f (𝓝[≠] p) (𝓝 r) ∧ Means env r z

variable {env : Env} {p : ℝ} {f g : ℝ → ℝ} {a b z : LimitExpression F}

theorem Truth.describes (h : Truth env p f z) : z.Describes SmartNum.value? env (𝓝[≠] p) f := by
  rcases h with ⟨rfl, h⟩ | ⟨r, h, hm⟩
  · exact h
  · cases z with
    | infinitesimal => have h0 : r = 0 := hm; subst h0; exact h
    | normal c => exact ⟨r, hm.1, h⟩
    | _ => exact hm.elim

theorem Truth.congr (h : Truth env p f z) (hfg : f =ᶠ[𝓝[≠] p] g) : Truth env p g z := by
  rcases h with ⟨rfl, h⟩ | ⟨r, h, hm⟩
  · exact .inl ⟨rfl, h.congr' (hfg.mono fun t ht => by simp only [ht])⟩
  · exact .inr ⟨r, h.congr' hfg, hm⟩

theorem Truth.wf {c : Expr F} (h : Truth env p f (.normal c)) : WF SmartNum.Valid c := by
  rcases h with ⟨h, -⟩ | ⟨r, -, hm⟩
  · cases h
  · exact hm.2.2

theorem Truth.not_bf (h : Truth env p f z) : z ≠ .boundedFluctuation := by
  rintro rfl
  rcases h with ⟨h, -⟩ | ⟨r, -, h⟩
  · cases h
  · exact h

theorem Truth.of_infinity (h : Tendsto (fun t => |f t|) (𝓝[≠] p) atTop) (hz : Truth env p f z) : z = .infinity := by
  rcases hz with ⟨h, -⟩ | ⟨r, h', -⟩
  · exact h
  · exact (not_tendsto_atTop_of_tendsto_nhds h'.abs h).elim

theorem Truth.infinity (h : Truth env p f (.infinity : LimitExpression F)) :
    Tendsto (fun t => |f t|) (𝓝[≠] p) atTop := h.describes

theorem Truth.ne_zero (h : Truth env p f (.infinity : LimitExpression F)) : ∀ᶠ t in 𝓝[≠] p, f t ≠ 0 := by
  filter_upwards [h.infinity.eventually_gt_atTop 0] with t ht
  exact abs_pos.1 ht

theorem Truth.finish (h : Truth env p f a) (hf : finish .strict a = .ok z) : Truth env p f z := by
  rcases h with ⟨rfl, h⟩ | ⟨r, h, hm⟩
  · cases hf; exact .inl ⟨rfl, h⟩
  · exact .inr ⟨r, h, finish_means hm hf⟩

theorem Truth.add (ha : Truth env p f a) (hb : Truth env p g b) (h : a.add b = some z) :
    Truth env p (fun t => f t + g t) z := by
  have hd := C41_add a b z ha.describes hb.describes h
  have na := ha.not_bf
  have nb := hb.not_bf
  rcases ha with ⟨rfl, ha⟩ | ⟨r, ha, ma⟩
  · have : z = .infinity := by cases b <;> simp_all [LimitExpression.add]
    subst this; exact .inl ⟨rfl, hd⟩
  rcases hb with ⟨rfl, hb⟩ | ⟨s, hb, mb⟩
  · have : z = .infinity := by cases a <;> simp_all [LimitExpression.add]
    subst this; exact .inl ⟨rfl, hd⟩
  obtain ⟨z', hz, hm⟩ := add_means ma mb
  rw [h] at hz; cases hz
  exact .inr ⟨_, ha.add hb, hm⟩

theorem Truth.mul (ha : Truth env p f a) (hb : Truth env p g b)
    (hna : b = .infinity → a.NonzeroNormal SmartNum.value? env)
    (hnb : a = .infinity → b.NonzeroNormal SmartNum.value? env) (h : a.mul b = some z) :
    Truth env p (fun t => f t * g t) z := by
  have hd := C41_mul a b z ha.describes hb.describes hna hnb h
  have na := ha.not_bf
  have nb := hb.not_bf
  rcases ha with ⟨rfl, ha⟩ | ⟨r, ha, ma⟩
  · have : z = .infinity := by cases b <;> simp_all [LimitExpression.mul]
    subst this; exact .inl ⟨rfl, hd⟩
  rcases hb with ⟨rfl, hb⟩ | ⟨s, hb, mb⟩
  · have : z = .infinity := by cases a <;> simp_all [LimitExpression.mul]
    subst this; exact .inl ⟨rfl, hd⟩
  obtain ⟨z', hz, hm⟩ := mul_means ma mb
  rw [h] at hz; cases hz
  exact .inr ⟨_, ha.mul hb, hm⟩

theorem Truth.div (ha : Truth env p f a) (hb : Truth env p g b) (hg : ∀ᶠ t in 𝓝[≠] p, g t ≠ 0)
    (hna : b = .infinitesimal → a.NonzeroNormal SmartNum.value? env)
    (hnb : a ≠ .infinity → b.NonzeroNormal SmartNum.value? env) (h : a.div b = some z) :
    Truth env p (fun t => f t / g t) z := by
  have hd := C41_div a b z ha.describes hb.describes hg hna hnb h
  have na := ha.not_bf
  have nb := hb.not_bf
  rcases ha with ⟨rfl, ha⟩ | ⟨r, ha, ma⟩
  · have : z = .infinity := by cases b <;> simp_all [LimitExpression.div]
    subst this; exact .inl ⟨rfl, hd⟩
  have hai : a ≠ .infinity := by rintro rfl; exact ma
  rcases hb with ⟨rfl, hb⟩ | ⟨s, hb, mb⟩
  · have : z = .infinitesimal := by cases a <;> simp_all [LimitExpression.div]
    subst this; exact .inr ⟨0, hd, rfl⟩
  by_cases hs : s = 0
  · cases b with
    | infinitesimal =>
      have : z = .infinity := by cases a <;> simp_all [LimitExpression.div]
      subst this; exact .inl ⟨rfl, hd⟩
    | normal c =>
      obtain ⟨v, hv, hv0⟩ := hnb hai
      rw [mb.1] at hv; cases hv
      exact absurd hs hv0
    | _ => exact mb.elim
  · obtain ⟨z', hz, hm⟩ := div_means ma mb hs
    rw [h] at hz; cases hz
    exact .inr ⟨_, ha.div hb hs, hm⟩

/-- L'Hôpital's rule for answers. -/
theorem Truth.lhopital {f' g' : ℝ → ℝ} (hff' : ∀ᶠ t in 𝓝[≠] p, HasDerivAt f (f' t) t)
    (hgg' : ∀ᶠ t in 𝓝[≠] p, HasDerivAt g (g' t) t) (hg' : ∀ᶠ t in 𝓝[≠] p, g' t ≠ 0)
    (hf : Tendsto f (𝓝[≠] p) (𝓝 0)) (hg : Tendsto g (𝓝[≠] p) (𝓝 0))
    (h : Truth env p (fun t => f' t / g' t) z) : Truth env p (fun t => f t / g t) z := by
  rcases h with ⟨rfl, h⟩ | ⟨r, h, hm⟩
  · refine .inl ⟨rfl, ?_⟩
    have h' : Tendsto (fun t => f' t / g' t) (𝓝[≠] p) (comap (fun u : ℝ => |u|) atTop) := tendsto_comap_iff.2 h
    exact tendsto_comap_iff.1 (HasDerivAt.lhopital_zero_nhdsNE hff' hgg' hg' hf hg h')
  · exact .inr ⟨r, HasDerivAt.lhopital_zero_nhdsNE hff' hgg' hg' hf hg h, hm⟩

/-! ### orders -/

theorem deriv_ne_zero_of_zero (hg : MeromorphicAt g p) (h0 : Tendsto g (𝓝[≠] p) (𝓝 0))
    (hne : ∀ᶠ t in 𝓝[≠] p, g t ≠ 0) : ∀ᶠ t in 𝓝[≠] p, deriv g t ≠ 0 := by
  have h1 := (tendsto_zero_iff_meromorphicOrderAt_pos hg).1 h0
  have h2 := (meromorphicOrderAt_ne_top_iff_eventually_ne_zero hg).2 hne
  obtain ⟨n, hn⟩ := WithTop.ne_top_iff_exists.1 h2
  rw [← hn] at h1
  have hn0 : 0 < n := by exact_mod_cast h1
  have h3 := meromorphicOrderAt_deriv_eq_sub_one (n := n) (by exact_mod_cast hn0.ne') hn.symm
  refine (meromorphicOrderAt_ne_top_iff_eventually_ne_zero hg.deriv).1 ?_
  rw [h3]; exact WithTop.coe_ne_top

theorem deriv_infinity (hg : MeromorphicAt g p) (h0 : Tendsto (fun t => |g t|) (𝓝[≠] p) atTop) :
    Tendsto (fun t => |deriv g t|) (𝓝[≠] p) atTop := by
  have h0' : Tendsto g (𝓝[≠] p) (Bornology.cobounded ℝ) := tendsto_norm_atTop_iff_cobounded.1 h0
  have h1 := (tendsto_cobounded_iff_meromorphicOrderAt_neg hg).1 h0'
  obtain ⟨n, hn⟩ := WithTop.ne_top_iff_exists.1 (ne_top_of_lt h1)
  rw [← hn] at h1
  have hn0 : n < 0 := by exact_mod_cast h1
  have h3 := meromorphicOrderAt_deriv_eq_sub_one (n := n) (by exact_mod_cast hn0.ne) hn.symm
  have := tendsto_cobounded_of_meromorphicOrderAt_neg (f := deriv g) (x := p)
    (by rw [h3]; exact_mod_cast (by omega : n - 1 < 0))
  exact tendsto_norm_atTop_iff_cobounded.2 this

/-! ### the hypotheses along the search -/

/-- Near the point the argument of `sin` or `cos` is an analytic function. -/
def SmoothAt (env : Env) (x : Variable) (pt : Expr F) (p : ℝ) (a : Expr F) : Prop :=
  ∃ g : ℝ → ℝ, AnalyticAt ℝ g p ∧ (∀ᶠ t in 𝓝 p, denote SmartNum.value? (env.set x t) a = some (g t)) ∧
    (pt.isZero = true → Real.sin (g p) = 0)

theorem trigInv_smooth (env : Env) (x : Variable) (pt : Expr F) (p : ℝ) : TrigInv (SmoothAt env x pt p) := by
  rintro a a' hs ⟨g, h1, h2, h3⟩
  exact ⟨g, h1, h2.mono fun t ht => hs _ _ ht, h3⟩

structure Punctured (env : Env) (x : Variable) (pt : Expr F) (p : ℝ) (e : Expr F) : Prop where
  wf : WF SmartNum.Valid e
  safe : SafeD SmartNum.value? (AtPoint SmartNum.value? x pt) e
  ln : LnOK x pt e
  def' : ∀ᶠ t in 𝓝[≠] p, ∃ r, denote SmartNum.value? (env.set x t) e = some r
  pow : ∀ᶠ t in 𝓝[≠] p, PowOK SmartNum.value? (env.set x t) x e
  trig : TrigAll (SmoothAt env x pt p) e

variable {x : Variable} {pt : Expr F}

theorem Punctured.fn_eq {e : Expr F} (h : Punctured env x pt p e) :
    ∀ᶠ t in 𝓝[≠] p, denote SmartNum.value? (env.set x t) e = some (fn SmartNum.value? env x e t) := by
  filter_upwards [h.def'] with t ⟨r, hr⟩
  rw [fn, hr]; rfl

theorem Punctured.derivative {e d : Expr F} (h : Punctured env x pt p e) (hd : e.derivative .strict x = .ok d) :
    Punctured env x pt p d ∧
    ∀ᶠ t in 𝓝[≠] p, HasDerivAt (fn SmartNum.value? env x e) (fn SmartNum.value? env x d t) t := by
  have D := der_of_derivative h.wf.tree hd
  have key : ∀ᶠ t in 𝓝[≠] p, ∃ r, denote SmartNum.value? (env.set x t) d = some r ∧
      HasDerivAt (fn SmartNum.value? env x e) r t := by
    filter_upwards [h.def', h.pow] with t ⟨r, hr⟩ hp
    obtain ⟨y, hy, g, hg1, hg2⟩ := D.hasDerivative h.wf h.safe hr hp
    simp only [Env.set_same, Env.set_set] at hg1 hg2
    refine ⟨y, hy, hg2.congr_of_eventuallyEq ?_⟩
    filter_upwards [hg1] with s hs
    rw [fn, hs]; rfl
  refine ⟨⟨D.wf (numClosed_valid .strict) h.wf, D.safeD h.wf h.safe, D.powAll (powInv_ln x pt) h.wf h.safe h.ln,
    key.mono fun t ⟨r, hr, _⟩ => ⟨r, hr⟩, ?_, D.trigAll (trigInv_smooth env x pt p) h.wf h.safe h.trig⟩, ?_⟩
  · filter_upwards [h.pow] with t ht using D.powOK h.wf h.safe ht
  · filter_upwards [key] with t ⟨r, hr, hD⟩
    rw [show fn SmartNum.value? env x d t = r by rw [fn, hr]; rfl]; exact hD

theorem Punctured.add_iff {l r : Expr F} (h : Punctured env x pt p (l.add r)) :
    Punctured env x pt p l ∧ Punctured env x pt p r := by
  refine ⟨⟨(WF.add_iff.1 h.wf).1, (safeD_add.1 h.safe).1, (powAll_add.1 h.ln).1, ?_,
      h.pow.mono fun t ht => (powAll_add.1 ht).1, (trigAll_add.1 h.trig).1⟩,
    ⟨(WF.add_iff.1 h.wf).2, (safeD_add.1 h.safe).2, (powAll_add.1 h.ln).2, ?_,
      h.pow.mono fun t ht => (powAll_add.1 ht).2, (trigAll_add.1 h.trig).2⟩⟩
  all_goals
    filter_upwards [h.def'] with t ⟨w, hw⟩
    obtain ⟨u, v, hu, hv, -⟩ := denote_add.1 hw
  · exact ⟨u, hu⟩
  · exact ⟨v, hv⟩

theorem Punctured.mul_iff {l r : Expr F} (h : Punctured env x pt p (l.mul r)) :
    Punctured env x pt p l ∧ Punctured env x pt p r := by
  refine ⟨⟨(WF.mul_iff.1 h.wf).1, (safeD_mul.1 h.safe).1, (powAll_mul.1 h.ln).1, ?_,
      h.pow.mono fun t ht => (powAll_mul.1 ht).1, (trigAll_mul.1 h.trig).1⟩,
    ⟨(WF.mul_iff.1 h.wf).2, (safeD_mul.1 h.safe).2, (powAll_mul.1 h.ln).2, ?_,
      h.pow.mono fun t ht => (powAll_mul.1 ht).2, (trigAll_mul.1 h.trig).2⟩⟩
  all_goals
    filter_upwards [h.def'] with t ⟨w, hw⟩
    obtain ⟨u, v, hu, hv, -⟩ := denote_mul.1 hw
  · exact ⟨u, hu⟩
  · exact ⟨v, hv⟩

theorem Punctured.div_iff {l r : Expr F} : Punctured env x pt p (l.div r) ↔
    Punctured env x pt p l ∧ Punctured env x pt p r ∧ ∀ᶠ t in 𝓝[≠] p, fn SmartNum.value? env x r t ≠ 0 := by
  constructor
  · intro h
    refine ⟨⟨(WF.div_iff.1 h.wf).1, (safeD_div.1 h.safe).1, (powAll_div.1 h.ln).1, ?_,
        h.pow.mono fun t ht => (powAll_div.1 ht).1, (trigAll_div.1 h.trig).1⟩,
      ⟨(WF.div_iff.1 h.wf).2, (safeD_div.1 h.safe).2, (powAll_div.1 h.ln).2, ?_,
        h.pow.mono fun t ht => (powAll_div.1 ht).2, (trigAll_div.1 h.trig).2⟩, ?_⟩
    all_goals
      filter_upwards [h.def'] with t ⟨w, hw⟩
      obtain ⟨u, v, hu, hv, h0, -⟩ := denote_div.1 hw
    · exact ⟨u, hu⟩
    · exact ⟨v, hv⟩
    · rw [fn, hv]; exact h0
  · rintro ⟨hl, hr, h0⟩
    refine ⟨.div _ _ hl.wf hr.wf, safeD_div.2 ⟨hl.safe, hr.safe⟩, powAll_div.2 ⟨hl.ln, hr.ln⟩, ?_, ?_,
      trigAll_div.2 ⟨hl.trig, hr.trig⟩⟩
    · filter_upwards [hl.fn_eq, hr.fn_eq, h0] with t h1 h2 h3
      exact ⟨_, denote_div.2 ⟨_, _, h1, h2, h3, rfl⟩⟩
    · filter_upwards [hl.pow, hr.pow] with t h1 h2 using powAll_div.2 ⟨h1, h2⟩

theorem Punctured.add {l r : Expr F} (hl : Punctured env x pt p l) (hr : Punctured env x pt p r) :
    Punctured env x pt p (l.add r) := by
  refine ⟨.add _ _ hl.wf hr.wf, safeD_add.2 ⟨hl.safe, hr.safe⟩, powAll_add.2 ⟨hl.ln, hr.ln⟩, ?_, ?_,
    trigAll_add.2 ⟨hl.trig, hr.trig⟩⟩
  · filter_upwards [hl.fn_eq, hr.fn_eq] with t h1 h2
    exact ⟨_, denote_add.2 ⟨_, _, h1, h2, rfl⟩⟩
  · filter_upwards [hl.pow, hr.pow] with t h1 h2 using powAll_add.2 ⟨h1, h2⟩

theorem fn_add_eq {l r : Expr F} (hl : Punctured env x pt p l) (hr : Punctured env x pt p r) :
    fn SmartNum.value? env x (l.add r) =ᶠ[𝓝[≠] p]
      fun t => fn SmartNum.value? env x l t + fn SmartNum.value? env x r t := by
  filter_upwards [hl.fn_eq, hr.fn_eq] with t h1 h2
  rw [fn, denote_add.2 ⟨_, _, h1, h2, rfl⟩]; rfl

theorem fn_mul_eq {l r : Expr F} (hl : Punctured env x pt p l) (hr : Punctured env x pt p r) :
    fn SmartNum.value? env x (l.mul r) =ᶠ[𝓝[≠] p]
      fun t => fn SmartNum.value? env x l t * fn SmartNum.value? env x r t := by
  filter_upwards [hl.fn_eq, hr.fn_eq] with t h1 h2
  rw [fn, denote_mul.2 ⟨_, _, h1, h2, rfl⟩]; rfl

theorem fn_div_eq {l r : Expr F} (hl : Punctured env x pt p l) (hr : Punctured env x pt p r)
    (h0 : ∀ᶠ t in 𝓝[≠] p, fn SmartNum.value? env x r t ≠ 0) :
    fn SmartNum.value? env x (l.div r) =ᶠ[𝓝[≠] p]
      fun t => fn SmartNum.value? env x l t / fn SmartNum.value? env x r t := by
  filter_upwards [hl.fn_eq, hr.fn_eq, h0] with t h1 h2 h3
  rw [fn, denote_div.2 ⟨_, _, h1, h2, h3, rfl⟩]; rfl

theorem Punctured.one : Punctured env x pt p (Expr.one : Expr F) ∧ ∀ t, fn SmartNum.value? env x (Expr.one : Expr F) t = 1 := by
  have h1 : ∀ env : Env, denote SmartNum.value? env (Expr.one : Expr F) = some 1 := denote_one
  refine ⟨⟨.num _ ((numClosed_valid .strict).ofI64 1), safeD_ofNum _, powAll_ofNum _, .of_forall fun t => ⟨1, h1 _⟩,
    .of_forall fun t => powAll_ofNum _, trigAll_ofNum _⟩, fun t => ?_⟩
  rw [fn, h1]; rfl

/-- `1 / r` -/
theorem Punctured.inv {r : Expr F} (hr : Punctured env x pt p r)
    (h0 : ∀ᶠ t in 𝓝[≠] p, fn SmartNum.value? env x r t ≠ 0) :
    Punctured env x pt p (Expr.one.div r) ∧
    fn SmartNum.value? env x (Expr.one.div r) =ᶠ[𝓝[≠] p] fun t => 1 / fn SmartNum.value? env x r t := by
  refine ⟨Punctured.div_iff.2 ⟨Punctured.one.1, hr, h0⟩, ?_⟩
  filter_upwards [fn_div_eq Punctured.one.1 hr h0] with t ht
  rw [ht, (Punctured.one (pt := pt) (p := p)).2]

/-- `l / (1 / r)` -/
theorem Punctured.over_inv {l r : Expr F} (hl : Punctured env x pt p l) (hr : Punctured env x pt p r)
    (h0 : ∀ᶠ t in 𝓝[≠] p, fn SmartNum.value? env x r t ≠ 0) :
    Punctured env x pt p (l.div (Expr.one.div r)) ∧
    fn SmartNum.value? env x (l.div (Expr.one.div r)) =ᶠ[𝓝[≠] p]
      fun t => fn SmartNum.value? env x l t * fn SmartNum.value? env x r t := by
  obtain ⟨h1, h2⟩ := hr.inv h0
  have h3 : ∀ᶠ t in 𝓝[≠] p, fn SmartNum.value? env x (Expr.one.div r) t ≠ 0 := by
    filter_upwards [h2, h0] with t ht h
    rw [ht]; exact one_div_ne_zero h
  refine ⟨Punctured.div_iff.2 ⟨hl, h1, h3⟩, ?_⟩
  filter_upwards [fn_div_eq hl h1 h3, h2, h0] with t ht ht' h
  rw [ht, ht']; field_simp


/-! ### the search -/

variable {k : UInt64} {Z : Expr F → Prop}

theorem SearchFine.now {e d : Expr F} (h : SearchFine .strict x pt k Z e) (ha : AsksNow .strict x pt k e d) :
    SearchFine .strict x pt k Z d :=
  ⟨fun l r h1 => h.mul l r (.step ha h1), fun l r l' r' h1 h2 => h.div l r l' r' (.step ha h1) h2⟩

/-- What the induction gives for one recursive call. -/
def Call (env : Env) (x : Variable) (pt : Expr F) (p : ℝ) (k : UInt64) (Z : Expr F → Prop) (n : Nat) : Prop :=
  ∀ {e : Expr F} {z : LimitExpression F}, Punctured env x pt p e → SearchFine .strict x pt k Z e →
    limit .strict x pt k n e = .ok z →
    MeromorphicAt (fn SmartNum.value? env x e) p ∧ Truth env p (fn SmartNum.value? env x e) z

/-- Both operands unbounded: their derivatives are, too, so the loop finds no answer. -/
theorem divLoop_infinity {n : Nat} (ih : Call env x pt p k Z n) {l0 r0 : Expr F}
    (hf : SearchFine .strict x pt k Z (l0.div r0)) (j : Nat) : ∀ {l r : Expr F} {w : LimitExpression F},
    Punctured env x pt p l → Punctured env x pt p r → Stage .strict x pt k l0 r0 l r →
    Tendsto (fun t => |fn SmartNum.value? env x l t|) (𝓝[≠] p) atTop →
    Tendsto (fun t => |fn SmartNum.value? env x r t|) (𝓝[≠] p) atTop →
    divLoop .strict (limit .strict x pt k n) x j l r ≠ .ok w := by
  induction j with
  | zero => intro l r w _ _ _ _ _ h; cases h
  | succ j jh =>
    intro l r w hl hr hs tl tr h
    simp only [divLoop, LOut.bind_eq_ok] at h
    obtain ⟨A, hA, B, hB, h⟩ := h
    obtain ⟨ml, ta⟩ := ih hl (hf.now (.dividend _ _ _ _ hs)) hA
    obtain ⟨mr, tb⟩ := ih hr (hf.now (.divisor _ _ _ _ hs)) hB
    obtain rfl := ta.of_infinity tl
    obtain rfl := tb.of_infinity tr
    simp only [LimitExpression.div, LOut.bind_eq_ok, LOut.ofOut_eq_ok] at h
    obtain ⟨l', h1, r', h2, h⟩ := h
    obtain ⟨hl', dl⟩ := hl.derivative h1
    obtain ⟨hr', dr⟩ := hr.derivative h2
    refine jh hl' hr' (.next hs ⟨n, hA⟩ ⟨n, hB⟩ rfl h1 h2) ?_ ?_ h
    · refine (deriv_infinity ml tl).congr' ?_
      filter_upwards [dl] with t ht using by rw [ht.deriv]
    · refine (deriv_infinity mr tr).congr' ?_
      filter_upwards [dr] with t ht using by rw [ht.deriv]

theorem divLoop_truth {n : Nat} (hZ : ∀ c, WF SmartNum.Valid c → denote SmartNum.value? env c = some 0 → Z c)
    (ih : Call env x pt p k Z n) {l0 r0 : Expr F}
    (hf : SearchFine .strict x pt k Z (l0.div r0)) (j : Nat) : ∀ {l r : Expr F} {w : LimitExpression F},
    Punctured env x pt p l → Punctured env x pt p r → (∀ᶠ t in 𝓝[≠] p, fn SmartNum.value? env x r t ≠ 0) →
    Stage .strict x pt k l0 r0 l r → divLoop .strict (limit .strict x pt k n) x j l r = .ok w →
    Truth env p (fun t => fn SmartNum.value? env x l t / fn SmartNum.value? env x r t) w := by
  induction j with
  | zero => intro l r w _ _ _ _ h; cases h
  | succ j jh =>
    intro l r w hl hr h0 hs h
    simp only [divLoop, LOut.bind_eq_ok] at h
    obtain ⟨A, hA, B, hB, h⟩ := h
    obtain ⟨ml, ta⟩ := ih hl (hf.now (.dividend _ _ _ _ hs)) hA
    obtain ⟨mr, tb⟩ := ih hr (hf.now (.divisor _ _ _ _ hs)) hB
    cases hd : A.div B with
    | some w' =>
      rw [hd] at h; cases h
      obtain ⟨f1, f2⟩ := hf.div l0 r0 l r (.refl _) hs
      refine ta.div tb h0 ?_ ?_ hd
      · rintro rfl
        cases A with
        | normal c =>
          obtain ⟨v, hv, -⟩ := ta.describes
          refine ⟨v, hv, ?_⟩
          rintro rfl
          refine f2 c ⟨n, hA⟩ ?_ ⟨n, hB⟩ (hZ c ta.wf hv)
          simp only [LimitExpression.div] at hd
          split_ifs at hd with hc
          simpa using hc
        | _ => trivial
      · intro hi
        cases B with
        | normal c =>
          obtain ⟨v, hv, -⟩ := tb.describes
          refine ⟨v, hv, ?_⟩
          rintro rfl
          exact f1 A c ⟨n, hA⟩ hi ⟨n, hB⟩ (by rw [hd]; simp) (hZ c tb.wf hv)
        | _ => trivial
    | none =>
      rw [hd] at h
      simp only [LOut.bind_eq_ok, LOut.ofOut_eq_ok] at h
      obtain ⟨l', h1, r', h2, h⟩ := h
      obtain ⟨hl', dl⟩ := hl.derivative h1
      obtain ⟨hr', dr⟩ := hr.derivative h2
      have hs' := Stage.next hs ⟨n, hA⟩ ⟨n, hB⟩ hd h1 h2
      have zero : ∀ {e : Expr F} {a : LimitExpression F}, Truth env p (fn SmartNum.value? env x e) a →
          (a = .infinitesimal ∨ ∃ c, a = .normal c ∧ c.isZero = true) →
          Tendsto (fn SmartNum.value? env x e) (𝓝[≠] p) (𝓝 0) := by
        rintro e a ha (rfl | ⟨c, rfl, hc⟩)
        · exact ha.describes
        · rcases ha with ⟨h, -⟩ | ⟨r, ht, hm⟩
          · cases h
          · obtain rfl := isZero_value hm.2.2 hc hm.1
            exact ht
      have both : Tendsto (fn SmartNum.value? env x l) (𝓝[≠] p) (𝓝 0) →
          Tendsto (fn SmartNum.value? env x r) (𝓝[≠] p) (𝓝 0) →
          Truth env p (fun t => fn SmartNum.value? env x l t / fn SmartNum.value? env x r t) w := by
        intro tl tr
        have h0' : ∀ᶠ t in 𝓝[≠] p, fn SmartNum.value? env x r' t ≠ 0 := by
          filter_upwards [dr, deriv_ne_zero_of_zero mr tr h0] with t ht hn
          rwa [ht.deriv] at hn
        exact Truth.lhopital dl dr h0' tl tr (jh hl' hr' h0' hs' h)
      rcases (C41_div_err A B).1 hd with rfl | ⟨rfl, rfl⟩ | ⟨rfl, h3⟩ | ⟨c, rfl, hc, h3⟩
      · exact absurd rfl tb.not_bf
      · exact absurd h (divLoop_infinity ih hf j hl' hr' hs'
          ((deriv_infinity ml ta.infinity).congr' (by filter_upwards [dl] with t ht using by rw [ht.deriv]))
          ((deriv_infinity mr tb.infinity).congr' (by filter_upwards [dr] with t ht using by rw [ht.deriv])))
      · refine both (zero ta ?_) (zero tb (.inl rfl))
        rcases h3 with rfl | rfl | h3
        · exact .inl rfl
        · exact absurd rfl ta.not_bf
        · exact .inr h3
      · refine both (zero ta ?_) (zero tb (.inr ⟨c, rfl, hc⟩))
        rcases h3 with rfl | rfl
        · exact .inl rfl
        · exact absurd rfl ta.not_bf

/-- Every answer of a fine search is true. -/
theorem limit_truth (hpt : denote SmartNum.value? env pt = some p) (wp : WF SmartNum.Valid pt)
    (sp : Safe SmartNum.value? Set.univ pt) (hZ : ∀ c, WF SmartNum.Valid c → denote SmartNum.value? env c = some 0 → Z c) (n : Nat) :
    Call env x pt p k Z n := by
  induction n with
  | zero => intro e z _ _ h; cases h
  | succ n ih =>
    intro e z he hf h
    have smooth : ∀ {e : Expr F} {g : ℝ → ℝ}, (∀ᶠ t in 𝓝 p, denote SmartNum.value? (env.set x t) e = some (g t)) →
        AnalyticAt ℝ g p → MeromorphicAt (fn SmartNum.value? env x e) p ∧
          Tendsto (fn SmartNum.value? env x e) (𝓝[≠] p) (𝓝 (g p)) := by
      intro e g h1 h2
      have heq : g =ᶠ[𝓝[≠] p] fn SmartNum.value? env x e := by
        filter_upwards [h1.filter_mono nhdsWithin_le_nhds] with t ht
        rw [fn, ht]; rfl
      exact ⟨h2.meromorphicAt.congr heq, (h2.continuousAt.tendsto.mono_left nhdsWithin_le_nhds).congr' heq⟩
    have hw := he.wf
    cases hw with
    | num v hv =>
      rw [limit_ofNum] at h; cases h
      obtain ⟨t, r, hr⟩ := he.def'.exists
      rw [denote_ofNum] at hr
      obtain ⟨h1, h2⟩ := smooth (e := ofNum v) (g := fun _ => r) (.of_forall fun t => by rw [denote_ofNum]; exact hr)
        analyticAt_const
      exact ⟨h1, .inr ⟨r, h2, by rw [denote_ofNum]; exact hr, safe_ofNum _, .num _ hv⟩⟩
    | var v =>
      rw [limit_ofVar, LOut.bind_eq_ok] at h
      obtain ⟨a, h1, h⟩ := h
      by_cases hv : v = x
      · subst hv
        obtain ⟨g1, g2⟩ := smooth (e := ofVar v) (g := fun t => t) (.of_forall fun t => by simp)
          analyticAt_id
        refine ⟨g1, Truth.finish ?_ h⟩
        rw [if_pos rfl] at h1
        split_ifs at h1 with hz
        · cases h1
          have : p = 0 := isZero_value wp hz hpt
          exact .inr ⟨p, g2, this⟩
        · cases h1
          exact .inr ⟨p, g2, hpt, sp, wp⟩
      · obtain ⟨g1, g2⟩ := smooth (e := ofVar v) (g := fun _ => env v)
          (.of_forall fun t => by rw [denote_ofVar, Env.set_ne _ _ hv]) analyticAt_const
        refine ⟨g1, Truth.finish ?_ h⟩
        rw [if_neg hv] at h1
        cases h1
        exact .inr ⟨env v, g2, denote_ofVar .., safe_ofVar _, .var _⟩
    | neg a _ => rw [limit_neg] at h; cases h
    | exp a _ => cases h
    | ln a _ => cases h
    | pow a b _ _ => cases h
    | sub a b ha hb =>
      exfalso
      cases n with
      | zero => cases h
      | succ n =>
        rw [limit_sub, limit_add, addBody] at h
        cases n with
        | zero => cases h
        | succ n => rw [limit_neg] at h; cases h
    | sin a ha =>
      rw [limit_sin, LOut.bind_eq_ok] at h
      obtain ⟨w, h1, h⟩ := h
      obtain ⟨⟨g, g1, g2, g3⟩, -⟩ := trigAll_sin.1 he.trig
      obtain ⟨k1, k2⟩ := smooth (e := a.sin) (g := fun t => Real.sin (g t))
        (g2.mono fun t ht => denote_sin.2 ⟨_, ht, rfl⟩) (AnalyticAt.fun_comp Real.contDiff_sin.contDiffAt.analyticAt g1)
      refine ⟨k1, Truth.finish ?_ h⟩
      split_ifs at h1 with hz
      · cases h1
        exact .inr ⟨_, k2, g3 hz⟩
      · exact .inr ⟨_, k2, substLimit_means hpt wp sp he.wf he.safe.1 he.ln
          (denote_sin.2 ⟨_, g2.self_of_nhds, rfl⟩) h1⟩
    | cos a ha =>
      rw [limit_cos, LOut.bind_eq_ok] at h
      obtain ⟨w, h1, h⟩ := h
      obtain ⟨⟨g, g1, g2, g3⟩, -⟩ := trigAll_cos.1 he.trig
      obtain ⟨k1, k2⟩ := smooth (e := a.cos) (g := fun t => Real.cos (g t))
        (g2.mono fun t ht => denote_cos.2 ⟨_, ht, rfl⟩) (AnalyticAt.fun_comp Real.contDiff_cos.contDiffAt.analyticAt g1)
      exact ⟨k1, Truth.finish (.inr ⟨_, k2, substLimit_means hpt wp sp he.wf he.safe.1 he.ln
          (denote_cos.2 ⟨_, g2.self_of_nhds, rfl⟩) h1⟩) h⟩
    | div l r hl hr =>
      rw [limit_div, LOut.bind_eq_ok] at h
      obtain ⟨w, h1, h⟩ := h
      obtain ⟨pl, pr, h0⟩ := Punctured.div_iff.1 he
      have heq := fn_div_eq pl pr h0
      refine ⟨?_, Truth.finish ((divLoop_truth hZ ih hf _ pl pr h0 .start h1).congr heq.symm) h⟩
      simp only [divLoop, LOut.bind_eq_ok] at h1
      obtain ⟨A, hA, B, hB, -⟩ := h1
      exact ((ih pl (hf.now (.dividend _ _ _ _ .start)) hA).1.div
        (ih pr (hf.now (.divisor _ _ _ _ .start)) hB).1).congr heq.symm
    | add l r hl hr =>
      rw [limit_add, LOut.bind_eq_ok] at h
      obtain ⟨w, h1, h⟩ := h
      obtain ⟨pl, pr⟩ := he.add_iff
      have heq := fn_add_eq pl pr
      simp only [addBody, LOut.bind_eq_ok] at h1
      obtain ⟨B, hB, A, hA, h1⟩ := h1
      obtain ⟨ml, tl⟩ := ih pl (hf.now (.addLeft _ _)) hA
      obtain ⟨mr, tr⟩ := ih pr (hf.now (.addRight _ _)) hB
      refine ⟨(ml.add mr).congr heq.symm, Truth.finish ?_ h⟩
      cases hd : A.add B with
      | some w' =>
        rw [hd] at h1; cases h1
        exact (tl.add tr hd).congr heq.symm
      | none =>
        rw [hd] at h1
        obtain ⟨rfl, -⟩ := (C41_add_err A B).1 hd
        have h0 := tr.ne_zero
        have p1 : Punctured env x pt p ((l.div r).add Expr.one) := (Punctured.div_iff.2 ⟨pl, pr, h0⟩).add Punctured.one.1
        obtain ⟨p2, q2⟩ := p1.over_inv pr h0
        refine (ih p2 (hf.now (.addAgain l r A ⟨n, hA⟩ ⟨n, hB⟩ hd)) h1).2.congr ?_
        filter_upwards [q2, heq, fn_add_eq (Punctured.div_iff.2 ⟨pl, pr, h0⟩) (Punctured.one (pt := pt) (p := p)).1,
          fn_div_eq pl pr h0, h0] with t e1 e2 e3 e4 e5
        rw [e1, e2, e3, e4, (Punctured.one (pt := pt) (p := p)).2]
        field_simp
    | mul l r hl hr =>
      rw [limit_mul, LOut.bind_eq_ok] at h
      obtain ⟨w, h1, h⟩ := h
      obtain ⟨pl, pr⟩ := he.mul_iff
      have heq := fn_mul_eq pl pr
      simp only [mulBody, LOut.bind_eq_ok] at h1
      obtain ⟨B, hB, A, hA, h1⟩ := h1
      obtain ⟨ml, tl⟩ := ih pl (hf.now (.mulLeft _ _)) hA
      obtain ⟨mr, tr⟩ := ih pr (hf.now (.mulRight _ _)) hB
      refine ⟨(ml.mul mr).congr heq.symm, Truth.finish ?_ h⟩
      have hfine := hf.mul l r (.refl _)
      cases hd : A.mul B with
      | some w' =>
        rw [hd] at h1; cases h1
        refine (tl.mul tr ?_ ?_ hd).congr heq.symm
        · rintro rfl
          cases A with
          | normal c =>
            obtain ⟨v, hv, -⟩ := tl.describes
            refine ⟨v, hv, ?_⟩
            rintro rfl
            exact hfine c (.inr ⟨⟨n, hA⟩, ⟨n, hB⟩⟩) (hZ c tl.wf hv)
          | _ => trivial
        · rintro rfl
          cases B with
          | normal c =>
            obtain ⟨v, hv, -⟩ := tr.describes
            refine ⟨v, hv, ?_⟩
            rintro rfl
            exact hfine c (.inl ⟨⟨n, hA⟩, ⟨n, hB⟩⟩) (hZ c tr.wf hv)
          | _ => trivial
      | none =>
        rw [hd] at h1
        rcases (C41_mul_err A B).1 hd with ⟨rfl, rfl | rfl⟩ | ⟨rfl, rfl | rfl⟩
        · obtain ⟨p2, q2⟩ := pr.over_inv pl tl.ne_zero
          refine (ih p2 (hf.now (.mulAgainLeft l r ⟨n, hA⟩ ⟨n, hB⟩)) h1).2.congr ?_
          filter_upwards [q2, heq] with t e1 e2
          rw [e1, e2, mul_comm]
        · exact absurd rfl tr.not_bf
        · obtain ⟨p2, q2⟩ := pl.over_inv pr tr.ne_zero
          refine (ih p2 (hf.now (.mulAgainRight l r ⟨n, hA⟩ ⟨n, hB⟩)) h1).2.congr ?_
          filter_upwards [q2, heq] with t e1 e2
          rw [e1, e2]
        · exact absurd rfl tl.not_bf

end
end SymRust
