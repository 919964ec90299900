import Verif.Spec.SameLimit
import Verif.Props.LimitFull
/-! # Equal functions have equal limits: property C84 -/

namespace SymRust
variable {F : Type} [FloatOps F]
open Expr Filter Topology

/-- C84: two expressions that are equal near the point, each asked for its limit at the point (however the two points
are written) with any order (under the conditions of C51), do not get contradictory answers: either both are Infinity,
or both are finite and name the same number. -/
theorem C84_equal_functions (m m' : Mode) (e₁ e₂ pt₁ pt₂ : Expr F) (x : Variable) (k₁ k₂ : UInt64)
    (hpt₁ : Built m' pt₁) (hpt₂ : Built m' pt₂) (env : Env) (p : ℝ)
    (hp₁ : denote SmartNum.exactReal env pt₁ = some p) (hp₂ : denote SmartNum.exactReal env pt₂ = some p)
    (hs₁ : Safe SmartNum.exactReal Set.univ pt₁) (hs₂ : Safe SmartNum.exactReal Set.univ pt₂)
    (he₁ : Searchable m env x pt₁ p e₁) (he₂ : Searchable m env x pt₂ p e₂)
    (hf₁ : SearchFine .strict x pt₁ k₁ (fun c => StandsFor env c 0) e₁)
    (hf₂ : SearchFine .strict x pt₂ k₂ (fun c => StandsFor env c 0) e₂)
    (heq : ∀ᶠ t in 𝓝[≠] p, denote SmartNum.exactReal (env.set x t) e₁ = denote SmartNum.exactReal (env.set x t) e₂)
    (z₁ z₂ : LimitExpression F) (h₁ : LimitIs .strict e₁ x pt₁ k₁ z₁) (h₂ : LimitIs .strict e₂ x pt₂ k₂ z₂) :
    (z₁ = .infinity ∧ z₂ = .infinity) ∨ ∃ r, z₁.Names env r ∧ z₂.Names env r := by
  have t₁ := C51_sound m m' e₁ pt₁ hpt₁ x k₁ z₁ h₁ env p hp₁ hs₁ he₁ hf₁
  have t₂ := C51_sound m m' e₂ pt₂ hpt₂ x k₂ z₂ h₂ env p hp₂ hs₂ he₂ hf₂
  have b₁ : z₁ ≠ .boundedFluctuation := by
    obtain ⟨n, hn⟩ := h₁
    exact limit_not_bf n e₁ _ he₁.built.tree hn
  have b₂ : z₂ ≠ .boundedFluctuation := by
    obtain ⟨n, hn⟩ := h₂
    exact limit_not_bf n e₂ _ he₂.built.tree hn
  have hfn : fn SmartNum.exactReal env x e₁ =ᶠ[𝓝[≠] p] fn SmartNum.exactReal env x e₂ := by
    filter_upwards [heq] with t ht
    simp only [fn, ht]
  have key : ∀ z : LimitExpression F, z ≠ .boundedFluctuation → z.Tells env (𝓝[≠] p) (fn SmartNum.exactReal env x e₂) →
      (z = .infinity ∧ Tendsto (fun t => |fn SmartNum.exactReal env x e₂ t|) (𝓝[≠] p) atTop) ∨
      ∃ r, z.Names env r ∧ Tendsto (fn SmartNum.exactReal env x e₂) (𝓝[≠] p) (𝓝 r) := by
    intro z hb hz
    cases z with
    | infinitesimal => exact .inr ⟨0, rfl, hz⟩
    | infinity => exact .inl ⟨rfl, hz⟩
    | boundedFluctuation => exact absurd rfl hb
    | normal c => obtain ⟨v, hv, ht⟩ := hz; exact .inr ⟨v, hv, ht⟩
  have t₁' : z₁.Tells env (𝓝[≠] p) (fn SmartNum.exactReal env x e₂) := by
    cases z₁ with
    | infinitesimal => exact Tendsto.congr' hfn t₁
    | infinity => exact Tendsto.congr' (hfn.fun_comp abs) t₁
    | boundedFluctuation => exact absurd rfl b₁
    | normal c => obtain ⟨v, hv, ht⟩ := t₁; exact ⟨v, hv, ht.congr' hfn⟩
  rcases key z₁ b₁ t₁' with ⟨h, hi⟩ | ⟨r, hr, hi⟩ <;> rcases key z₂ b₂ t₂ with ⟨h', hi'⟩ | ⟨r', hr', hi'⟩
  · exact .inl ⟨h, h'⟩
  · exact absurd hi'.abs (not_tendsto_nhds_of_tendsto_atTop hi _)
  · exact absurd hi.abs (not_tendsto_nhds_of_tendsto_atTop hi' _)
  · obtain rfl := tendsto_nhds_unique hi hi'
    exact .inr ⟨r, hr, hr'⟩

/-- C84: simplifying the expression first does not change the limit. -/
theorem C84_simplify_first (m m' : Mode) (e e' pt : Expr F) (x : Variable) (k k' : UInt64)
    (hpt : Built m' pt) (env : Env) (p : ℝ)
    (hp : denote SmartNum.exactReal env pt = some p) (hs : Safe SmartNum.exactReal Set.univ pt)
    (hse : Safe SmartNum.exactReal Set.univ e) (ha : e.numAggregate .strict = .ok e')
    (he : Searchable m env x pt p e) (he' : Searchable m env x pt p e')
    (hf : SearchFine .strict x pt k (fun c => StandsFor env c 0) e)
    (hf' : SearchFine .strict x pt k' (fun c => StandsFor env c 0) e')
    (z z' : LimitExpression F) (h : LimitIs .strict e x pt k z) (h' : LimitIs .strict e' x pt k' z') :
    (z = .infinity ∧ z' = .infinity) ∨ ∃ r, z.Names env r ∧ z'.Names env r := by
  refine C84_equal_functions m m' e e' pt pt x k k' hpt hpt env p hp hp hs hs he he' hf hf' ?_ z z' h h'
  filter_upwards [he.defined, he'.defined] with t ⟨r, hr⟩ ⟨r', hr'⟩
  have := (C20_value m e e' he.built hse ha _ r hr).1 r' hr'
  rw [hr, hr', this]

/-- C84, non-vacuous: `(sin(x) * 1) / x` at the literal 0 with `order_try = 1` and its simplified form `sin(x) / x`
with `order_try = 2` meet the hypotheses; both answers are Normal(1). -/
theorem C84_instance (env : Env) :
    let x : Expr F := newVariable "x"
    let e := (x.sin.mul one).div x
    let e' := x.sin.div x
    e.numAggregate .strict = .ok e' ∧
    denote SmartNum.exactReal env (zero : Expr F) = some 0 ∧ Safe SmartNum.exactReal Set.univ (zero : Expr F) ∧
    Safe SmartNum.exactReal Set.univ e ∧
    Searchable .debug env ⟨"x"⟩ zero 0 e ∧ Searchable .debug env ⟨"x"⟩ zero 0 e' ∧
    SearchFine .strict ⟨"x"⟩ zero 1 (fun c => StandsFor env c 0) e ∧
    SearchFine .strict ⟨"x"⟩ zero 2 (fun c => StandsFor env c 0) e' ∧
    LimitIs .strict e ⟨"x"⟩ zero 1 (.normal one) ∧ LimitIs .strict e' ⟨"x"⟩ zero 2 (.normal one) := by
  intro x e e'
  have hx : x = ofVar ⟨"x"⟩ := rfl
  have h0 : ∀ env : Env, denote SmartNum.exactReal env (zero : Expr F) = some 0 := by
    intro env; rw [zero, denote_int]; simp [show (0 : Int64).toInt = 0 by decide]
  have h1 : (SmartNum.ofI64 1 : SmartNum F).exactReal = some 1 := by
    have := denote_int (F := F) env 1
    rw [ofI64, denote_ofNum] at this
    rw [this]; simp [show (1 : Int64).toInt = 1 by decide]
  have hset : ∀ env : Env, ∀ t : ℝ, denote SmartNum.exactReal (env.set ⟨"x"⟩ t) x = some t := by
    intro env t; simp [hx]
  have bz : Built .debug (zero : Expr F) := .num _ (.ofI64 0)
  have hav : Avoids SmartNum.exactReal (AtPoint SmartNum.exactReal ⟨"x"⟩ (zero : Expr F)) x Real.pi :=
    ⟨env.set ⟨"x"⟩ 0, ⟨env, 0, h0 env, rfl⟩, 0, hset env 0, Real.pi_pos.ne⟩
  have sx : Searchable .debug env ⟨"x"⟩ zero 0 x := .var _
  have s1 : Searchable .debug env ⟨"x"⟩ zero 0 (one : Expr F) := .num _ (.ofI64 1) h1
  have ss : Searchable .debug env ⟨"x"⟩ zero 0 x.sin :=
    { built := .sin _ (.var _)
      defined := .of_forall fun t => ⟨_, denote_sin.2 ⟨t, hset env t, rfl⟩⟩
      pow := .of_forall fun t => powAll_sin.2 (powAll_ofVar _)
      safe := safeD_sin.2 ⟨hav, safeD_ofVar _⟩
      ln := noLnIntoBase_iff.2 (powAll_sin.2 (powAll_ofVar _))
      trig := trigFine_iff.2 (trigAll_sin.2 ⟨⟨powAll_ofVar _, 0, hset env 0, by simp⟩, trigAll_ofVar _⟩) }
  have hne : ∀ᶠ t in 𝓝[≠] (0 : ℝ), fn SmartNum.exactReal env ⟨"x"⟩ x t ≠ 0 := by
    rw [fn_var]; exact self_mem_nhdsWithin
  have tp : Tree (zero : Expr F) := bz.tree
  have tx : Tree x := .var _
  have t1 : Tree (one : Expr F) := .num _ trivial
  have ts : Tree x.sin := .sin _ tx
  have n1 := not_standsFor_one (F := F) env
  have hl' : x.sin.derivative .strict ⟨"x"⟩ = .ok x.cos := by krfl
  have hm' : (x.sin.mul one).derivative .strict ⟨"x"⟩ = .ok x.cos := by krfl
  have hr' : x.derivative .strict ⟨"x"⟩ = .ok one := by krfl
  have fcos : ∀ k, LimitIs .strict x.cos ⟨"x"⟩ zero k (.normal one) →
      LimitIs .strict (one : Expr F) ⟨"x"⟩ zero k (.normal one) →
      SearchFine .strict ⟨"x"⟩ zero k (fun c => StandsFor env c 0) (x.cos.div one) := by
    intro k lc l1
    refine .div' (.cos _) (.ofNum _) (divFine_of tp (.cos _ tx) t1 lc l1 ?_ (by rintro ⟨⟩)) ?_
    · rintro - c ⟨⟩ -; exact n1
    · intro a b _ _ ha hb hab
      obtain rfl := lc.unique tp (.cos _ tx) ha
      obtain rfl := l1.unique tp t1 hb
      cases hab
  have lc (k : UInt64) : LimitIs .strict x.cos ⟨"x"⟩ zero k (.normal one) := ⟨1, by krfl⟩
  have l1 (k : UInt64) : LimitIs .strict (one : Expr F) ⟨"x"⟩ zero k (.normal one) := ⟨1, by krfl⟩
  have lx (k : UInt64) : LimitIs .strict x ⟨"x"⟩ zero k .infinitesimal := ⟨1, by krfl⟩
  have ls (k : UInt64) : LimitIs .strict x.sin ⟨"x"⟩ zero k .infinitesimal := ⟨1, by krfl⟩
  have lm (k : UInt64) : LimitIs .strict (x.sin.mul one) ⟨"x"⟩ zero k .infinitesimal := ⟨2, by krfl⟩
  have fm : SearchFine .strict ⟨"x"⟩ zero 1 (fun c => StandsFor env c 0) (x.sin.mul one) := by
    refine .mul' (.sin _) (.ofNum _) (mulFine_of tp ts t1 (ls 1) (l1 1) (by rintro ⟨⟩) (by rintro ⟨⟩)) ?_ ?_
    · intro h _; cases (ls 1).unique tp ts h
    · intro _ h; cases (l1 1).unique tp t1 h
  refine ⟨by krfl, h0 env, ?_, ?_, (ss.mul s1).div sx hne, ss.div sx hne, ?_, ?_, ⟨4, by krfl⟩, ⟨4, by krfl⟩⟩
  · exact safe_ofNum _
  · exact safe_div.2 ⟨safe_mul.2 ⟨safe_sin.2 (safe_ofVar _), safe_ofNum _⟩, safe_ofVar _⟩
  · refine .div' fm (.ofVar _) (divFine_of tp (.mul _ _ ts t1) tx (lm 1) (lx 1) (by rintro - c ⟨⟩) (by rintro - c ⟨⟩)) ?_
    intro a b l1' r1' _ _ _ hl hr
    rw [hm'] at hl; cases hl
    rw [hr'] at hr; cases hr
    exact fcos 1 (lc 1) (l1 1)
  · refine .div' (.sin _) (.ofVar _) (divFine_of tp ts tx (ls 2) (lx 2) (by rintro - c ⟨⟩) (by rintro - c ⟨⟩)) ?_
    intro a b l1' r1' _ _ _ hl hr
    rw [hl'] at hl; cases hl
    rw [hr'] at hr; cases hr
    exact fcos 2 (lc 2) (l1 2)

/-- C84: the condition on the search is needed.  In every build and for every order, `(1/x) * 0` at 0 is answered
Infinity, and its simplified form, the number 0, Normal(0). -/
theorem C84_condition_needed (m : Mode) (k : UInt64) :
    let x : Expr F := newVariable "x"
    let e := (one.div x).mul zero
    e.numAggregate m = .ok zero ∧ LimitIs m e ⟨"x"⟩ zero k .infinity ∧
    LimitIs m (zero : Expr F) ⟨"x"⟩ zero k (.normal zero) := by
  intro x e
  have h := C51_mul_condition_needed (F := F) m k (fun _ => 0)
  cases m <;> refine ⟨by krfl, h.1, ⟨1, by krfl⟩⟩

end SymRust
