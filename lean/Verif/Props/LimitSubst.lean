import Verif.Props.SameLimit
/-! # Limits and substitution: property C90 -/

namespace SymRust
variable {F : Type} [FloatOps F]
open Expr Filter Topology

namespace LimitSubst

omit [FloatOps F] in
theorem tells_congr {α : Type} {env : Env} {l : Filter α} {f g : α → ℝ} (h : f =ᶠ[l] g) {z : LimitExpression F} (hz : z.Tells env l f) :
    z.Tells env l g := by
  cases z with
  | infinitesimal => exact Tendsto.congr' h hz
  | infinity => exact Tendsto.congr' (h.fun_comp abs) hz
  | boundedFluctuation => obtain ⟨C, hC⟩ := hz; exact ⟨C, by filter_upwards [hC, h] with t h1 h2; rwa [← h2]⟩
  | normal c => obtain ⟨v, hv, ht⟩ := hz; exact ⟨v, hv, ht.congr' h⟩

omit [FloatOps F] in
theorem tells_comp {α β : Type} {env : Env} {l : Filter α} {l' : Filter β} {f : α → ℝ} {g : β → α} (h : Tendsto g l' l)
    {z : LimitExpression F} (hz : z.Tells env l f) : z.Tells env l' (f ∘ g) := by
  cases z with
  | infinitesimal => exact Tendsto.comp hz h
  | infinity => exact Tendsto.comp (g := fun t => |f t|) hz h
  | boundedFluctuation => obtain ⟨C, hC⟩ := hz; exact ⟨C, h.eventually hC⟩
  | normal c => obtain ⟨v, hv, ht⟩ := hz; exact ⟨v, hv, ht.comp h⟩

omit [FloatOps F] in
/-- Two answers about one function do not contradict each other. -/
theorem tells_unique {α : Type} {env : Env} {l : Filter α} [l.NeBot] {f : α → ℝ} {z₁ z₂ : LimitExpression F}
    (b₁ : z₁ ≠ .boundedFluctuation) (b₂ : z₂ ≠ .boundedFluctuation) (h₁ : z₁.Tells env l f) (h₂ : z₂.Tells env l f) :
    (z₁ = .infinity ∧ z₂ = .infinity) ∨ ∃ r, z₁.Names env r ∧ z₂.Names env r := by
  have key : ∀ z : LimitExpression F, z ≠ .boundedFluctuation → z.Tells env l f →
      (z = .infinity ∧ Tendsto (fun t => |f t|) l atTop) ∨ ∃ r, z.Names env r ∧ Tendsto f l (𝓝 r) := by
    intro z hb hz
    cases z with
    | infinitesimal => exact .inr ⟨0, rfl, hz⟩
    | infinity => exact .inl ⟨rfl, hz⟩
    | boundedFluctuation => exact absurd rfl hb
    | normal c => obtain ⟨v, hv, ht⟩ := hz; exact .inr ⟨v, hv, ht⟩
  rcases key z₁ b₁ h₁ with ⟨h, hi⟩ | ⟨r, hr, hi⟩ <;> rcases key z₂ b₂ h₂ with ⟨h', hi'⟩ | ⟨r', hr', hi'⟩
  · exact .inl ⟨h, h'⟩
  · exact absurd hi'.abs (not_tendsto_nhds_of_tendsto_atTop hi _)
  · exact absurd hi.abs (not_tendsto_nhds_of_tendsto_atTop hi' _)
  · obtain rfl := tendsto_nhds_unique hi hi'
    exact .inr ⟨r, hr, hr'⟩

theorem not_bf {m : Mode} {e pt : Expr F} {x : Variable} {k : UInt64} {z : LimitExpression F} (he : Tree e) (h : LimitIs m e x pt k z) :
    z ≠ .boundedFluctuation := by
  obtain ⟨n, hn⟩ := h
  exact limit_not_bf n e _ he hn

omit [FloatOps F] in
/-- A substituted expression as a function. -/
theorem fn_replace {ν : SmartNum F → Option ℝ} {env : Env} {e u : Expr F} (he : Tree e) {x y : Variable} (hy : y = x ∨ ¬ Occurs y e)
    {t : ℝ} (hu : ∃ w, denote ν (env.set y t) u = some w) :
    denote ν (env.set y t) (e.replace x u) = denote ν (env.set x (fn ν env y u t)) e := by
  obtain ⟨w, hw⟩ := hu
  have hf : fn ν env y u t = w := by simp [fn, hw]
  rw [denote_replace he hw, hf]
  refine denote_congr he fun v hv => ?_
  unfold Env.set
  by_cases h : v = x
  · simp [h]
  · rcases hy with rfl | hy
    · simp [h]
    · have : v ≠ y := fun k => hy (k ▸ hv)
      simp [h, this]

omit [FloatOps F] in
theorem core {env : Env} {e u : Expr F} (he : Tree e) {x y : Variable} (hy : y = x ∨ ¬ Occurs y e) {p q : ℝ} {z₁ z₂ : LimitExpression F}
    (b₁ : z₁ ≠ .boundedFluctuation) (b₂ : z₂ ≠ .boundedFluctuation)
    (t₁ : z₁.Tells env (𝓝[≠] p) (fn SmartNum.exactReal env x e))
    (t₂ : z₂.Tells env (𝓝[≠] q) (fn SmartNum.exactReal env y (e.replace x u)))
    (hd : ∀ᶠ t in 𝓝[≠] q, ∃ w, denote SmartNum.exactReal (env.set y t) u = some w)
    (hlim : Tendsto (fn SmartNum.exactReal env y u) (𝓝[≠] q) (𝓝 p))
    (hne : ∀ᶠ t in 𝓝[≠] q, denote SmartNum.exactReal (env.set y t) u ≠ some p) :
    (z₁ = .infinity ∧ z₂ = .infinity) ∨ ∃ r, z₁.Names env r ∧ z₂.Names env r := by
  have hl : Tendsto (fn SmartNum.exactReal env y u) (𝓝[≠] q) (𝓝[≠] p) := by
    refine tendsto_nhdsWithin_iff.2 ⟨hlim, ?_⟩
    filter_upwards [hd, hne] with t ⟨w, hw⟩ h
    have : fn SmartNum.exactReal env y u t = w := by simp [fn, hw]
    rw [this]
    rintro rfl
    exact h hw
  refine tells_unique b₁ b₂ (tells_comp hl t₁) (tells_congr ?_ t₂)
  filter_upwards [hd] with t ht
  have := fn_replace he hy ht
  simp only [fn, Function.comp] at this ⊢
  rw [this]

end LimitSubst
open LimitSubst

/-- C90: the limit of `e` with `u` put for `x`, where `u` tends to the point at which the limit of `e` is asked: the two
answers do not contradict each other (all three under the conditions of C51).  `u` is not equal to the point near `q`, and
`e` does not contain the new variable (unless it is `x` itself). -/
theorem C90_substitution (m m' : Mode) (e u s pt₁ pt₂ : Expr F) (x y : Variable) (k₁ k₂ k₃ : UInt64)
    (hpt₁ : Built m' pt₁) (hpt₂ : Built m' pt₂) (env : Env) (p q : ℝ)
    (hp : denote SmartNum.exactReal env pt₁ = some p) (hq : denote SmartNum.exactReal env pt₂ = some q)
    (hs₁ : Safe SmartNum.exactReal Set.univ pt₁) (hs₂ : Safe SmartNum.exactReal Set.univ pt₂)
    (hsub : e.substitute x u = .ok s) (hy : y = x ∨ ¬ Occurs y e)
    (he : Searchable m env x pt₁ p e) (hs : Searchable m env y pt₂ q s) (hu : Searchable m env y pt₂ q u)
    (hfe : SearchFine .strict x pt₁ k₁ (fun c => StandsFor env c 0) e)
    (hfs : SearchFine .strict y pt₂ k₂ (fun c => StandsFor env c 0) s)
    (hfu : SearchFine .strict y pt₂ k₃ (fun c => StandsFor env c 0) u)
    (z₁ z₂ z₃ : LimitExpression F) (h₁ : LimitIs .strict e x pt₁ k₁ z₁) (h₂ : LimitIs .strict s y pt₂ k₂ z₂)
    (h₃ : LimitIs .strict u y pt₂ k₃ z₃) (hz : z₃ = .infinitesimal ∧ p = 0 ∨ ∃ c, z₃ = .normal c ∧ denote SmartNum.exactReal env c = some p)
    (hne : ∀ᶠ t in 𝓝[≠] q, denote SmartNum.exactReal (env.set y t) u ≠ some p) :
    (z₁ = .infinity ∧ z₂ = .infinity) ∨ ∃ r, z₁.Names env r ∧ z₂.Names env r := by
  have t₁ := C51_sound m m' e pt₁ hpt₁ x k₁ z₁ h₁ env p hp hs₁ he hfe
  have t₂ := C51_sound m m' s pt₂ hpt₂ y k₂ z₂ h₂ env q hq hs₂ hs hfs
  have t₃ := C51_sound m m' u pt₂ hpt₂ y k₃ z₃ h₃ env q hq hs₂ hu hfu
  rw [substitute_eq] at hsub
  have hlim : Tendsto (fn SmartNum.exactReal env y u) (𝓝[≠] q) (𝓝 p) := by
    rcases hz with ⟨rfl, rfl⟩ | ⟨c, rfl, hc⟩
    · exact t₃
    · obtain ⟨v, hv, ht⟩ := t₃
      rw [hv.1 p hc]; exact ht
  cases hsub
  exact core he.built.tree hy (not_bf he.built.tree h₁) (not_bf hs.built.tree h₂) t₁ t₂ hu.defined hlim hne

/-- C90: the limit of `e` at a point, and the limit at 0 of `e` with `x + (the point)` put for `x`, do not contradict each
other (under the conditions of C51). -/
theorem C90_translation (m m' : Mode) (e s pt : Expr F) (x : Variable) (k₁ k₂ : UInt64)
    (hpt : Built m' pt) (hx : ¬ Occurs x pt) (env : Env) (p : ℝ)
    (hp : denote SmartNum.exactReal env pt = some p) (hs₁ : Safe SmartNum.exactReal Set.univ pt)
    (hsub : e.substitute x ((ofVar x).add pt) = .ok s)
    (he : Searchable m env x pt p e) (hs : Searchable m env x zero 0 s)
    (hfe : SearchFine .strict x pt k₁ (fun c => StandsFor env c 0) e)
    (hfs : SearchFine .strict x zero k₂ (fun c => StandsFor env c 0) s)
    (z₁ z₂ : LimitExpression F) (h₁ : LimitIs .strict e x pt k₁ z₁) (h₂ : LimitIs .strict s x zero k₂ z₂) :
    (z₁ = .infinity ∧ z₂ = .infinity) ∨ ∃ r, z₁.Names env r ∧ z₂.Names env r := by
  have h0 : denote SmartNum.exactReal env (zero : Expr F) = some 0 := by
    rw [zero, denote_int]; simp [show (0 : Int64).toInt = 0 by decide]
  have t₁ := C51_sound m m' e pt hpt x k₁ z₁ h₁ env p hp hs₁ he hfe
  have t₂ := C51_sound m .debug s zero (.num _ (.ofI64 0)) x k₂ z₂ h₂ env 0 h0 (safe_ofNum _) hs hfs
  rw [substitute_eq] at hsub
  cases hsub
  have hu : ∀ t, denote SmartNum.exactReal (env.set x t) ((ofVar x).add pt) = some (t + p) := fun t =>
    denote_add.2 ⟨t, p, by simp, by rw [denote_absent hpt.tree hx, hp], rfl⟩
  have hfn : fn SmartNum.exactReal env x ((ofVar x).add pt) = fun t => t + p := by
    funext t; simp [fn, hu]
  refine core he.built.tree (.inl rfl) (not_bf he.built.tree h₁) (not_bf hs.built.tree h₂) t₁ t₂ (.of_forall fun t => ⟨_, hu t⟩) ?_ ?_
  · rw [hfn]
    have : Tendsto (fun t : ℝ => t + p) (𝓝 0) (𝓝 (0 + p)) := (continuous_add_const p).tendsto 0
    rw [zero_add] at this
    exact this.mono_left nhdsWithin_le_nhds
  · filter_upwards [self_mem_nhdsWithin] with t ht h
    rw [hu] at h
    have : t + p = p := by simpa using h
    exact ht (by simpa using this)

/-- C90, non-vacuous: `sin(x) / x` at 0, `u = y + y` at 0, and `sin(y + y) / (y + y)` at 0 meet the hypotheses; the answers are
Normal(1), Infinitesimal and Normal(1). -/
theorem C90_instance (env : Env) :
    let x : Expr F := newVariable "x"
    let y : Expr F := newVariable "y"
    let e := x.sin.div x
    let u := y.add y
    let s := u.sin.div u
    e.substitute ⟨"x"⟩ u = .ok s ∧ ¬ Occurs ⟨"y"⟩ e ∧
    denote SmartNum.exactReal env (zero : Expr F) = some 0 ∧ Safe SmartNum.exactReal Set.univ (zero : Expr F) ∧
    Searchable .debug env ⟨"x"⟩ zero 0 e ∧ Searchable .debug env ⟨"y"⟩ zero 0 u ∧ Searchable .debug env ⟨"y"⟩ zero 0 s ∧
    SearchFine .strict ⟨"x"⟩ zero 2 (fun c => StandsFor env c 0) e ∧
    SearchFine .strict ⟨"y"⟩ zero 1 (fun c => StandsFor env c 0) u ∧
    SearchFine .strict ⟨"y"⟩ zero 1 (fun c => StandsFor env c 0) s ∧
    LimitIs .strict e ⟨"x"⟩ zero 2 (.normal one) ∧ LimitIs .strict u ⟨"y"⟩ zero 1 .infinitesimal ∧
    LimitIs .strict s ⟨"y"⟩ zero 1 (.normal one) ∧
    ∀ᶠ t in 𝓝[≠] (0 : ℝ), denote SmartNum.exactReal (env.set ⟨"y"⟩ t) u ≠ some 0 := by
  intro x y e u s
  have hy : y = ofVar ⟨"y"⟩ := rfl
  obtain ⟨-, h0, hs0, -, -, se, -, fe, -, le⟩ := C84_instance (F := F) env
  have hset : ∀ env : Env, ∀ t : ℝ, denote SmartNum.exactReal (env.set ⟨"y"⟩ t) u = some (t + t) := fun env t =>
    denote_add.2 ⟨t, t, by rw [hy]; simp, by rw [hy]; simp, rfl⟩
  have h0' : ∀ env : Env, denote SmartNum.exactReal env (zero : Expr F) = some 0 := by
    intro env; rw [zero, denote_int]; simp [show (0 : Int64).toInt = 0 by decide]
  have bz : Built .debug (zero : Expr F) := .num _ (.ofI64 0)
  have tp : Tree (zero : Expr F) := bz.tree
  have sy : Searchable .debug env ⟨"y"⟩ zero 0 y := .var _
  have su : Searchable .debug env ⟨"y"⟩ zero 0 u := sy.add sy
  have hav : Avoids SmartNum.exactReal (AtPoint SmartNum.exactReal ⟨"y"⟩ (zero : Expr F)) u Real.pi :=
    ⟨env.set ⟨"y"⟩ 0, ⟨env, 0, h0' env, rfl⟩, 0, by simpa using hset env 0, Real.pi_pos.ne⟩
  have pu : ∀ {P : Expr F → Expr F → Prop}, PowAll P u := powAll_add.2 ⟨powAll_ofVar _, powAll_ofVar _⟩
  have ss : Searchable .debug env ⟨"y"⟩ zero 0 u.sin :=
    { built := .sin _ su.built
      defined := .of_forall fun t => ⟨_, denote_sin.2 ⟨_, hset env t, rfl⟩⟩
      pow := .of_forall fun t => powAll_sin.2 pu
      safe := safeD_sin.2 ⟨hav, su.safe⟩
      ln := noLnIntoBase_iff.2 (powAll_sin.2 pu)
      trig := trigFine_iff.2 (trigAll_sin.2 ⟨⟨pu, 0, by simpa using hset env 0, by simp⟩,
        trigAll_add.2 ⟨trigAll_ofVar _, trigAll_ofVar _⟩⟩) }
  have hfn : fn SmartNum.exactReal env ⟨"y"⟩ u = fun t => t + t := by funext t; simp [fn, hset]
  have hne : ∀ᶠ t in 𝓝[≠] (0 : ℝ), fn SmartNum.exactReal env ⟨"y"⟩ u t ≠ 0 := by
    rw [hfn]
    filter_upwards [self_mem_nhdsWithin] with t ht h
    exact ht (by show t = 0; linarith)
  have tu : Tree u := su.built.tree
  have t2 : Tree (ofI64 2 : Expr F) := .num _ trivial
  have n2 : ¬ StandsFor env (ofI64 2 : Expr F) 0 := fun h => by
    have h2 := denote_int (F := F) env 2
    simp [show (2 : Int64).toInt = 2 by decide] at h2
    exact two_ne_zero (h.1 2 h2)
  have ly (k : UInt64) : LimitIs .strict y ⟨"y"⟩ zero k .infinitesimal := ⟨1, by krfl⟩
  have lu (k : UInt64) : LimitIs .strict u ⟨"y"⟩ zero k .infinitesimal := ⟨2, by krfl⟩
  have ls (k : UInt64) : LimitIs .strict u.sin ⟨"y"⟩ zero k .infinitesimal := ⟨2, by krfl⟩
  have lc : LimitIs .strict u.cos ⟨"y"⟩ zero 1 (.normal one) := ⟨2, by krfl⟩
  have l2 : LimitIs .strict (ofI64 2 : Expr F) ⟨"y"⟩ zero 1 (.normal (ofI64 2)) := ⟨1, by krfl⟩
  have lm : LimitIs .strict (u.cos.mul (ofI64 2)) ⟨"y"⟩ zero 1 (.normal (ofI64 2)) := ⟨3, by krfl⟩
  have d1 : u.sin.derivative .strict ⟨"y"⟩ = .ok (u.cos.mul (ofI64 2)) := by krfl
  have d2 : u.derivative .strict ⟨"y"⟩ = .ok (ofI64 2) := by krfl
  have fu : SearchFine .strict ⟨"y"⟩ zero 1 (fun c => StandsFor env c 0) u :=
    .add (.ofVar _) (.ofVar _) fun a _ h => by cases (ly 1).unique tp (.var _) h
  have fm : SearchFine .strict ⟨"y"⟩ zero 1 (fun c => StandsFor env c 0) (u.cos.mul (ofI64 2)) := by
    refine .mul' (.cos _) (.ofNum _) (mulFine_of tp (.cos _ tu) t2 lc l2 (by rintro ⟨⟩) (by rintro ⟨⟩)) ?_ ?_
    · intro h _; cases lc.unique tp (.cos _ tu) h
    · intro h _; cases lc.unique tp (.cos _ tu) h
  refine ⟨by rw [substitute_eq]; krfl, ?_, h0, hs0, se, su, ss.div su hne, fe, fu, ?_, le, lu 1, ⟨5, by krfl⟩, ?_⟩
  · show ¬ Occurs ⟨"y"⟩ (x.sin.div x)
    rw [occurs_div, occurs_sin]
    show ¬ (Occurs ⟨"y"⟩ (ofVar ⟨"x"⟩) ∨ Occurs ⟨"y"⟩ (ofVar ⟨"x"⟩))
    rw [occurs_ofVar]; simp
  · refine .div' (.sin _) fu (divFine_of tp (.sin _ tu) tu (ls 1) (lu 1) (by rintro - c ⟨⟩) (by rintro - c ⟨⟩)) ?_
    intro a b l1 r1 _ _ _ hl hr
    rw [d1] at hl; cases hl
    rw [d2] at hr; cases hr
    refine .div' fm (.ofNum _) (divFine_of tp (.mul _ _ (.cos _ tu) t2) t2 lm l2 ?_ (by rintro ⟨⟩)) ?_
    · rintro - c ⟨⟩ -; exact n2
    · intro a b _ _ ha hb hab
      obtain rfl := lm.unique tp (.mul _ _ (.cos _ tu) t2) ha
      obtain rfl := l2.unique tp t2 hb
      cases hab
  · filter_upwards [self_mem_nhdsWithin] with t ht h
    rw [hset] at h
    have : t + t = 0 := by simpa using h
    exact ht (by show t = 0; linarith)

/-- C90, translation, non-vacuous: `x * x` at 3 and `(x + 3) * (x + 3)` at 0 meet the hypotheses; both answers are Normal(9). -/
theorem C90_translation_instance (env : Env) :
    let x : Expr F := newVariable "x"
    let e := x.mul x
    let s := (x.add (ofI64 3)).mul (x.add (ofI64 3))
    e.substitute ⟨"x"⟩ ((ofVar ⟨"x"⟩).add (ofI64 3)) = .ok s ∧ ¬ Occurs ⟨"x"⟩ (ofI64 3 : Expr F) ∧
    denote SmartNum.exactReal env (ofI64 3 : Expr F) = some 3 ∧ Safe SmartNum.exactReal Set.univ (ofI64 3 : Expr F) ∧
    Searchable .debug env ⟨"x"⟩ (ofI64 3) 3 e ∧ Searchable .debug env ⟨"x"⟩ zero 0 s ∧
    SearchFine .strict ⟨"x"⟩ (ofI64 3) 1 (fun c => StandsFor env c 0) e ∧
    SearchFine .strict ⟨"x"⟩ zero 1 (fun c => StandsFor env c 0) s ∧
    LimitIs .strict e ⟨"x"⟩ (ofI64 3) 1 (.normal (ofI64 9)) ∧ LimitIs .strict s ⟨"x"⟩ zero 1 (.normal (ofI64 9)) := by
  intro x e s
  have h3 : denote SmartNum.exactReal env (ofI64 3 : Expr F) = some 3 := by
    rw [denote_int]; simp [show (3 : Int64).toInt = 3 by decide]
  have r3 : (SmartNum.ofI64 3 : SmartNum F).exactReal = some 3 := by rw [← h3, ofI64, denote_ofNum]
  have tp : Tree (zero : Expr F) := .num _ trivial
  have t3 : Tree (ofI64 3 : Expr F) := .num _ trivial
  have tx : Tree x := .var _
  have lx : LimitIs .strict x ⟨"x"⟩ (ofI64 3) 1 (.normal (ofI64 3)) := ⟨1, by krfl⟩
  have lx0 : LimitIs .strict x ⟨"x"⟩ zero 1 .infinitesimal := ⟨1, by krfl⟩
  have l3 : LimitIs .strict (ofI64 3 : Expr F) ⟨"x"⟩ zero 1 (.normal (ofI64 3)) := ⟨1, by krfl⟩
  have la : LimitIs .strict (x.add (ofI64 3)) ⟨"x"⟩ zero 1 (.normal (ofI64 3)) := ⟨2, by krfl⟩
  have sx : Searchable .debug env ⟨"x"⟩ (ofI64 3) 3 x := .var _
  have sa : Searchable .debug env ⟨"x"⟩ zero 0 (x.add (ofI64 3)) := (Searchable.var _).add (.num _ (.ofI64 3) r3)
  have fa : SearchFine .strict ⟨"x"⟩ zero 1 (fun c => StandsFor env c 0) (x.add (ofI64 3)) :=
    .add (.ofVar _) (.ofNum _) fun a _ h => by cases l3.unique tp t3 h
  refine ⟨by rw [substitute_eq]; krfl, ?_, h3, safe_ofNum _, sx.mul sx, sa.mul sa, ?_, ?_, ⟨2, by krfl⟩, ⟨3, by krfl⟩⟩
  · rw [ofI64, occurs_ofNum]; simp
  · refine .mul' (.ofVar _) (.ofVar _) (mulFine_of t3 tx tx lx lx (by rintro ⟨⟩) (by rintro ⟨⟩)) ?_ ?_
    · intro h _; cases lx.unique t3 tx h
    · intro h _; cases lx.unique t3 tx h
  · refine .mul' fa fa (mulFine_of tp (.add _ _ tx t3) (.add _ _ tx t3) la la (by rintro ⟨⟩) (by rintro ⟨⟩)) ?_ ?_
    · intro h _; cases la.unique tp (.add _ _ tx t3) h
    · intro h _; cases la.unique tp (.add _ _ tx t3) h

end SymRust
