import Verif.Props.LimitSubst
import Mathlib.Analysis.Calculus.Deriv.Slope
/-! # The derivative is the limit of the difference quotient: property C91 -/

namespace SymRust
variable {F : Type} [FloatOps F]
open Expr Filter Topology

namespace DiffQuot

omit [FloatOps F] in
/-- An answer about a function with a finite limit names that limit. -/
theorem names_of_tendsto {α : Type} {env : Env} {l : Filter α} [l.NeBot] {f : α → ℝ} {z : LimitExpression F} {d : ℝ}
    (hb : z ≠ .boundedFluctuation) (hz : z.Tells env l f) (hf : Tendsto f l (𝓝 d)) : z.Names env d := by
  cases z with
  | infinitesimal => exact tendsto_nhds_unique hf hz
  | infinity => exact absurd hf.abs (not_tendsto_nhds_of_tendsto_atTop hz _)
  | boundedFluctuation => exact absurd rfl hb
  | normal c => obtain ⟨v, hv, ht⟩ := hz; rw [tendsto_nhds_unique hf ht]; exact hv

theorem denote_minus {env : Env} {a b : Expr F} {u v : ℝ} (ha : denote SmartNum.exactReal env a = some u)
    (hb : denote SmartNum.exactReal env b = some v) :
    denote SmartNum.exactReal env (a.add ((ofI64 (-1)).mul b)) = some (u - v) := by
  refine denote_add.2 ⟨u, -1 * v, ha, denote_mul.2 ⟨-1, v, ?_, hb, rfl⟩, by ring⟩
  rw [denote_int]; simp [show (-1 : Int64).toInt = -1 by decide]

omit [FloatOps F] in
theorem set_self (env : Env) (x : Variable) (p : ℝ) : (env.set x p) x = p := by simp [Env.set]

omit [FloatOps F] in
theorem hasDerivAt_fn {ν : SmartNum F → Option ℝ} {env : Env} {x : Variable} {p : ℝ} {e : Expr F} {d : ℝ}
    (h : HasDerivative ν (env.set x p) x e d) :
    HasDerivAt (fn ν env x e) d p ∧ ∀ᶠ t in 𝓝 p, denote ν (env.set x t) e = some (fn ν env x e t) := by
  obtain ⟨g, h1, h2⟩ := h
  rw [set_self] at h1 h2
  simp only [Env.set_set] at h1
  refine ⟨h2.congr_of_eventuallyEq ?_, ?_⟩
  · filter_upwards [h1] with t ht; simp [fn, ht]
  · filter_upwards [h1] with t ht; simp [fn, ht]

end DiffQuot
open DiffQuot

/-- C91: the limit of `(e(pt + h) + (-1) * e(pt)) / h` at `h = 0`, if it is answered (under the
conditions of C51), is the derivative of `e` at `pt`: `derivative` returns an expression that stands there for the number
that the limit names. -/
theorem C91_increment (m m' : Mode) (e e' s c pt : Expr F) (x y : Variable) (k : UInt64)
    (he : Built m e) (hpt : Built m' pt) (hye : ¬ Occurs y e) (hyp : ¬ Occurs y pt)
    (hsub : e.substitute x pt = .ok c) (hsub' : e.substitute x (pt.add (ofVar y)) = .ok s)
    (hder : e.derivative .strict x = .ok e')
    (env : Env) (p r : ℝ) (hp : denote SmartNum.exactReal env pt = some p) (hsd : SafeD SmartNum.exactReal (AtPoint SmartNum.exactReal x pt) e)
    (hr : denote SmartNum.exactReal (env.set x p) e = some r) (hpow : PowOK SmartNum.exactReal (env.set x p) x e)
    (hq : Searchable m env y zero 0 ((s.add ((ofI64 (-1)).mul c)).div (ofVar y)))
    (hf : SearchFine .strict y zero k (fun c => StandsFor env c 0) ((s.add ((ofI64 (-1)).mul c)).div (ofVar y)))
    (z : LimitExpression F) (h : LimitIs .strict ((s.add ((ofI64 (-1)).mul c)).div (ofVar y)) y zero k z) :
    ∃ d, z.Names env d ∧ HasDerivative SmartNum.exactReal (env.set x p) x e d ∧ StandsFor (env.set x p) e' d := by
  have h0 : denote SmartNum.exactReal env (zero : Expr F) = some 0 := by
    rw [zero, denote_int]; simp [show (0 : Int64).toInt = 0 by decide]
  have ht := C51_sound m .debug _ zero (.num _ (.ofI64 0)) y k z h env 0 h0 (safe_ofNum _) hq hf
  have hb := LimitSubst.not_bf hq.built.tree h
  obtain ⟨d, hd, hst⟩ := C30_derivative m e e' he x _ hsd hder _ r hr hpow
  refine ⟨d, names_of_tendsto hb ht ?_, hd, hst⟩
  obtain ⟨hg, hv⟩ := hasDerivAt_fn hd
  have hy : ∀ t u : ℝ, denote SmartNum.exactReal ((env.set y t).set x u) e = denote SmartNum.exactReal (env.set x u) e := by
    intro t u
    refine denote_congr he.tree fun v hv => ?_
    have : v ≠ y := fun k => hye (k ▸ hv)
    simp [Env.set, this]
  have hpy : ∀ t, denote SmartNum.exactReal (env.set y t) pt = some p := fun t => by rw [denote_absent hpt.tree hyp, hp]
  have hshift : Tendsto (fun t : ℝ => p + t) (𝓝[≠] 0) (𝓝 p) := by
    have : Tendsto (fun t : ℝ => p + t) (𝓝 0) (𝓝 (p + 0)) := (continuous_const_add p).tendsto 0
    rw [add_zero] at this
    exact this.mono_left nhdsWithin_le_nhds
  refine hg.tendsto_slope_zero.congr' ?_
  filter_upwards [hshift.eventually hv, self_mem_nhdsWithin] with t h1 hne
  have ec : denote SmartNum.exactReal (env.set y t) c = some (fn SmartNum.exactReal env x e p) := by
    rw [C27_value _ e pt c he.tree x hsub (env.set y t) p (hpy t), hy, hr]
    simp [fn, hr]
  have es : denote SmartNum.exactReal (env.set y t) s = some (fn SmartNum.exactReal env x e (p + t)) := by
    rw [C27_value _ e _ s he.tree x hsub' (env.set y t) (p + t) (denote_add.2 ⟨p, t, hpy t, by simp, rfl⟩), hy, h1]
  have := denote_div.2 ⟨_, _, denote_minus es ec, (by simp : denote SmartNum.exactReal (env.set y t) (ofVar y : Expr F) = some t), hne, rfl⟩
  simp only [fn] at this ⊢
  rw [this, smul_eq_mul]
  simp [div_eq_inv_mul]

/-- C91: and the coefficient of order 1 of the expansion of `e` at `pt` stands for the number that the limit of the
difference quotient names. -/
theorem C91_first_coefficient (m m' : Mode) (e s c pt : Expr F) (x y : Variable) (k n : UInt64) (hn : 1 ≤ n.toNat)
    (he : Built m e) (hpt : Built m' pt) (hye : ¬ Occurs y e) (hyp : ¬ Occurs y pt)
    (hsub : e.substitute x pt = .ok c) (hsub' : e.substitute x (pt.add (ofVar y)) = .ok s)
    (t : PartialExpansion F) (htay : e.taylorExpansion .strict x pt n = .ok t) (hln : NoLnIntoBase x pt e)
    (env : Env) (p r : ℝ) (hp : denote SmartNum.exactReal env pt = some p) (hs : Safe SmartNum.exactReal Set.univ pt)
    (hsd : SafeD SmartNum.exactReal (AtPoint SmartNum.exactReal x pt) e)
    (hr : denote SmartNum.exactReal (env.set x p) e = some r) (hpow : PowOK SmartNum.exactReal (env.set x p) x e)
    (hq : Searchable m env y zero 0 ((s.add ((ofI64 (-1)).mul c)).div (ofVar y)))
    (hf : SearchFine .strict y zero k (fun c => StandsFor env c 0) ((s.add ((ofI64 (-1)).mul c)).div (ofVar y)))
    (z : LimitExpression F) (h : LimitIs .strict ((s.add ((ofI64 (-1)).mul c)).div (ofVar y)) y zero k z) :
    ∃ d a, z.Names env d ∧ t.coefficient[1]? = some a ∧ StandsFor env a d := by
  obtain ⟨e', hder⟩ : ∃ e', e.derivative .strict x = .ok e' := by
    obtain ⟨d, -, -, -, hd, -⟩ := (C33_shape .strict e pt x n t htay).2.2.2.2.2 1 hn
    exact ⟨d, by simpa [nthDerivative] using hd⟩
  obtain ⟨d, hz, hd, -⟩ := C91_increment m m' e e' s c pt x y k he hpt hye hyp hsub hsub' hder env p r hp hsd hr hpow hq hf z h
  obtain ⟨a, ha, hst⟩ := C34_coefficients m m' e pt he hpt x n t htay hs hsd hln env p r hp hr hpow 1 hn
  refine ⟨d, a, hz, ha, ?_⟩
  rw [iteratedDeriv_one, (hasDerivAt_fn hd).1.deriv] at hst
  simpa using hst

/-- C91, non-vacuous: `x * x` at 3 with the increment `h` meets the hypotheses of both theorems; the answer is
Normal(6/1). -/
theorem C91_instance (env : Env) :
    let x : Expr F := newVariable "x"
    let e := x.mul x
    let c : Expr F := (ofI64 3).mul (ofI64 3)
    let u : Expr F := (ofI64 3).add (ofVar ⟨"h"⟩)
    let q := ((u.mul u).add ((ofI64 (-1)).mul c)).div (ofVar ⟨"h"⟩)
    Built .debug e ∧ Built .debug (ofI64 3 : Expr F) ∧ ¬ Occurs ⟨"h"⟩ e ∧ ¬ Occurs ⟨"h"⟩ (ofI64 3 : Expr F) ∧
    e.substitute ⟨"x"⟩ (ofI64 3) = .ok c ∧ e.substitute ⟨"x"⟩ ((ofI64 3).add (ofVar ⟨"h"⟩)) = .ok (u.mul u) ∧
    e.derivative .strict ⟨"x"⟩ = .ok (x.add x) ∧ (∃ t, e.taylorExpansion .strict ⟨"x"⟩ (ofI64 3) 1 = .ok t) ∧
    NoLnIntoBase ⟨"x"⟩ (ofI64 3) e ∧
    denote SmartNum.exactReal env (ofI64 3 : Expr F) = some 3 ∧ Safe SmartNum.exactReal Set.univ (ofI64 3 : Expr F) ∧
    SafeD SmartNum.exactReal (AtPoint SmartNum.exactReal ⟨"x"⟩ (ofI64 3 : Expr F)) e ∧
    denote SmartNum.exactReal (env.set ⟨"x"⟩ 3) e = some 9 ∧ PowOK SmartNum.exactReal (env.set ⟨"x"⟩ 3) ⟨"x"⟩ e ∧
    Searchable .debug env ⟨"h"⟩ zero 0 q ∧ SearchFine .strict ⟨"h"⟩ zero 1 (fun c => StandsFor env c 0) q ∧
    LimitIs .strict q ⟨"h"⟩ zero 1 (.normal (ofNum ⟨.rational ⟨1, 6, 1⟩, .nothing⟩)) := by
  intro x e c u q
  have hx : x = ofVar ⟨"x"⟩ := rfl
  have g3 : ∀ env : Env, denote SmartNum.exactReal env (ofI64 3 : Expr F) = some 3 := fun env => by
    rw [denote_int]; simp [show (3 : Int64).toInt = 3 by decide]
  have g1 : ∀ env : Env, denote SmartNum.exactReal env (ofI64 (-1) : Expr F) = some (-1) := fun env => by
    rw [denote_int]; simp [show (-1 : Int64).toInt = -1 by decide]
  have r3 : (SmartNum.ofI64 3 : SmartNum F).exactReal = some 3 := by rw [← g3 env, ofI64, denote_ofNum]
  have r1 : (SmartNum.ofI64 (-1) : SmartNum F).exactReal = some (-1) := by rw [← g1 env, ofI64, denote_ofNum]
  have vx : ∀ t : ℝ, denote SmartNum.exactReal (env.set ⟨"x"⟩ t) x = some t := fun t => by
    rw [hx]; simp
  have t0 : Tree (zero : Expr F) := .num _ trivial
  have t3 : Tree (ofI64 3 : Expr F) := .num _ trivial
  have t1 : Tree (ofI64 (-1) : Expr F) := .num _ trivial
  have tone : Tree (one : Expr F) := .num _ trivial
  have tv : Tree (ofVar ⟨"h"⟩ : Expr F) := .var _
  have tu : Tree u := .add _ _ t3 tv
  have tc : Tree c := .mul _ _ t3 t3
  have tmc : Tree ((ofI64 (-1)).mul c) := .mul _ _ t1 tc
  have lv : LimitIs .strict (ofVar ⟨"h"⟩ : Expr F) ⟨"h"⟩ zero 1 .infinitesimal := ⟨1, by krfl⟩
  have l3 : LimitIs .strict (ofI64 3 : Expr F) ⟨"h"⟩ zero 1 (.normal (ofI64 3)) := ⟨1, by krfl⟩
  have l1 : LimitIs .strict (ofI64 (-1) : Expr F) ⟨"h"⟩ zero 1 (.normal (ofI64 (-1))) := ⟨1, by krfl⟩
  have lone : LimitIs .strict (one : Expr F) ⟨"h"⟩ zero 1 (.normal one) := ⟨1, by krfl⟩
  have lu : LimitIs .strict u ⟨"h"⟩ zero 1 (.normal (ofI64 3)) := ⟨2, by krfl⟩
  have lc : LimitIs .strict c ⟨"h"⟩ zero 1 (.normal (ofI64 9)) := ⟨2, by krfl⟩
  have lmc : LimitIs .strict ((ofI64 (-1)).mul c) ⟨"h"⟩ zero 1 (.normal (ofI64 (-9))) := ⟨3, by krfl⟩
  have ln : LimitIs .strict ((u.mul u).add ((ofI64 (-1)).mul c)) ⟨"h"⟩ zero 1 (.normal zero) := ⟨4, by krfl⟩
  have s3 : Searchable .debug env ⟨"h"⟩ zero 0 (ofI64 3 : Expr F) := .num _ (.ofI64 3) r3
  have s1 : Searchable .debug env ⟨"h"⟩ zero 0 (ofI64 (-1) : Expr F) := .num _ (.ofI64 _) r1
  have sv : Searchable .debug env ⟨"h"⟩ zero 0 (ofVar ⟨"h"⟩ : Expr F) := .var _
  have su : Searchable .debug env ⟨"h"⟩ zero 0 u := s3.add sv
  have fmul : ∀ {l r : Expr F} {a b : Expr F}, Tree l → Tree r → SearchFine .strict ⟨"h"⟩ zero 1 (fun c => StandsFor env c 0) l →
      SearchFine .strict ⟨"h"⟩ zero 1 (fun c => StandsFor env c 0) r → LimitIs .strict l ⟨"h"⟩ zero 1 (.normal a) →
      LimitIs .strict r ⟨"h"⟩ zero 1 (.normal b) → SearchFine .strict ⟨"h"⟩ zero 1 (fun c => StandsFor env c 0) (l.mul r) := by
    intro l r a b tl tr fl fr hl hr
    refine .mul' fl fr (mulFine_of t0 tl tr hl hr (by rintro ⟨⟩) (by rintro ⟨⟩)) ?_ ?_
    · intro h _; cases hl.unique t0 tl h
    · intro h _; cases hl.unique t0 tl h
  have fu : SearchFine .strict ⟨"h"⟩ zero 1 (fun c => StandsFor env c 0) u :=
    .add (.ofNum _) (.ofVar _) fun a _ h => by cases lv.unique t0 tv h
  have fn1 : SearchFine .strict ⟨"h"⟩ zero 1 (fun c => StandsFor env c 0) ((u.mul u).add ((ofI64 (-1)).mul c)) :=
    .add (fmul tu tu fu fu lu lu) (fmul t1 tc (.ofNum _) (fmul t3 t3 (.ofNum _) (.ofNum _) l3 l3) l1 lc)
      fun a _ h => by cases lmc.unique t0 tmc h
  have d1 : ((u.mul u).add ((ofI64 (-1)).mul c)).derivative .strict ⟨"h"⟩ = .ok (u.add u) := by krfl
  have d2 : (ofVar ⟨"h"⟩ : Expr F).derivative .strict ⟨"h"⟩ = .ok one := by krfl
  have n1 := not_standsFor_one (F := F) env
  refine ⟨.mul _ _ (.var _) (.var _), .num _ (.ofI64 3), ?_, ?_, by rw [substitute_eq]; krfl, by rw [substitute_eq]; krfl, by krfl,
    Out.exists_of_isOk (by krfl), noLnIntoBase_iff.2 (powAll_mul.2 ⟨powAll_ofVar _, powAll_ofVar _⟩), g3 _, safe_ofNum _,
    safeD_mul.2 ⟨safeD_ofVar _, safeD_ofVar _⟩, denote_mul.2 ⟨3, 3, vx 3, vx 3, by norm_num⟩,
    powAll_mul.2 ⟨powAll_ofVar _, powAll_ofVar _⟩, ((su.mul su).add (s1.mul (s3.mul s3))).div sv ?_, ?_, ⟨8, by krfl⟩⟩
  · show ¬ Occurs ⟨"h"⟩ (x.mul x)
    rw [occurs_mul, hx, occurs_ofVar]; simp
  · rw [ofI64, occurs_ofNum]; simp
  · filter_upwards [self_mem_nhdsWithin] with t ht
    have : fn SmartNum.exactReal env ⟨"h"⟩ (ofVar ⟨"h"⟩ : Expr F) t = t := by simp [fn]
    rw [this]; exact ht
  · refine .div' fn1 (.ofVar _) (divFine_of t0 (.add _ _ (.mul _ _ tu tu) tmc) tv ln lv (by rintro - c ⟨⟩) ?_) ?_
    · rintro - c ⟨⟩ h; cases h
    · intro a b l1' r1' _ _ _ hl hr
      rw [d1] at hl; cases hl
      rw [d2] at hr; cases hr
      have ls : LimitIs .strict (u.add u) ⟨"h"⟩ zero 1 (.normal (ofI64 6)) := ⟨3, by krfl⟩
      refine .div' (.add fu fu fun a _ h => by cases lu.unique t0 tu h) (.ofNum _)
        (divFine_of t0 (.add _ _ tu tu) tone ls lone ?_ (by rintro ⟨⟩)) ?_
      · rintro - c ⟨⟩ -; exact n1
      · intro a b _ _ ha hb hab
        obtain rfl := ls.unique t0 (.add _ _ tu tu) ha
        obtain rfl := lone.unique t0 tone hb
        cases hab

/-- C91, increments, non-vacuous: `sin(x)` at 0 with the increment `h` meets the hypotheses; the answer is Normal(1). -/
theorem C91_increment_instance (env : Env) :
    let x : Expr F := newVariable "x"
    let e := x.sin
    let u : Expr F := zero.add (ofVar ⟨"h"⟩)
    let q := (u.sin.add ((ofI64 (-1)).mul (zero : Expr F).sin)).div (ofVar ⟨"h"⟩)
    Built .debug e ∧ Built .debug (zero : Expr F) ∧ ¬ Occurs ⟨"h"⟩ e ∧ ¬ Occurs ⟨"h"⟩ (zero : Expr F) ∧
    e.substitute ⟨"x"⟩ zero = .ok (zero : Expr F).sin ∧ e.substitute ⟨"x"⟩ (zero.add (ofVar ⟨"h"⟩)) = .ok u.sin ∧
    e.derivative .strict ⟨"x"⟩ = .ok x.cos ∧ denote SmartNum.exactReal env (zero : Expr F) = some 0 ∧
    SafeD SmartNum.exactReal (AtPoint SmartNum.exactReal ⟨"x"⟩ (zero : Expr F)) e ∧
    denote SmartNum.exactReal (env.set ⟨"x"⟩ 0) e = some 0 ∧ PowOK SmartNum.exactReal (env.set ⟨"x"⟩ 0) ⟨"x"⟩ e ∧
    Searchable .debug env ⟨"h"⟩ zero 0 q ∧ SearchFine .strict ⟨"h"⟩ zero 1 (fun c => StandsFor env c 0) q ∧
    LimitIs .strict q ⟨"h"⟩ zero 1 (.normal one) := by
  intro x e u q
  have hx : x = ofVar ⟨"x"⟩ := rfl
  have g0 : ∀ env : Env, denote SmartNum.exactReal env (zero : Expr F) = some 0 := fun env => by
    rw [zero, denote_int]; simp [show (0 : Int64).toInt = 0 by decide]
  have g1 : ∀ env : Env, denote SmartNum.exactReal env (ofI64 (-1) : Expr F) = some (-1) := fun env => by
    rw [denote_int]; simp [show (-1 : Int64).toInt = -1 by decide]
  have r0 : (SmartNum.ofI64 0 : SmartNum F).exactReal = some 0 := by rw [← g0 env, zero, ofI64, denote_ofNum]
  have r1 : (SmartNum.ofI64 (-1) : SmartNum F).exactReal = some (-1) := by rw [← g1 env, ofI64, denote_ofNum]
  have b0 : Built .debug (zero : Expr F) := .num _ (.ofI64 0)
  have hu : ∀ t : ℝ, denote SmartNum.exactReal (env.set ⟨"h"⟩ t) u = some (0 + t) := fun t =>
    denote_add.2 ⟨0, t, g0 _, by simp, rfl⟩
  have av : ∀ (v : Variable) (a : Expr F), (∃ env : Env, denote SmartNum.exactReal (env.set v 0) a = some 0) →
      Avoids SmartNum.exactReal (AtPoint SmartNum.exactReal v (zero : Expr F)) a Real.pi := by
    rintro v a ⟨env, h⟩
    exact ⟨env.set v 0, ⟨env, 0, g0 env, rfl⟩, 0, h, Real.pi_pos.ne⟩
  have hu0 : denote SmartNum.exactReal (env.set ⟨"h"⟩ 0) u = some 0 := by simpa using hu 0
  have ssin : ∀ a : Expr F, Searchable .debug env ⟨"h"⟩ zero 0 a → PowAll (fun _ _ => False) a → TrigAll (fun _ => False) a →
      denote SmartNum.exactReal (env.set ⟨"h"⟩ 0) a = some 0 → Searchable .debug env ⟨"h"⟩ zero 0 a.sin := by
    intro a sa pa ta ha
    have pa' : ∀ {P : Expr F → Expr F → Prop}, PowAll P a := fun {P} => fun s hs a b h => (pa s hs a b h).elim
    refine ⟨.sin _ sa.built, ?_, .of_forall fun t => powAll_sin.2 pa', safeD_sin.2 ⟨av _ _ ⟨env, ha⟩, sa.safe⟩,
      noLnIntoBase_iff.2 (powAll_sin.2 pa'), trigFine_iff.2 (trigAll_sin.2 ⟨⟨pa', 0, ha, by simp⟩, ?_⟩)⟩
    · filter_upwards [sa.defined] with t ⟨w, hw⟩
      exact ⟨_, denote_sin.2 ⟨_, hw, rfl⟩⟩
    · exact fun s hs a h => (ta s hs a h).elim
  have s0 : Searchable .debug env ⟨"h"⟩ zero 0 (zero : Expr F) := .num _ (.ofI64 0) r0
  have s1 : Searchable .debug env ⟨"h"⟩ zero 0 (ofI64 (-1) : Expr F) := .num _ (.ofI64 _) r1
  have sv : Searchable .debug env ⟨"h"⟩ zero 0 (ofVar ⟨"h"⟩ : Expr F) := .var _
  have su : Searchable .debug env ⟨"h"⟩ zero 0 u.sin := ssin u (s0.add sv)
    (powAll_add.2 ⟨powAll_ofNum _, powAll_ofVar _⟩) (trigAll_add.2 ⟨trigAll_ofNum _, trigAll_ofVar _⟩) hu0
  have sc : Searchable .debug env ⟨"h"⟩ zero 0 (zero : Expr F).sin := ssin _ s0 (powAll_ofNum _) (trigAll_ofNum _) (g0 _)
  have t0 : Tree (zero : Expr F) := b0.tree
  have t1 : Tree (ofI64 (-1) : Expr F) := .num _ trivial
  have tone : Tree (one : Expr F) := .num _ trivial
  have tv : Tree (ofVar ⟨"h"⟩ : Expr F) := .var _
  have tu : Tree u.sin := su.built.tree
  have tc : Tree (zero : Expr F).sin := sc.built.tree
  have tmc : Tree ((ofI64 (-1)).mul (zero : Expr F).sin) := .mul _ _ t1 tc
  have lv : LimitIs .strict (ofVar ⟨"h"⟩ : Expr F) ⟨"h"⟩ zero 1 .infinitesimal := ⟨1, by krfl⟩
  have lone : LimitIs .strict (one : Expr F) ⟨"h"⟩ zero 1 (.normal one) := ⟨1, by krfl⟩
  have l1 : LimitIs .strict (ofI64 (-1) : Expr F) ⟨"h"⟩ zero 1 (.normal (ofI64 (-1))) := ⟨1, by krfl⟩
  have lc : LimitIs .strict (zero : Expr F).sin ⟨"h"⟩ zero 1 .infinitesimal := ⟨2, by krfl⟩
  have lmc : LimitIs .strict ((ofI64 (-1)).mul (zero : Expr F).sin) ⟨"h"⟩ zero 1 .infinitesimal := ⟨3, by krfl⟩
  have ln : LimitIs .strict (u.sin.add ((ofI64 (-1)).mul (zero : Expr F).sin)) ⟨"h"⟩ zero 1 .infinitesimal := ⟨4, by krfl⟩
  have d1 : (u.sin.add ((ofI64 (-1)).mul (zero : Expr F).sin)).derivative .strict ⟨"h"⟩ = .ok (ofVar ⟨"h"⟩ : Expr F).cos := by krfl
  have d2 : (ofVar ⟨"h"⟩ : Expr F).derivative .strict ⟨"h"⟩ = .ok one := by krfl
  have n1 := not_standsFor_one (F := F) env
  refine ⟨.sin _ (.var _), b0, ?_, ?_, by rw [substitute_eq]; krfl, by rw [substitute_eq]; krfl, by krfl, g0 _,
    safeD_sin.2 ⟨av _ _ ⟨env, by rw [hx]; simp⟩, safeD_ofVar _⟩, denote_sin.2 ⟨0, by rw [hx]; simp, by simp⟩,
    powAll_sin.2 (powAll_ofVar _), (su.add (s1.mul sc)).div sv ?_, ?_, ⟨7, by krfl⟩⟩
  · rw [occurs_sin, hx, occurs_ofVar]; simp
  · rw [zero, ofI64, occurs_ofNum]; simp
  · filter_upwards [self_mem_nhdsWithin] with t ht
    have : fn SmartNum.exactReal env ⟨"h"⟩ (ofVar ⟨"h"⟩ : Expr F) t = t := by simp [fn]
    rw [this]; exact ht
  · refine .div' (.add (.sin _) (.mul' (.ofNum _) (.sin _) (mulFine_of t0 t1 tc l1 lc (by rintro ⟨⟩) (by rintro ⟨⟩)) ?_ ?_) ?_) (.ofVar _)
      (divFine_of t0 (.add _ _ tu tmc) tv ln lv (by rintro - c ⟨⟩) (by rintro - c ⟨⟩)) ?_
    · intro h _; cases l1.unique t0 t1 h
    · intro h _; cases l1.unique t0 t1 h
    · intro a _ h; cases lmc.unique t0 tmc h
    · intro a b l1' r1' _ _ _ hl hr
      rw [d1] at hl; cases hl
      rw [d2] at hr; cases hr
      have lcos : LimitIs .strict (ofVar ⟨"h"⟩ : Expr F).cos ⟨"h"⟩ zero 1 (.normal one) := ⟨2, by krfl⟩
      refine .div' (.cos _) (.ofNum _) (divFine_of t0 (.cos _ tv) tone lcos lone ?_ (by rintro ⟨⟩)) ?_
      · rintro - c ⟨⟩ -; exact n1
      · intro a b _ _ ha hb hab
        obtain rfl := lcos.unique t0 (.cos _ tv) ha
        obtain rfl := lone.unique t0 tone hb
        cases hab

/-- C91: the condition on the search excludes symbolic points.  In every build and for every order, the limit of
`((x + h) * (x + h) + (-1) * (x * x)) / h` at `h = 0` is answered Infinity, whatever the value of `x`; the derivative of
`x * x` is `x + x`. -/
theorem C91_symbolic_point_wrong (m : Mode) (k : UInt64) :
    let x : Expr F := newVariable "x"
    let h : Expr F := newVariable "h"
    let e := x.mul x
    e.substitute ⟨"x"⟩ (x.add h) = .ok ((x.add h).mul (x.add h)) ∧ e.derivative m ⟨"x"⟩ = .ok (x.add x) ∧
    LimitIs m ((((x.add h).mul (x.add h)).add ((ofI64 (-1)).mul e)).div h) ⟨"h"⟩ zero k .infinity := by
  intro x h e
  refine ⟨by rw [substitute_eq]; krfl, ?_, ⟨5, ?_⟩⟩ <;> cases m <;> krfl

/-- C91: the increment form is needed.  In every build and for every order, `(x * x + (-1) * (3 * 3)) / (x + (-1) * 3)` at 3
is answered Normal(0), not 6: limits of dividend and divisor are both Normal(0), which counts as answerable (C69). -/
theorem C91_quotient_form_wrong (m : Mode) (k : UInt64) :
    let x : Expr F := newVariable "x"
    let c : Expr F := (ofI64 3).mul (ofI64 3)
    LimitIs m (((x.mul x).add ((ofI64 (-1)).mul c)).div (x.add ((ofI64 (-1)).mul (ofI64 3)))) ⟨"x"⟩ (ofI64 3) k (.normal zero) := by
  intro x c
  refine ⟨5, ?_⟩
  cases m <;> krfl

end SymRust
