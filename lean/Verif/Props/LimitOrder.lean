import Verif.Props.LimitSubst
import Verif.Props.DifferenceQuotient
import Verif.Spec.LimitOrder
/-! # Limits and order: property C92 -/

namespace SymRust
variable {F : Type} [FloatOps F]
open Expr Filter Topology

namespace LimitOrder
variable {env : Env} {x : Variable} {p : ℝ} {e a b pt : Expr F} {k : UInt64} {z : LimitExpression F}

theorem tells (q : Question env x p e pt k) (h : LimitIs .strict e x pt k z) :
    z.Tells env (𝓝[≠] p) (fn SmartNum.exactReal env x e) ∧ z ≠ .boundedFluctuation := by
  obtain ⟨m, he⟩ := q.searchable
  obtain ⟨m', hpt⟩ := q.builtPoint
  exact ⟨C51_sound m m' e pt hpt x k z h env p q.point q.safePoint he q.fine, LimitSubst.not_bf he.built.tree h⟩

theorem tendsto (q : Question env x p e pt k) (h : LimitIs .strict e x pt k z) {r : ℝ} (hz : z.Is env r) :
    Tendsto (fn SmartNum.exactReal env x e) (𝓝[≠] p) (𝓝 r) := by
  have ht := (tells q h).1
  cases z with
  | infinitesimal => cases hz; exact ht
  | infinity => exact hz.elim
  | boundedFluctuation => exact hz.elim
  | normal c => obtain ⟨v, hv, ht⟩ := ht; rw [hv.1 r hz]; exact ht

theorem defined (q : Question env x p e pt k) :
    ∀ᶠ t in 𝓝[≠] p, denote SmartNum.exactReal (env.set x t) e = some (fn SmartNum.exactReal env x e t) := by
  obtain ⟨m, he⟩ := q.searchable
  filter_upwards [he.defined] with t ⟨r, hr⟩
  simp [fn, hr]

theorem le {a b pa pb : Expr F} {ka kb : UInt64} (qa : Question env x p a pa ka) (qb : Question env x p b pb kb)
    (h : LeqNear env x p a b) : ∀ᶠ t in 𝓝[≠] p, fn SmartNum.exactReal env x a t ≤ fn SmartNum.exactReal env x b t := by
  filter_upwards [h, defined qa, defined qb] with t h h1 h2 using h _ _ h1 h2

end LimitOrder
open LimitOrder

/-- C92: if `a ≤ b` near the point then the limit of `a` is at most the limit of `b`. -/
theorem C92_order (env : Env) (x : Variable) (p : ℝ) (a b pa pb : Expr F) (ka kb : UInt64)
    (qa : Question env x p a pa ka) (qb : Question env x p b pb kb) (hle : LeqNear env x p a b)
    (za zb : LimitExpression F) (ha : LimitIs .strict a x pa ka za) (hb : LimitIs .strict b x pb kb zb)
    (r s : ℝ) (hr : za.Is env r) (hs : zb.Is env s) : r ≤ s :=
  le_of_tendsto_of_tendsto (tendsto qa ha hr) (tendsto qb hb hs) (le qa qb hle)

/-- C92: an expression between two expressions with the same limit gets that limit, if it gets an answer. -/
theorem C92_squeeze (env : Env) (x : Variable) (p : ℝ) (a b c pa pb pc : Expr F) (ka kb kc : UInt64)
    (qa : Question env x p a pa ka) (qb : Question env x p b pb kb) (qc : Question env x p c pc kc)
    (hab : LeqNear env x p a b) (hbc : LeqNear env x p b c)
    (za zb zc : LimitExpression F) (ha : LimitIs .strict a x pa ka za) (hb : LimitIs .strict b x pb kb zb)
    (hc : LimitIs .strict c x pc kc zc) (r : ℝ) (hra : za.Is env r) (hrc : zc.Is env r) : zb.Names env r := by
  obtain ⟨t, nb⟩ := tells qb hb
  exact DiffQuot.names_of_tendsto nb t
    (tendsto_of_tendsto_of_tendsto_of_le_of_le' (tendsto qa ha hra) (tendsto qc hc hrc) (le qa qb hab) (le qb qc hbc))

/-- C92: if the limit is `r`, the value is between any two numbers around `r` near the point; so it has the sign of `r`
there if `r` is not 0. -/
theorem C92_near (env : Env) (x : Variable) (p : ℝ) (e pt : Expr F) (k : UInt64) (q : Question env x p e pt k)
    (z : LimitExpression F) (h : LimitIs .strict e x pt k z) (r lo hi : ℝ) (hz : z.Is env r) (hlo : lo < r) (hhi : r < hi) :
    ∀ᶠ t in 𝓝[≠] p, ∃ v, denote SmartNum.exactReal (env.set x t) e = some v ∧ lo < v ∧ v < hi := by
  filter_upwards [defined q, (tendsto q h hz).eventually (Ioo_mem_nhds hlo hhi)] with t h1 h2 using ⟨_, h1, h2⟩

/-- C92: the answer is Infinity only if the absolute value exceeds every bound near the point; an expression that is
bounded near the point never gets it. -/
theorem C92_infinity (env : Env) (x : Variable) (p : ℝ) (e pt : Expr F) (k : UInt64) (q : Question env x p e pt k)
    (h : LimitIs .strict e x pt k .infinity) (M : ℝ) :
    ∀ᶠ t in 𝓝[≠] p, ∃ v, denote SmartNum.exactReal (env.set x t) e = some v ∧ M < |v| := by
  filter_upwards [defined q, (tells q h).1.eventually (eventually_gt_atTop M)] with t h1 h2 using ⟨_, h1, h2⟩

/-- C92, non-vacuous: at 0, `x * sin(x)` between `(-1) * (x * x)` and `x * x`, with the answers Infinitesimal; `cos(x)` with the
answer Normal(1); and `1 / x` with the answer Infinity. -/
theorem C92_instance (env : Env) :
    let x : Expr F := newVariable "x"
    let a := (ofI64 (-1)).mul (x.mul x)
    let b := x.mul x.sin
    let c := x.mul x
    Question env ⟨"x"⟩ 0 a zero 1 ∧ Question env ⟨"x"⟩ 0 b zero 1 ∧ Question env ⟨"x"⟩ 0 c zero 1 ∧
    Question env ⟨"x"⟩ 0 x.cos zero 1 ∧ Question env ⟨"x"⟩ 0 (one.div x) zero 1 ∧
    LeqNear env ⟨"x"⟩ 0 a b ∧ LeqNear env ⟨"x"⟩ 0 b c ∧
    LimitIs .strict a ⟨"x"⟩ zero 1 .infinitesimal ∧ LimitIs .strict b ⟨"x"⟩ zero 1 .infinitesimal ∧
    LimitIs .strict c ⟨"x"⟩ zero 1 .infinitesimal ∧ LimitIs .strict x.cos ⟨"x"⟩ zero 1 (.normal one) ∧
    (LimitExpression.normal (one : Expr F)).Is env 1 ∧ LimitIs .strict (one.div x) ⟨"x"⟩ zero 1 .infinity := by
  intro x a b c
  have hx : x = ofVar ⟨"x"⟩ := rfl
  have g0 : ∀ env : Env, denote SmartNum.exactReal env (zero : Expr F) = some 0 := fun env => by
    rw [zero, denote_int]; simp [show (0 : Int64).toInt = 0 by decide]
  have g1 : ∀ env : Env, denote SmartNum.exactReal env (one : Expr F) = some 1 := fun env => by
    rw [one, denote_int]; simp [show (1 : Int64).toInt = 1 by decide]
  have gm : ∀ env : Env, denote SmartNum.exactReal env (ofI64 (-1) : Expr F) = some (-1) := fun env => by
    rw [denote_int]; simp [show (-1 : Int64).toInt = -1 by decide]
  have rm : (SmartNum.ofI64 (-1) : SmartNum F).exactReal = some (-1) := by rw [← gm env, ofI64, denote_ofNum]
  have r1 : (SmartNum.ofI64 1 : SmartNum F).exactReal = some 1 := by rw [← g1 env, one, ofI64, denote_ofNum]
  have hset : ∀ t : ℝ, denote SmartNum.exactReal (env.set ⟨"x"⟩ t) x = some t := by intro t; rw [hx]; simp
  have bz : Built .debug (zero : Expr F) := .num _ (.ofI64 0)
  have hav : Avoids SmartNum.exactReal (AtPoint SmartNum.exactReal ⟨"x"⟩ (zero : Expr F)) x Real.pi :=
    ⟨env.set ⟨"x"⟩ 0, ⟨env, 0, g0 env, rfl⟩, 0, hset 0, Real.pi_pos.ne⟩
  have sx : Searchable .debug env ⟨"x"⟩ zero 0 x := .var _
  have s1 : Searchable .debug env ⟨"x"⟩ zero 0 (one : Expr F) := .num _ (.ofI64 1) r1
  have sm : Searchable .debug env ⟨"x"⟩ zero 0 (ofI64 (-1) : Expr F) := .num _ (.ofI64 _) rm
  have ss : Searchable .debug env ⟨"x"⟩ zero 0 x.sin :=
    { built := .sin _ (.var _)
      defined := .of_forall fun t => ⟨_, denote_sin.2 ⟨t, hset t, rfl⟩⟩
      pow := .of_forall fun t => powAll_sin.2 (powAll_ofVar _)
      safe := safeD_sin.2 ⟨hav, safeD_ofVar _⟩
      ln := noLnIntoBase_iff.2 (powAll_sin.2 (powAll_ofVar _))
      trig := trigFine_iff.2 (trigAll_sin.2 ⟨⟨powAll_ofVar _, 0, hset 0, by simp⟩, trigAll_ofVar _⟩) }
  have sc : Searchable .debug env ⟨"x"⟩ zero 0 x.cos :=
    { built := .cos _ (.var _)
      defined := .of_forall fun t => ⟨_, denote_cos.2 ⟨t, hset t, rfl⟩⟩
      pow := .of_forall fun t => powAll_cos.2 (powAll_ofVar _)
      safe := safeD_cos.2 ⟨hav, safeD_ofVar _⟩
      ln := noLnIntoBase_iff.2 (powAll_cos.2 (powAll_ofVar _))
      trig := trigFine_iff.2 (trigAll_cos.2 ⟨⟨powAll_ofVar _, 0, hset 0, by simp⟩, trigAll_ofVar _⟩) }
  have t0 : Tree (zero : Expr F) := bz.tree
  have tx : Tree x := .var _
  have ts : Tree x.sin := .sin _ tx
  have t1 : Tree (one : Expr F) := .num _ trivial
  have tm : Tree (ofI64 (-1) : Expr F) := .num _ trivial
  have txx : Tree (x.mul x) := .mul _ _ tx tx
  have lx : LimitIs .strict x ⟨"x"⟩ zero 1 .infinitesimal := ⟨1, by krfl⟩
  have ls : LimitIs .strict x.sin ⟨"x"⟩ zero 1 .infinitesimal := ⟨1, by krfl⟩
  have l1 : LimitIs .strict (one : Expr F) ⟨"x"⟩ zero 1 (.normal one) := ⟨1, by krfl⟩
  have lm : LimitIs .strict (ofI64 (-1) : Expr F) ⟨"x"⟩ zero 1 (.normal (ofI64 (-1))) := ⟨1, by krfl⟩
  have lc : LimitIs .strict c ⟨"x"⟩ zero 1 .infinitesimal := ⟨2, by krfl⟩
  have ld : LimitIs .strict (one.div x) ⟨"x"⟩ zero 1 .infinity := ⟨2, by krfl⟩
  have f0 : ∀ {l r : Expr F} {u : LimitExpression F}, Tree l → Tree r → u ≠ .infinity → LimitIs .strict l ⟨"x"⟩ zero 1 u →
      LimitIs .strict r ⟨"x"⟩ zero 1 .infinitesimal → SearchFine .strict ⟨"x"⟩ zero 1 (fun c => StandsFor env c 0) l →
      SearchFine .strict ⟨"x"⟩ zero 1 (fun c => StandsFor env c 0) r → SearchFine .strict ⟨"x"⟩ zero 1 (fun c => StandsFor env c 0) (l.mul r) := by
    intro l r u tl tr hu hl hr fl fr
    refine .mul' fl fr (mulFine_of t0 tl tr hl hr (fun h => absurd h hu) (by rintro ⟨⟩)) ?_ ?_
    · intro h _; exact absurd (hl.unique t0 tl h) hu
    · intro _ h; cases hr.unique t0 tr h
  have fc := f0 tx tx (by rintro ⟨⟩) lx lx (.ofVar _) (.ofVar _)
  have mk : ∀ {e : Expr F}, Searchable .debug env ⟨"x"⟩ zero 0 e → SearchFine .strict ⟨"x"⟩ zero 1 (fun c => StandsFor env c 0) e →
      Question env ⟨"x"⟩ 0 e zero 1 := fun s f => ⟨⟨_, bz⟩, g0 env, safe_ofNum _, ⟨_, s⟩, f⟩
  have n1 := not_standsFor_one (F := F) env
  have va : ∀ t, denote SmartNum.exactReal (env.set ⟨"x"⟩ t) a = some (-1 * (t * t)) := fun t =>
    denote_mul.2 ⟨_, _, gm _, denote_mul.2 ⟨_, _, hset t, hset t, rfl⟩, rfl⟩
  have vb : ∀ t, denote SmartNum.exactReal (env.set ⟨"x"⟩ t) b = some (t * Real.sin t) := fun t =>
    denote_mul.2 ⟨_, _, hset t, denote_sin.2 ⟨t, hset t, rfl⟩, rfl⟩
  have vc : ∀ t, denote SmartNum.exactReal (env.set ⟨"x"⟩ t) c = some (t * t) := fun t =>
    denote_mul.2 ⟨_, _, hset t, hset t, rfl⟩
  have key : ∀ t : ℝ, |t * Real.sin t| ≤ t * t := fun t => by
    rw [abs_mul, ← abs_mul_abs_self t]
    exact mul_le_mul_of_nonneg_left Real.abs_sin_le_abs (abs_nonneg t)
  refine ⟨mk (sm.mul (sx.mul sx)) (f0 tm txx (by rintro ⟨⟩) lm lc (.ofNum _) fc), mk (sx.mul ss) (f0 tx ts (by rintro ⟨⟩) lx ls (.ofVar _) (.sin _)),
    mk (sx.mul sx) fc, mk sc (.cos _), mk (s1.div sx ?_) (.div' (.ofNum _) (.ofVar _) (divFine_of t0 t1 tx l1 lx ?_ ?_) ?_), ?_, ?_,
    ⟨3, by krfl⟩, ⟨3, by krfl⟩, lc, ⟨2, by krfl⟩, g1 env, ld⟩
  · rw [fn_var]; exact self_mem_nhdsWithin
  · rintro - c ⟨⟩
  · rintro - c ⟨⟩ -; exact n1
  · intro a b _ _ ha hb hab
    obtain rfl := l1.unique t0 t1 ha
    obtain rfl := lx.unique t0 tx hb
    cases hab
  · refine .of_forall fun t u v hu hv => ?_
    rw [va] at hu; rw [vb] at hv; cases hu; cases hv
    linarith [(abs_le.1 (key t)).1]
  · refine .of_forall fun t u v hu hv => ?_
    rw [vb] at hu; rw [vc] at hv; cases hu; cases hv
    exact (abs_le.1 (key t)).2

end SymRust
