import Verif.Proofs.DerSafe
import Mathlib.Analysis.SpecialFunctions.Trigonometric.Deriv
import Mathlib.Analysis.SpecialFunctions.Log.Deriv
import Mathlib.Analysis.SpecialFunctions.Pow.Deriv
import Mathlib.Analysis.SpecialFunctions.ExpDeriv
/-! `derivative` computes derivatives. -/

namespace SymRust
variable {F : Type}
open Expr Filter Topology

@[simp] theorem Env.set_self (env : Env) (x : Variable) : env.set x (env x) = env := by
  funext y; simp only [Env.set]; split
  · rename_i h; rw [h]
  · rfl
@[simp] theorem Env.set_same (env : Env) (x : Variable) (t : ℝ) : env.set x t x = t := by simp [Env.set]
theorem Env.set_ne (env : Env) {x y : Variable} (t : ℝ) (h : y ≠ x) : env.set x t y = env y := by simp [Env.set, h]
@[simp] theorem Env.set_set (env : Env) (x : Variable) (s t : ℝ) : (env.set x s).set x t = env.set x t := by
  funext y; simp only [Env.set]; split <;> rfl

theorem denote_congr {ν : SmartNum F → Option ℝ} {e : Expr F} (he : Tree e) {env env' : Env}
    (h : ∀ y, Occurs y e → env y = env' y) : denote ν env e = denote ν env' e := by
  induction he with
  | num n _ => simp
  | var v => simp [h v ((occurs_ofVar v v).2 rfl)]
  | neg a _ i => rw [denote_neg', denote_neg', i fun y hy => h y ((occurs_neg y a).2 hy)]
  | sin a _ i => rw [denote_sin', denote_sin', i fun y hy => h y ((occurs_sin y a).2 hy)]
  | cos a _ i => rw [denote_cos', denote_cos', i fun y hy => h y ((occurs_cos y a).2 hy)]
  | exp a _ i => rw [denote_exp', denote_exp', i fun y hy => h y ((occurs_exp y a).2 hy)]
  | ln a _ i => rw [denote_ln', denote_ln', i fun y hy => h y ((occurs_ln y a).2 hy)]
  | add a b _ _ i j => rw [denote_add', denote_add', i fun y hy => h y ((occurs_add y a b).2 (.inl hy)),
      j fun y hy => h y ((occurs_add y a b).2 (.inr hy))]
  | sub a b _ _ i j => rw [denote_sub', denote_sub', i fun y hy => h y ((occurs_sub y a b).2 (.inl hy)),
      j fun y hy => h y ((occurs_sub y a b).2 (.inr hy))]
  | mul a b _ _ i j => rw [denote_mul', denote_mul', i fun y hy => h y ((occurs_mul y a b).2 (.inl hy)),
      j fun y hy => h y ((occurs_mul y a b).2 (.inr hy))]
  | div a b _ _ i j => rw [denote_div', denote_div', i fun y hy => h y ((occurs_div y a b).2 (.inl hy)),
      j fun y hy => h y ((occurs_div y a b).2 (.inr hy))]
  | pow a b _ _ i j => rw [denote_pow', denote_pow', i fun y hy => h y ((occurs_pow y a b).2 (.inl hy)),
      j fun y hy => h y ((occurs_pow y a b).2 (.inr hy))]

theorem denote_absent {ν : SmartNum F → Option ℝ} {e : Expr F} (he : Tree e) {x : Variable} (hx : ¬ Occurs x e)
    (env : Env) (t : ℝ) : denote ν (env.set x t) e = denote ν env e :=
  denote_congr he fun y hy => Env.set_ne _ _ fun h => hx (h ▸ hy)

theorem powValue_pos {u v : ℝ} (h : 0 < u) : powValue u v = some (u ^ v) := if_pos (.inl h)
theorem powValue_int {u : ℝ} (h : u < 0) (n : ℤ) : powValue u n = some (u ^ n) := by
  rw [powValue, if_pos (.inr (.inr ⟨h, n, rfl⟩)), Real.rpow_intCast]
theorem powValue_neg {u v r : ℝ} (h : u < 0) (hr : powValue u v = some r) : ∃ n : ℤ, v = n := by
  unfold powValue at hr
  split at hr
  · rename_i hc
    rcases hc with hc | hc | hc
    · linarith
    · linarith [hc.1]
    · exact hc.2
  · cases hr

section
variable {ν : SmartNum F → Option ℝ} {env : Env} {x : Variable} {e a b : Expr F} {d d' u v : ℝ}

theorem hasDerivative_const (c : ℝ) (h : ∀ t, denote ν (env.set x t) e = some c) :
    HasDerivative ν env x e 0 := ⟨fun _ => c, .of_forall h, hasDerivAt_const _ _⟩

theorem HasDerivative.value (h : HasDerivative ν env x e d) : ∃ g : ℝ → ℝ,
    (∀ᶠ t in 𝓝 (env x), denote ν (env.set x t) e = some (g t)) ∧ HasDerivAt g d (env x) ∧
    denote ν env e = some (g (env x)) := by
  obtain ⟨g, h1, h2⟩ := h
  exact ⟨g, h1, h2, by simpa using h1.self_of_nhds⟩

/-- The form used in the induction: the function takes the known value. -/
theorem HasDerivative.at (h : HasDerivative ν env x e d) (hv : denote ν env e = some u) : ∃ g : ℝ → ℝ,
    (∀ᶠ t in 𝓝 (env x), denote ν (env.set x t) e = some (g t)) ∧ HasDerivAt g d (env x) ∧ g (env x) = u := by
  obtain ⟨g, h1, h2, h3⟩ := h.value
  exact ⟨g, h1, h2, by rw [hv] at h3; exact (Option.some.inj h3).symm⟩
end

section
variable [FloatOps F] {m : Mode}

theorem numAggregate_zero_add {a b e' : Expr F} (ha : AggZero m a) (hb : Tree b)
    (h : (a.add b).numAggregate m = .ok e') : b.numAggregate m = .ok e' := by
  rw [numAggregate_add, addEvalRule_bind] at h
  obtain ⟨y, hy, h⟩ := Res.bind_eq_ok.1 h
  obtain ⟨x, hx, h⟩ := Res.bind_eq_ok.1 h
  rw [ha x hx] at h
  rw [hy]
  have ty := (agg_of_numAggregate hb hy).wf (numClosed_true m) hb
  rcases addEvalRule_cases (.num _ trivial) ty h with ⟨p, q, z, h1, h2, h3, h4⟩ | ⟨p, h1, h2, h3, h4⟩ |
    ⟨q, h1, h2, h3, h4⟩ | ⟨h1, h2, h3, h4⟩
  · have h1 := ofNum_inj.1 h1
    subst h1 h2 h4
    rw [SmartNum.add, if_pos (show (SmartNum.ofI64 0 : SmartNum F).isZero = true from rfl)] at h3
    cases h3; rfl
  · rw [h4]
  · cases h3
  · cases h2

/-- A vanishing first summand inside the derivative of a power can be dropped. -/
theorem agg_pow_drop {p q l e' : Expr F} (hp : Tree p) (hq : Tree q) (hl : Tree l)
    (h : Agg m (p.mul (((ofI64 0 : Expr F).mul l).add q)) e') : Agg m (p.mul q) e' := by
  have hz : AggZero m ((ofI64 0 : Expr F).mul l) := (aggZero_zero m).mul_left
  have h0 : Tree (ofI64 0 : Expr F) := .num _ trivial
  have h := numAggregate_of_agg (.mul _ _ hp (.add _ _ (.mul _ _ h0 hl) hq)) h
  refine agg_of_numAggregate (.mul _ _ hp hq) ?_
  rw [numAggregate_mul, mulEvalRule_bind] at h ⊢
  obtain ⟨y, hy, h⟩ := Res.bind_eq_ok.1 h
  rw [numAggregate_zero_add hz hq hy]
  exact h
end

variable [ExactFloat F] {x : Variable}

theorem Der.hasDerivative {E : Set Env} {e e' : Expr F} (h : Der .strict x e e') (he : WF SmartNum.Valid e)
    (hE : SafeD SmartNum.value? E e) {env : Env} {r : ℝ} (hr : denote SmartNum.value? env e = some r)
    (hp : PowOK SmartNum.value? env x e) :
    ∃ d, denote SmartNum.value? env e' = some d ∧ HasDerivative SmartNum.value? env x e d := by
  have NC := numClosed_valid (F := F) .strict
  induction h generalizing r with
  | num n =>
    refine ⟨0, denote_zero env, hasDerivative_const r fun t => ?_⟩
    rw [denote_ofNum] at *; exact hr
  | var => exact ⟨1, denote_one env, id, .of_forall fun t => by simp, hasDerivAt_id _⟩
  | var_ne y h =>
    refine ⟨0, denote_zero env, hasDerivative_const (env y) fun t => ?_⟩
    rw [denote_ofVar, Env.set_ne _ _ (Ne.symm h)]
  | neg h1 hg i =>
    have ha := WF.neg_iff.1 he
    have hE := safeD_neg.1 hE
    obtain ⟨u, hu, rfl⟩ := denote_neg.1 hr
    obtain ⟨d, hd, hD⟩ := i ha hE hu (powAll_neg.1 hp)
    obtain ⟨g, hg1, hg2, hg3⟩ := hD.at hu
    refine ⟨-d, agg_sound' hg (.neg _ (h1.wf NC ha)) (safe_neg.2 (h1.safeD ha hE).1) _ _ (denote_neg.2 ⟨d, hd, rfl⟩),
      fun t => -g t, ?_, hg2.neg⟩
    filter_upwards [hg1] with t ht using denote_neg.2 ⟨_, ht, rfl⟩
  | add h1 h2 hg i j =>
    have ha := WF.add_iff.1 he
    have hE := safeD_add.1 hE
    have hp := powAll_add.1 hp
    obtain ⟨u, v, hu, hv, rfl⟩ := denote_add.1 hr
    obtain ⟨d, hd, hD⟩ := i ha.1 hE.1 hu hp.1
    obtain ⟨d', hd', hD'⟩ := j ha.2 hE.2 hv hp.2
    obtain ⟨g, hg1, hg2, hg3⟩ := hD.at hu
    obtain ⟨k, hk1, hk2, hk3⟩ := hD'.at hv
    refine ⟨d + d', agg_sound' hg (.add _ _ (h1.wf NC ha.1) (h2.wf NC ha.2))
      (safe_add.2 ⟨(h1.safeD ha.1 hE.1).1, (h2.safeD ha.2 hE.2).1⟩) _ _ (denote_add.2 ⟨d, d', hd, hd', rfl⟩),
      fun t => g t + k t, ?_, hg2.add hk2⟩
    filter_upwards [hg1, hk1] with t ht ht' using denote_add.2 ⟨_, _, ht, ht', rfl⟩
  | sub h1 h2 hg i j =>
    have ha := WF.sub_iff.1 he
    have hE := safeD_sub.1 hE
    have hp := powAll_sub.1 hp
    obtain ⟨u, v, hu, hv, rfl⟩ := denote_sub.1 hr
    obtain ⟨d, hd, hD⟩ := i ha.1 hE.1 hu hp.1
    obtain ⟨d', hd', hD'⟩ := j ha.2 hE.2 hv hp.2
    obtain ⟨g, hg1, hg2, hg3⟩ := hD.at hu
    obtain ⟨k, hk1, hk2, hk3⟩ := hD'.at hv
    refine ⟨d - d', agg_sound' hg (.sub _ _ (h1.wf NC ha.1) (h2.wf NC ha.2))
      (safe_sub.2 ⟨(h1.safeD ha.1 hE.1).1, (h2.safeD ha.2 hE.2).1⟩) _ _ (denote_sub.2 ⟨d, d', hd, hd', rfl⟩),
      fun t => g t - k t, ?_, hg2.sub hk2⟩
    filter_upwards [hg1, hk1] with t ht ht' using denote_sub.2 ⟨_, _, ht, ht', rfl⟩
  | mul h1 h2 hg i j =>
    have ha := WF.mul_iff.1 he
    have hE := safeD_mul.1 hE
    have hp := powAll_mul.1 hp
    obtain ⟨u, v, hu, hv, rfl⟩ := denote_mul.1 hr
    obtain ⟨d, hd, hD⟩ := i ha.1 hE.1 hu hp.1
    obtain ⟨d', hd', hD'⟩ := j ha.2 hE.2 hv hp.2
    obtain ⟨g, hg1, hg2, hg3⟩ := hD.at hu
    obtain ⟨k, hk1, hk2, hk3⟩ := hD'.at hv
    refine ⟨d * v + u * d', agg_sound' hg (.add _ _ (.mul _ _ (h1.wf NC ha.1) ha.2) (.mul _ _ ha.1 (h2.wf NC ha.2)))
      (safe_add.2 ⟨safe_mul.2 ⟨(h1.safeD ha.1 hE.1).1, hE.2.1⟩, safe_mul.2 ⟨hE.1.1, (h2.safeD ha.2 hE.2).1⟩⟩) _ _
      (denote_add.2 ⟨_, _, denote_mul.2 ⟨d, v, hd, hv, rfl⟩, denote_mul.2 ⟨u, d', hu, hd', rfl⟩, rfl⟩),
      fun t => g t * k t, ?_, ?_⟩
    · filter_upwards [hg1, hk1] with t ht ht' using denote_mul.2 ⟨_, _, ht, ht', rfl⟩
    · have := hg2.mul hk2
      rw [hg3, hk3] at this; exact this
  | div h1 h2 hg i j =>
    have ha := WF.div_iff.1 he
    have hE := safeD_div.1 hE
    have hp := powAll_div.1 hp
    obtain ⟨u, v, hu, hv, hv0, rfl⟩ := denote_div.1 hr
    obtain ⟨d, hd, hD⟩ := i ha.1 hE.1 hu hp.1
    obtain ⟨d', hd', hD'⟩ := j ha.2 hE.2 hv hp.2
    obtain ⟨g, hg1, hg2, hg3⟩ := hD.at hu
    obtain ⟨k, hk1, hk2, hk3⟩ := hD'.at hv
    refine ⟨(d * v - u * d') / (v * v), agg_sound' hg
      (.div _ _ (.sub _ _ (.mul _ _ (h1.wf NC ha.1) ha.2) (.mul _ _ ha.1 (h2.wf NC ha.2))) (.mul _ _ ha.2 ha.2))
      (safe_div.2 ⟨safe_sub.2 ⟨safe_mul.2 ⟨(h1.safeD ha.1 hE.1).1, hE.2.1⟩,
        safe_mul.2 ⟨hE.1.1, (h2.safeD ha.2 hE.2).1⟩⟩, safe_mul.2 ⟨hE.2.1, hE.2.1⟩⟩) _ _
      (denote_div.2 ⟨_, _, denote_sub.2 ⟨_, _, denote_mul.2 ⟨d, v, hd, hv, rfl⟩, denote_mul.2 ⟨u, d', hu, hd', rfl⟩, rfl⟩,
        denote_mul.2 ⟨v, v, hv, hv, rfl⟩, mul_ne_zero hv0 hv0, rfl⟩),
      fun t => g t / k t, ?_, ?_⟩
    · have hne : ∀ᶠ t in 𝓝 (env x), k t ≠ 0 := hk2.continuousAt.eventually_ne (by rw [hk3]; exact hv0)
      filter_upwards [hg1, hk1, hne] with t ht ht' h0 using denote_div.2 ⟨_, _, ht, ht', h0, rfl⟩
    · have := hg2.div hk2 (by rw [hk3]; exact hv0)
      rw [hg3, hk3, pow_two] at this; exact this
  | sin h1 hg i =>
    have ha := WF.sin_iff.1 he
    have hE := safeD_sin.1 hE
    obtain ⟨u, hu, rfl⟩ := denote_sin.1 hr
    obtain ⟨d, hd, hD⟩ := i ha hE.2 hu (powAll_sin.1 hp)
    obtain ⟨g, hg1, hg2, hg3⟩ := hD.at hu
    refine ⟨Real.cos u * d, agg_sound' hg (.mul _ _ (.cos _ ha) (h1.wf NC ha))
      (safe_mul.2 ⟨safe_cos.2 ⟨hE.1, hE.2.1⟩, (h1.safeD ha hE.2).1⟩) _ _
      (denote_mul.2 ⟨_, _, denote_cos.2 ⟨u, hu, rfl⟩, hd, rfl⟩), fun t => Real.sin (g t), ?_, ?_⟩
    · filter_upwards [hg1] with t ht using denote_sin.2 ⟨_, ht, rfl⟩
    · have := hg2.sin; rw [hg3] at this; exact this
  | cos h1 hg i =>
    have ha := WF.cos_iff.1 he
    have hE := safeD_cos.1 hE
    obtain ⟨u, hu, rfl⟩ := denote_cos.1 hr
    obtain ⟨d, hd, hD⟩ := i ha hE.2 hu (powAll_cos.1 hp)
    obtain ⟨g, hg1, hg2, hg3⟩ := hD.at hu
    refine ⟨-Real.sin u * d, agg_sound' hg (.mul _ _ (.neg _ (.sin _ ha)) (h1.wf NC ha))
      (safe_mul.2 ⟨safe_neg.2 (safe_sin.2 hE.2.1), (h1.safeD ha hE.2).1⟩) _ _
      (denote_mul.2 ⟨_, _, denote_neg.2 ⟨_, denote_sin.2 ⟨u, hu, rfl⟩, rfl⟩, hd, rfl⟩), fun t => Real.cos (g t), ?_, ?_⟩
    · filter_upwards [hg1] with t ht using denote_cos.2 ⟨_, ht, rfl⟩
    · have := hg2.cos; rw [hg3] at this; exact this
  | exp h1 hg i =>
    have ha := WF.exp_iff.1 he
    have hE' := safeD_exp.1 hE
    obtain ⟨u, hu, rfl⟩ := denote_exp.1 hr
    obtain ⟨d, hd, hD⟩ := i ha hE' hu (powAll_exp.1 hp)
    obtain ⟨g, hg1, hg2, hg3⟩ := hD.at hu
    refine ⟨d * Real.exp u, agg_sound' hg (.mul _ _ (h1.wf NC ha) he)
      (safe_mul.2 ⟨(h1.safeD ha hE').1, hE.1⟩) _ _
      (denote_mul.2 ⟨_, _, hd, hr, rfl⟩), fun t => Real.exp (g t), ?_, ?_⟩
    · filter_upwards [hg1] with t ht using denote_exp.2 ⟨_, ht, rfl⟩
    · have := hg2.exp; rw [hg3, mul_comm] at this; exact this
  | ln h1 hg i =>
    have ha := WF.ln_iff.1 he
    have hE := safeD_ln.1 hE
    obtain ⟨u, hu, hu0, rfl⟩ := denote_ln.1 hr
    obtain ⟨d, hd, hD⟩ := i ha hE hu (powAll_ln.1 hp)
    obtain ⟨g, hg1, hg2, hg3⟩ := hD.at hu
    refine ⟨d / u, agg_sound' hg (.div _ _ (h1.wf NC ha) ha)
      (safe_div.2 ⟨(h1.safeD ha hE).1, hE.1⟩) _ _
      (denote_div.2 ⟨_, _, hd, hu, hu0.ne', rfl⟩), fun t => Real.log (g t), ?_, ?_⟩
    · have hpos : ∀ᶠ t in 𝓝 (env x), 0 < g t := hg2.continuousAt.tendsto.eventually_const_lt (by rw [hg3]; exact hu0)
      filter_upwards [hg1, hpos] with t ht h0 using denote_ln.2 ⟨_, ht, h0, rfl⟩
    · have := hg2.log (by rw [hg3]; exact hu0.ne'); rw [hg3] at this; exact this
  | @pow a b a' b' e h1 h2 hg i j =>
    have ha := WF.pow_iff.1 he
    have hE' := safeD_pow.1 hE
    have hp' := powAll_pow.1 hp
    obtain ⟨u, v, hu, hv, huv⟩ := denote_pow.1 hr
    obtain ⟨d, hd, hD⟩ := i ha.1 hE'.2.1 hu hp'.2.1
    obtain ⟨d', hd', hD'⟩ := j ha.2 hE'.2.2 hv hp'.2.2
    obtain ⟨g, hg1, hg2, hg3⟩ := hD.at hu
    obtain ⟨k, hk1, hk2, hk3⟩ := hD'.at hv
    obtain ⟨u', hu', hcase⟩ := hp'.1
    rw [hu] at hu'; cases hu'
    by_cases hpos : 0 < u
    · rw [powValue_pos hpos] at huv
      cases huv
      refine ⟨u ^ v * (d' * Real.log u + v * d / u), agg_sound' hg
        (.mul _ _ he (.add _ _ (.mul _ _ (h2.wf NC ha.2) (.ln _ ha.1)) (.div _ _ (.mul _ _ ha.2 (h1.wf NC ha.1)) ha.1)))
        (safe_mul.2 ⟨hE.1, safe_add.2 ⟨safe_mul.2 ⟨(h2.safeD ha.2 hE'.2.2).1, safe_ln.2 hE'.2.1.1⟩,
          safe_div.2 ⟨safe_mul.2 ⟨hE'.2.2.1, (h1.safeD ha.1 hE'.2.1).1⟩, hE'.2.1.1⟩⟩⟩) _ _
        (denote_mul.2 ⟨_, _, hr, denote_add.2 ⟨_, _, denote_mul.2 ⟨_, _, hd', denote_ln.2 ⟨u, hu, hpos, rfl⟩, rfl⟩,
          denote_div.2 ⟨_, _, denote_mul.2 ⟨_, _, hv, hd, rfl⟩, hu, hpos.ne', rfl⟩, rfl⟩, rfl⟩),
        fun t => g t ^ k t, ?_, ?_⟩
      · have hgp : ∀ᶠ t in 𝓝 (env x), 0 < g t := hg2.continuousAt.tendsto.eventually_const_lt (by rw [hg3]; exact hpos)
        filter_upwards [hg1, hk1, hgp] with t ht ht' h0 using denote_pow.2 ⟨_, _, ht, ht', powValue_pos h0⟩
      · have := hg2.rpow hk2 (by rw [hg3]; exact hpos)
        rw [hg3, hk3, Real.rpow_sub_one hpos.ne'] at this
        convert this using 1
        field_simp; ring
    · have hneg : u < 0 := by
        rcases hcase with h | h
        · exact absurd h hpos
        · exact lt_of_le_of_ne (not_lt.1 hpos) h.1
      have hx : ¬ Occurs x b := by
        rcases hcase with h | h
        · exact absurd h hpos
        · exact h.2
      obtain ⟨n, rfl⟩ := powValue_neg hneg huv
      rw [powValue_int hneg] at huv
      cases huv
      have hb' := h2.absent ha.2.tree hx
      subst hb'
      have hg' := agg_pow_drop he.tree (.div _ _ (.mul _ _ ha.2.tree (h1.wf NC ha.1).tree) ha.1.tree) (.ln _ ha.1.tree) hg
      refine ⟨u ^ n * (n * d / u), agg_sound' hg'
        (.mul _ _ he (.div _ _ (.mul _ _ ha.2 (h1.wf NC ha.1)) ha.1))
        (safe_mul.2 ⟨hE.1, safe_div.2 ⟨safe_mul.2 ⟨hE'.2.2.1, (h1.safeD ha.1 hE'.2.1).1⟩, hE'.2.1.1⟩⟩) _ _
        (denote_mul.2 ⟨_, _, hr,
          denote_div.2 ⟨_, _, denote_mul.2 ⟨_, _, hv, hd, rfl⟩, hu, hneg.ne, rfl⟩, rfl⟩),
        fun t => g t ^ n, ?_, ?_⟩
      · have hgn : ∀ᶠ t in 𝓝 (env x), g t < 0 := hg2.continuousAt.tendsto.eventually_lt_const (by rw [hg3]; exact hneg)
        filter_upwards [hg1, hgn] with t ht h0
        exact denote_pow.2 ⟨_, _, ht, by rw [denote_absent ha.2.tree hx]; exact hv, powValue_int h0 n⟩
      · have := (hasDerivAt_zpow n (g (env x)) (.inl (by rw [hg3]; exact hneg.ne))).comp (env x) hg2
        rw [hg3, zpow_sub_one₀ hneg.ne] at this
        have heq : u ^ n * (n * d / u) = n * (u ^ n * u⁻¹) * d := by ring
        rw [heq]; exact this

end SymRust
