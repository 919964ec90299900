import Verif.Proofs.Trig
import Verif.Proofs.Limit
import Verif.Proofs.Ghost
/-! # `limit` at a point where the expression has a value, and L'Hôpital steps -/

namespace SymRust
open Expr Filter Topology LimitExpression
variable {F : Type}

section
variable [ExactFloat F]

/-- The answer says: the value is `r`. -/
def Means (env : Env) (r : ℝ) : LimitExpression F → Prop
  | .infinitesimal => r = 0
  | .normal c => denote SmartNum.value? env c = some r ∧ Safe SmartNum.value? Set.univ c ∧ WF SmartNum.Valid c
  | _ => False

variable {env : Env} {r s : ℝ} {a b z : LimitExpression F}

theorem finish_means (ha : Means env r a) (h : finish .strict a = .ok z) : Means env r z := by
  cases a with
  | infinitesimal => cases h; exact ha
  | normal c =>
    obtain ⟨h1, h2, h3⟩ := ha
    simp only [finish, LOut.bind_eq_ok, LOut.ofRes_eq_ok] at h
    obtain ⟨c', hc, h⟩ := h
    cases h
    have hg := agg_of_numAggregate h3.tree hc
    exact ⟨agg_sound' hg h3 h2 _ _ h1, hg.safe h3 h2, hg.wf (numClosed_valid _) h3⟩
  | _ => exact ha.elim

theorem add_means (ha : Means env r a) (hb : Means env s b) : ∃ z, a.add b = some z ∧ Means env (r + s) z := by
  cases a <;> cases b <;> try exact ha.elim
  all_goals try exact hb.elim
  all_goals refine ⟨_, rfl, ?_⟩
  · have h1 : r = 0 := ha
    have h2 : s = 0 := hb
    show r + s = 0
    simp [h1, h2]
  · have h1 : r = 0 := ha
    rw [h1, zero_add]; exact hb
  · have h1 : s = 0 := hb
    rw [h1, add_zero]; exact ha
  · exact ⟨denote_add.2 ⟨_, _, ha.1, hb.1, rfl⟩, safe_add.2 ⟨ha.2.1, hb.2.1⟩, .add _ _ ha.2.2 hb.2.2⟩

theorem mul_means (ha : Means env r a) (hb : Means env s b) : ∃ z, a.mul b = some z ∧ Means env (r * s) z := by
  cases a <;> cases b <;> try exact ha.elim
  all_goals try exact hb.elim
  all_goals refine ⟨_, rfl, ?_⟩
  · have h1 : r = 0 := ha
    show r * s = 0
    simp [h1]
  · have h1 : r = 0 := ha
    show r * s = 0
    simp [h1]
  · have h1 : s = 0 := hb
    show r * s = 0
    simp [h1]
  · exact ⟨denote_mul.2 ⟨_, _, ha.1, hb.1, rfl⟩, safe_mul.2 ⟨ha.2.1, hb.2.1⟩, .mul _ _ ha.2.2 hb.2.2⟩

theorem isZero_value {c : Expr F} (hc : WF SmartNum.Valid c) (h : c.isZero = true)
    (hr : denote SmartNum.value? env c = some r) : r = 0 := by
  obtain ⟨n, hv, rfl⟩ := hc.num_of_isNum (isZero_isNum h)
  rw [isZero_ofNum] at h
  rw [denote_ofNum, SmartNum.Valid.value_zero hv h] at hr
  exact (Option.some.inj hr).symm

/-- Over a divisor of nonzero value. -/
theorem div_means (ha : Means env r a) (hb : Means env s b) (hs : s ≠ 0) :
    ∃ z, a.div b = some z ∧ Means env (r / s) z := by
  cases b with
  | infinitesimal => exact absurd hb hs
  | normal d =>
    have hz : d.isZero = false := by
      by_contra hc
      exact hs (isZero_value hb.2.2 (by simpa using hc) hb.1)
    cases a with
    | infinitesimal =>
      have h1 : r = 0 := ha
      exact ⟨.infinitesimal, by simp [LimitExpression.div, hz], by show r / s = 0; simp [h1]⟩
    | normal c =>
      exact ⟨_, rfl, denote_div.2 ⟨_, _, ha.1, hb.1, hs, rfl⟩, safe_div.2 ⟨ha.2.1, hb.2.1⟩, .div _ _ ha.2.2 hb.2.2⟩
    | _ => exact ha.elim
  | _ => exact hb.elim

/-- No quotient: both values are 0. -/
theorem div_none_means (ha : Means env r a) (hb : Means env s b) (h : a.div b = none) : r = 0 ∧ s = 0 := by
  cases a <;> cases b <;> try exact ha.elim
  all_goals try exact hb.elim
  · exact ⟨ha, hb⟩
  · simp only [LimitExpression.div] at h
    split_ifs at h with h0
    exact ⟨ha, isZero_value hb.2.2 h0 hb.1⟩
  · simp only [LimitExpression.div] at h
    split_ifs at h with h0
    exact ⟨isZero_value ha.2.2 (by simpa using h0) ha.1, hb⟩
  · cases h

/-- The restriction on `sin` at the literal 0. -/
def SinZeroAt (ν : SmartNum F → Option ℝ) (env : Env) (a : Expr F) : Prop :=
  ∃ w, denote ν env a = some w ∧ Real.sin w = 0

theorem substLimit_means {x : Variable} {pt e : Expr F} {p : ℝ} (hpt : denote SmartNum.value? env pt = some p)
    (wp : WF SmartNum.Valid pt) (sp : Safe SmartNum.value? Set.univ pt) (he : WF SmartNum.Valid e)
    (hs : Safe SmartNum.value? (AtPoint SmartNum.value? x pt) e) (hl : LnOK x pt e)
    (hr : denote SmartNum.value? (env.set x p) e = some r) (h : substLimit .strict e x pt = .ok z) : Means env r z := by
  rw [substLimit_eq] at h
  simp only [LOut.bind_eq_ok, LOut.ofRes_eq_ok] at h
  obtain ⟨c, hc, h⟩ := h
  have wr := he.replace wp x
  have sr := hs.replace he.tree sp hl
  have hg := agg_of_numAggregate wr.tree hc
  have hv := agg_sound' hg wr sr env r (by rw [denote_replace he.tree hpt]; exact hr)
  have wc := hg.wf (numClosed_valid _) wr
  split_ifs at h with h0
  · cases h; exact isZero_value wc h0 hv
  · cases h; exact ⟨hv, hg.safe wr sr, wc⟩

/-- At a point where the expression has a value, a successful limit is that value. -/
theorem limit_means {x : Variable} {pt : Expr F} {k : UInt64} {p : ℝ} (hpt : denote SmartNum.value? env pt = some p)
    (wp : WF SmartNum.Valid pt) (sp : Safe SmartNum.value? Set.univ pt) {n : Nat} {e : Expr F}
    (he : WF SmartNum.Valid e) (hs : Safe SmartNum.value? (AtPoint SmartNum.value? x pt) e) (hl : LnOK x pt e)
    (hr : denote SmartNum.value? (env.set x p) e = some r)
    (ht : pt.isZero = true → Everywhere (fun s => ∀ a : Expr F, s = a.sin →
      SinZeroAt SmartNum.value? (env.set x p) a) e)
    (h : limit .strict x pt k n e = .ok z) : Means env r z := by
  induction n generalizing e r z with
  | zero => cases h
  | succ n ih =>
    cases he with
    | num v hv =>
      rw [limit_ofNum] at h; cases h
      rw [denote_ofNum] at hr
      exact ⟨by rw [denote_ofNum]; exact hr, safe_ofNum _, .num _ hv⟩
    | var v =>
      rw [limit_ofVar, LOut.bind_eq_ok] at h
      obtain ⟨a, h1, h⟩ := h
      refine finish_means ?_ h
      rw [denote_ofVar] at hr
      split_ifs at h1 with hv hz
      · cases h1
        subst hv
        have : p = 0 := isZero_value wp hz hpt
        simp only [Env.set_same, Option.some.injEq] at hr
        exact hr.symm.trans this
      · cases h1
        subst hv
        simp only [Env.set_same, Option.some.injEq] at hr
        subst hr
        exact ⟨hpt, sp, wp⟩
      · cases h1
        rw [Env.set_ne _ _ hv] at hr
        exact ⟨by rw [denote_ofVar]; exact hr, safe_ofVar _, .var _⟩
    | neg a _ => rw [limit_neg] at h; cases h
    | exp a _ => cases h
    | ln a _ => cases h
    | pow a b _ _ => cases h
    | sub a b ha hb =>
      rw [limit_sub, LOut.bind_eq_ok] at h
      obtain ⟨w, h1, h⟩ := h
      refine finish_means (ih (.add _ _ ha (.neg _ hb)) ?_ ?_ ?_ ?_ h1) h
      · exact safe_add.2 ⟨(safe_sub.1 hs).1, safe_neg.2 (safe_sub.1 hs).2⟩
      · exact powAll_add.2 ⟨(powAll_sub.1 hl).1, powAll_neg.2 (powAll_sub.1 hl).2⟩
      · obtain ⟨u, v, hu, hv, h⟩ := denote_sub.1 hr
        exact denote_add.2 ⟨u, -v, hu, denote_neg.2 ⟨v, hv, rfl⟩, by rw [← h]; ring⟩
      · intro h0
        have := everywhere_sub.1 (ht h0)
        exact everywhere_add.2 ⟨fun a h => by expr_inj at h, this.2.1,
          everywhere_neg.2 ⟨fun a h => by expr_inj at h, this.2.2⟩⟩
    | sin a ha =>
      rw [limit_sin, LOut.bind_eq_ok] at h
      obtain ⟨w, h1, h⟩ := h
      refine finish_means ?_ h
      split_ifs at h1 with h0
      · cases h1
        obtain ⟨w, hw, hs⟩ := (everywhere_sin.1 (ht h0)).1 a rfl
        obtain ⟨u, hu, h⟩ := denote_sin.1 hr
        rw [hu] at hw; cases hw
        show r = 0
        rw [← h, hs]
      · exact substLimit_means hpt wp sp (.sin _ ha) hs hl hr h1
    | cos a ha =>
      rw [limit_cos, LOut.bind_eq_ok] at h
      obtain ⟨w, h1, h⟩ := h
      exact finish_means (substLimit_means hpt wp sp (.cos _ ha) hs hl hr h1) h
    | div a b ha hb =>
      rw [limit_div, LOut.bind_eq_ok] at h
      obtain ⟨w, h1, h⟩ := h
      refine finish_means ?_ h
      obtain ⟨u, v, hu, hv, hv0, h⟩ := denote_div.1 hr
      simp only [divLoop, LOut.bind_eq_ok] at h1
      obtain ⟨A, hA, B, hB, h1⟩ := h1
      have ma := ih ha (safe_div.1 hs).1 (powAll_div.1 hl).1 hu (fun h0 => (everywhere_div.1 (ht h0)).2.1) hA
      have mb := ih hb (safe_div.1 hs).2 (powAll_div.1 hl).2 hv (fun h0 => (everywhere_div.1 (ht h0)).2.2) hB
      obtain ⟨z', hz, hm⟩ := div_means ma mb hv0
      rw [hz] at h1; cases h1
      rwa [h] at hm
    | add a b ha hb =>
      rw [limit_add, LOut.bind_eq_ok] at h
      obtain ⟨w, h1, h⟩ := h
      refine finish_means ?_ h
      obtain ⟨u, v, hu, hv, h⟩ := denote_add.1 hr
      simp only [addBody, LOut.bind_eq_ok] at h1
      obtain ⟨B, hB, A, hA, h1⟩ := h1
      have ma := ih ha (safe_add.1 hs).1 (powAll_add.1 hl).1 hu (fun h0 => (everywhere_add.1 (ht h0)).2.1) hA
      have mb := ih hb (safe_add.1 hs).2 (powAll_add.1 hl).2 hv (fun h0 => (everywhere_add.1 (ht h0)).2.2) hB
      obtain ⟨z', hz, hm⟩ := add_means ma mb
      rw [hz] at h1; cases h1
      rwa [h] at hm
    | mul a b ha hb =>
      rw [limit_mul, LOut.bind_eq_ok] at h
      obtain ⟨w, h1, h⟩ := h
      refine finish_means ?_ h
      obtain ⟨u, v, hu, hv, h⟩ := denote_mul.1 hr
      simp only [mulBody, LOut.bind_eq_ok] at h1
      obtain ⟨B, hB, A, hA, h1⟩ := h1
      have ma := ih ha (safe_mul.1 hs).1 (powAll_mul.1 hl).1 hu (fun h0 => (everywhere_mul.1 (ht h0)).2.1) hA
      have mb := ih hb (safe_mul.1 hs).2 (powAll_mul.1 hl).2 hv (fun h0 => (everywhere_mul.1 (ht h0)).2.2) hB
      obtain ⟨z', hz, hm⟩ := mul_means ma mb
      rw [hz] at h1; cases h1
      rwa [h] at hm

end

end SymRust
