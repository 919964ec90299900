import Verif.Proofs.LimitFull
import Verif.Props.LimitShape
/-! # Indeterminate forms with Infinity never get an answer (exact floats) -/

namespace SymRust
open Expr Filter Topology LimitExpression
variable {F : Type}

theorem LimitIs.unique [FloatOps F] {m : Mode} {e pt : Expr F} {x : Variable} {k : UInt64} {z z' : LimitExpression F}
    (ht : Tree pt) (he : Tree e) (h : LimitIs m e x pt k z) (h' : LimitIs m e x pt k z') : z = z' := by
  obtain ⟨n, h⟩ := h
  obtain ⟨n', h'⟩ := h'
  have := limit_outcome_unique ht he (h.trans_ne (by simp)) (h'.trans_ne (by simp))
  rw [h, h'] at this
  exact LOut.ok.inj this

section
variable [ExactFloat F] {env : Env} {x : Variable} {pt : Expr F} {p : ℝ} {k : UInt64} {Z : Expr F → Prop}

theorem agg_ofNum_inv {m : Mode} {v : SmartNum F} {e : Expr F} (h : Agg m (ofNum v) e) : e = ofNum v := by
  generalize hd : (ofNum v : Expr F) = d at h
  cases h <;> expr_inj at hd
  · subst hd; rfl

theorem mul_one_num {m : Mode} {l' e : Expr F} (h : Agg m ((Expr.one : Expr F).mul l') e) :
    (∃ y, Agg m l' (ofNum y)) ∨ e.isNum = false := by
  have one : ∀ {a : Expr F}, Agg m (Expr.one : Expr F) a → a.isNum = true := by
    intro a ha; rw [agg_ofNum_inv (v := SmartNum.ofI64 1) ha]; rfl
  generalize hd : (Expr.one : Expr F).mul l' = d at h
  cases h <;> expr_inj at hd
  all_goals obtain ⟨h1, h2⟩ := hd
  all_goals subst h1; subst h2
  case mul_num => exact .inl ⟨_, by assumption⟩
  case mul_zero_l =>
    rename Agg m (Expr.one : Expr F) _ => g
    have := agg_ofNum_inv (v := SmartNum.ofI64 1) g
    expr_inj at this; subst this; contradiction
  case mul_zero_r => rename Agg m (Expr.one : Expr F) _ => g; have := one g; simp_all
  case mul_one_l => exact .inr (by assumption)
  case mul_one_r => rename Agg m (Expr.one : Expr F) _ => g; have := one g; simp_all
  case mul => exact .inr rfl

/-- The derivative of `1 / l`: a number only if the derivative of `l` is one; otherwise its dividend is a negation. -/
theorem der_inv_shape {m : Mode} {l d : Expr F} (hl : Tree l) (h : Der m x ((Expr.one : Expr F).div l) d) :
    ∃ l', Der m x l l' ∧ ((∃ y, Agg m l' (ofNum y)) ∨ ∃ a b : Expr F, d = a.neg.div b) := by
  generalize hd : (Expr.one : Expr F).div l = c at h
  cases h <;> expr_inj at hd
  case div o' l' h1 h2 h3 =>
  obtain ⟨e1, e2⟩ := hd
  subst e1; subst e2
  refine ⟨l', h2, ?_⟩
  have ho : o' = ofI64 0 := by
    generalize hc : (Expr.one : Expr F) = c at h1
    have : c = ofNum (SmartNum.ofI64 1) := hc.symm
    cases h1 <;> expr_inj at this
    rfl
  subst ho
  have tl' : Tree l' := h2.wf (numClosed_true m) hl
  have sub : ∀ {a : Expr F}, Agg m ((((ofI64 0 : Expr F)).mul l).sub ((Expr.one : Expr F).mul l')) a →
      (∃ y, Agg m l' (ofNum y)) ∨ ∃ b : Expr F, a = b.neg := by
    intro a ha
    have hz : ∀ {a' : Expr F}, Agg m ((ofI64 0 : Expr F).mul l) a' → a' = ofI64 0 := fun h =>
      (aggZero_zero m).mul_left _ (numAggregate_of_agg (.mul _ _ (.num _ trivial) hl) h)
    generalize hd : ((ofI64 0 : Expr F).mul l).sub ((Expr.one : Expr F).mul l') = c at ha
    cases ha <;> expr_inj at hd
    all_goals obtain ⟨e1, e2⟩ := hd
    all_goals subst e1; subst e2
    case sub_num =>
      rename Agg m ((Expr.one : Expr F).mul l') _ => g
      rcases mul_one_num g with h | h
      · exact .inl h
      · cases h
    case sub_zero_l => exact .inr ⟨_, rfl⟩
    case sub_zero_r =>
      rename Agg m ((Expr.one : Expr F).mul l') _ => g
      rcases mul_one_num g with h | h
      · exact .inl h
      · cases h
    case sub =>
      rename Agg m ((ofI64 0 : Expr F).mul l) _ => g
      obtain rfl := hz g; contradiction
  generalize hd : (((ofI64 0 : Expr F).mul l).sub ((Expr.one : Expr F).mul l')).div (l.mul l) = c at h3
  cases h3 <;> expr_inj at hd
  all_goals obtain ⟨e1, e2⟩ := hd
  all_goals subst e1; subst e2
  case div_num => rename Agg m (Expr.sub _ _) _ => g; rcases sub g with h | ⟨b, h⟩; exact .inl h; expr_inj at h
  case div_zero_l => rename Agg m (Expr.sub _ _) _ => g; rcases sub g with h | ⟨b, h⟩; exact .inl h; expr_inj at h
  case div =>
    rename Agg m (Expr.sub _ _) _ => g
    rcases sub g with h | ⟨b, h⟩; exact .inl h
    subst h; exact .inr ⟨b, _, rfl⟩

theorem limit_neg_div (n : Nat) (a b : Expr F) (z : LimitExpression F) : limit .strict x pt k n (a.neg.div b) ≠ .ok z := by
  intro h
  cases n with
  | zero => cases h
  | succ n =>
    rw [limit_div, LOut.bind_eq_ok] at h
    obtain ⟨w, h, -⟩ := h
    simp only [divLoop, LOut.bind_eq_ok] at h
    obtain ⟨A, hA, -⟩ := h
    cases n with
    | zero => cases hA
    | succ n => rw [limit_neg] at hA; cases hA

variable (hpt : denote SmartNum.value? env pt = some p) (wp : WF SmartNum.Valid pt)
    (sp : Safe SmartNum.value? Set.univ pt) (hZ : ∀ c, WF SmartNum.Valid c → denote SmartNum.value? env c = some 0 → Z c)
include hpt wp sp hZ

theorem no_infinity_div_infinity {l r : Expr F} (h : Punctured env x pt p (l.div r))
    (hf : SearchFine .strict x pt k Z (l.div r)) (hl : LimitIs .strict l x pt k .infinity)
    (hr : LimitIs .strict r x pt k .infinity) (n : Nat) (z : LimitExpression F) :
    limit .strict x pt k n (l.div r) ≠ .ok z := by
  intro hz
  cases n with
  | zero => cases hz
  | succ n =>
    rw [limit_div, LOut.bind_eq_ok] at hz
    obtain ⟨w, hz, -⟩ := hz
    obtain ⟨pl, pr, h0⟩ := Punctured.div_iff.1 h
    obtain ⟨n1, hl⟩ := hl
    obtain ⟨n2, hr⟩ := hr
    have tl := (limit_truth hpt wp sp hZ n1 pl (hf.now (.dividend _ _ _ _ .start)) hl).2.infinity
    have tr := (limit_truth hpt wp sp hZ n2 pr (hf.now (.divisor _ _ _ _ .start)) hr).2.infinity
    exact divLoop_infinity (limit_truth hpt wp sp hZ n) hf _ pl pr .start tl tr hz

theorem no_infinity_add_infinity {l r : Expr F} (h : Punctured env x pt p (l.add r))
    (hf : SearchFine .strict x pt k Z (l.add r)) (hl : LimitIs .strict l x pt k .infinity)
    (hr : LimitIs .strict r x pt k .infinity) (n : Nat) (z : LimitExpression F) :
    limit .strict x pt k n (l.add r) ≠ .ok z := by
  intro hz
  cases n with
  | zero => cases hz
  | succ n =>
    rw [limit_add, LOut.bind_eq_ok] at hz
    obtain ⟨w, hz, -⟩ := hz
    obtain ⟨pl, pr⟩ := h.add_iff
    simp only [addBody, LOut.bind_eq_ok] at hz
    obtain ⟨B, hB, A, hA, hz⟩ := hz
    obtain rfl := LimitIs.unique wp.tree pr.wf.tree hr ⟨n, hB⟩
    obtain rfl := LimitIs.unique wp.tree pl.wf.tree hl ⟨n, hA⟩
    have tr := (limit_truth hpt wp sp hZ n pr (hf.now (.addRight _ _)) hB).2
    have hf' := (hf.now (.addAgain l r .infinity hl hr rfl)).now (.dividend _ _ _ _ .start)
    simp only [LimitExpression.add] at hz
    cases n with
    | zero => cases hz
    | succ n =>
      rw [limit_div, LOut.bind_eq_ok] at hz
      obtain ⟨w, hz, -⟩ := hz
      simp only [divLoop, LOut.bind_eq_ok] at hz
      obtain ⟨A, hz, -⟩ := hz
      cases n with
      | zero => cases hz
      | succ n =>
        rw [limit_add, LOut.bind_eq_ok] at hz
        obtain ⟨w, hz, -⟩ := hz
        simp only [addBody, LOut.bind_eq_ok] at hz
        obtain ⟨B, -, A, hA, -⟩ := hz
        exact no_infinity_div_infinity hpt wp sp hZ (Punctured.div_iff.2 ⟨pl, pr, tr.ne_zero⟩) (hf'.now (.addLeft _ _)) hl hr
          n A hA

theorem no_zero_div_inv {l r : Expr F} (pl : Punctured env x pt p l) (pr : Punctured env x pt p r)
    (fr : SearchFine .strict x pt k Z r) (hl : LimitIs .strict l x pt k .infinitesimal)
    (hr : LimitIs .strict r x pt k .infinity) (n : Nat) (z : LimitExpression F) :
    limit .strict x pt k n (l.div ((Expr.one : Expr F).div r)) ≠ .ok z := by
  intro hz
  cases n with
  | zero => cases hz
  | succ n =>
    rw [limit_div, LOut.bind_eq_ok] at hz
    obtain ⟨w, hz, -⟩ := hz
    simp only [divLoop, LOut.bind_eq_ok] at hz
    obtain ⟨A, hA, B, hB, hz⟩ := hz
    obtain rfl := LimitIs.unique wp.tree pl.wf.tree hl ⟨n, hA⟩
    obtain ⟨n2, hr2⟩ := hr
    obtain ⟨mr, tr⟩ := limit_truth hpt wp sp hZ n2 pr fr hr2
    obtain ⟨pi, -⟩ := pr.inv tr.ne_zero
    have hinv : LimitIs .strict ((Expr.one : Expr F).div r) x pt k .infinitesimal := by
      cases n2 with
      | zero => cases hr2
      | succ n2 =>
        refine ⟨n2 + 2, ?_⟩
        rw [limit_div]
        simp only [divLoop]
        rw [show limit .strict x pt k (n2 + 1) (Expr.one : Expr F) = .ok (.normal Expr.one) from limit_ofNum .., hr2]
        rfl
    obtain rfl := LimitIs.unique wp.tree pi.wf.tree hinv ⟨n, hB⟩
    simp only [LimitExpression.div, LOut.bind_eq_ok, LOut.ofOut_eq_ok] at hz
    obtain ⟨l', h1, d, h2, hz⟩ := hz
    obtain ⟨r', hr', hd⟩ := der_inv_shape pr.wf.tree (der_of_derivative pi.wf.tree h2)
    rcases hd with ⟨y, hy⟩ | ⟨a, b, rfl⟩
    · obtain ⟨pr', dr⟩ := pr.derivative (derivative_of_der pr.wf.tree hr')
      have t' : Tendsto (fun t => |fn SmartNum.value? env x r' t|) (𝓝[≠] p) atTop :=
        (deriv_infinity mr tr.infinity).congr' (by filter_upwards [dr] with t ht using by rw [ht.deriv])
      have hs := agg_sound' hy pr'.wf pr'.safe.1
      have hc : Tendsto (fn SmartNum.value? env x r') (𝓝[≠] p) (𝓝 (y.value?.getD 0)) := by
        refine tendsto_const_nhds.congr' ?_
        filter_upwards [pr'.fn_eq] with t ht
        have := hs _ _ ht
        rw [denote_ofNum] at this
        rw [this]; rfl
      exact not_tendsto_atTop_of_tendsto_nhds hc.abs t'
    · cases hj : k.toNat with
      | zero => rw [hj] at hz; cases hz
      | succ j =>
        rw [hj] at hz
        simp only [divLoop, LOut.bind_eq_ok] at hz
        obtain ⟨A, -, B, hB, -⟩ := hz
        exact limit_neg_div n a b B hB

theorem no_infinity_mul_zero {l r : Expr F} (h : Punctured env x pt p (l.mul r))
    (hf : SearchFine .strict x pt k Z (l.mul r))
    (hlr : (LimitIs .strict l x pt k .infinity ∧ LimitIs .strict r x pt k .infinitesimal) ∨
      (LimitIs .strict l x pt k .infinitesimal ∧ LimitIs .strict r x pt k .infinity)) (n : Nat) (z : LimitExpression F) :
    limit .strict x pt k n (l.mul r) ≠ .ok z := by
  intro hz
  cases n with
  | zero => cases hz
  | succ n =>
    rw [limit_mul, LOut.bind_eq_ok] at hz
    obtain ⟨w, hz, -⟩ := hz
    obtain ⟨pl, pr⟩ := h.mul_iff
    simp only [mulBody, LOut.bind_eq_ok] at hz
    obtain ⟨B, hB, A, hA, hz⟩ := hz
    rcases hlr with ⟨hl, hr⟩ | ⟨hl, hr⟩
    · obtain rfl := LimitIs.unique wp.tree pr.wf.tree hr ⟨n, hB⟩
      obtain rfl := LimitIs.unique wp.tree pl.wf.tree hl ⟨n, hA⟩
      exact no_zero_div_inv hpt wp sp hZ pr pl (hf.now (.mulLeft _ _)) hr hl n w hz
    · obtain rfl := LimitIs.unique wp.tree pr.wf.tree hr ⟨n, hB⟩
      obtain rfl := LimitIs.unique wp.tree pl.wf.tree hl ⟨n, hA⟩
      exact no_zero_div_inv hpt wp sp hZ pl pr (hf.now (.mulRight _ _)) hl hr n w hz

end
end SymRust
