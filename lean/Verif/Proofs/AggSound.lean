import Verif.Proofs.Value
import Verif.Proofs.AggConv
import Verif.Proofs.Subst
/-! `num_aggregate` preserves values. -/

namespace SymRust
variable {F : Type}
open Expr

/-! ### equations of the semantics -/
section
variable (ν : SmartNum F → Option ℝ) (env : Env) (a b : Expr F)

@[simp] theorem denote_ofNum (n : SmartNum F) : denote ν env (ofNum n) = ν n := by simp [ofNum, denote]
@[simp] theorem denote_ofVar (v : Variable) : denote ν env (ofVar v) = some (env v) := by
  simp [ofVar, newVariable, denote]

theorem denote_neg' : denote ν env a.neg = opValue .neg [denote ν env a] := by
  simp [neg, denote, denoteList, genOpNeg]
theorem denote_sin' : denote ν env a.sin = opValue .sin [denote ν env a] := by
  simp [sin, denote, denoteList, genOpSin]
theorem denote_cos' : denote ν env a.cos = opValue .cos [denote ν env a] := by
  simp [cos, denote, denoteList, genOpCos]
theorem denote_exp' : denote ν env a.exp = opValue .exp [denote ν env a] := by
  simp [exp, denote, denoteList, genOpExp]
theorem denote_ln' : denote ν env a.ln = opValue .ln [denote ν env a] := by
  simp [ln, denote, denoteList, genOpLn]
theorem denote_add' : denote ν env (a.add b) = opValue .add [denote ν env a, denote ν env b] := by
  simp [add, denote, denoteList, genOpAdd]
theorem denote_sub' : denote ν env (a.sub b) = opValue .sub [denote ν env a, denote ν env b] := by
  simp [sub, denote, denoteList, genOpSub]
theorem denote_mul' : denote ν env (a.mul b) = opValue .mul [denote ν env a, denote ν env b] := by
  simp [mul, denote, denoteList, genOpMul]
theorem denote_div' : denote ν env (a.div b) = opValue .div [denote ν env a, denote ν env b] := by
  simp [div, denote, denoteList, genOpDiv]
theorem denote_pow' : denote ν env (a.pow b) = opValue .pow [denote ν env a, denote ν env b] := by
  simp [pow, denote, denoteList, genOpPow]
end

section
variable {ν : SmartNum F → Option ℝ} {env : Env} {a b : Expr F} {r : ℝ}

theorem denote_neg : denote ν env a.neg = some r ↔ ∃ u, denote ν env a = some u ∧ -u = r := by
  rw [denote_neg']; cases denote ν env a <;> simp [opValue]
theorem denote_sin : denote ν env a.sin = some r ↔ ∃ u, denote ν env a = some u ∧ Real.sin u = r := by
  rw [denote_sin']; cases denote ν env a <;> simp [opValue]
theorem denote_cos : denote ν env a.cos = some r ↔ ∃ u, denote ν env a = some u ∧ Real.cos u = r := by
  rw [denote_cos']; cases denote ν env a <;> simp [opValue]
theorem denote_exp : denote ν env a.exp = some r ↔ ∃ u, denote ν env a = some u ∧ Real.exp u = r := by
  rw [denote_exp']; cases denote ν env a <;> simp [opValue]
theorem denote_ln : denote ν env a.ln = some r ↔ ∃ u, denote ν env a = some u ∧ 0 < u ∧ Real.log u = r := by
  rw [denote_ln']; cases denote ν env a <;> simp [opValue]
theorem denote_add : denote ν env (a.add b) = some r ↔
    ∃ u v, denote ν env a = some u ∧ denote ν env b = some v ∧ u + v = r := by
  rw [denote_add']; cases denote ν env a <;> cases denote ν env b <;> simp [opValue]
theorem denote_sub : denote ν env (a.sub b) = some r ↔
    ∃ u v, denote ν env a = some u ∧ denote ν env b = some v ∧ u - v = r := by
  rw [denote_sub']; cases denote ν env a <;> cases denote ν env b <;> simp [opValue]
theorem denote_mul : denote ν env (a.mul b) = some r ↔
    ∃ u v, denote ν env a = some u ∧ denote ν env b = some v ∧ u * v = r := by
  rw [denote_mul']; cases denote ν env a <;> cases denote ν env b <;> simp [opValue]
theorem denote_div : denote ν env (a.div b) = some r ↔
    ∃ u v, denote ν env a = some u ∧ denote ν env b = some v ∧ v ≠ 0 ∧ u / v = r := by
  rw [denote_div']; cases denote ν env a <;> cases denote ν env b <;> simp [opValue]
theorem denote_pow : denote ν env (a.pow b) = some r ↔
    ∃ u v, denote ν env a = some u ∧ denote ν env b = some v ∧ powValue u v = some r := by
  rw [denote_pow']; cases denote ν env a <;> cases denote ν env b <;> simp [opValue]
end

variable [ExactFloat F]

@[simp] theorem denote_ofI64 (env : Env) (v : Int64) :
    denote SmartNum.value? env (ofI64 v : Expr F) = some (v.toInt : ℝ) := by
  rw [ofI64, denote_ofNum, SmartNum.value?_ofI64]
theorem denote_zero (env : Env) : denote SmartNum.value? env (ofI64 0 : Expr F) = some 0 := by
  rw [denote_ofI64]; simp
theorem denote_one (env : Env) : denote SmartNum.value? env (ofI64 1 : Expr F) = some 1 := by
  rw [denote_ofI64, show (1 : Int64).toInt = 1 from by decide]; simp

/-- The soundness statement for one pair. -/
def Sound (e e' : Expr F) : Prop :=
  ∀ env r, denote SmartNum.value? env e = some r → denote SmartNum.value? env e' = some r

theorem agg_sound {e e' : Expr F} (h : Agg .strict e e') (he : WF SmartNum.Valid e)
    (hs : RuleSafe .strict e) : Sound e e' := by
  have NC := numClosed_valid (F := F) .strict
  induction h with
  | num n => exact fun _ _ h => h
  | var v => exact fun _ _ h => h
  | neg_num h1 hk ih =>
    intro env r hr
    obtain ⟨u, hu, rfl⟩ := denote_neg.1 hr
    have hw := WF.neg_iff.1 he
    have := ih hw (everywhere_neg.1 hs).2 env u hu
    rw [denote_ofNum] at this ⊢
    exact SmartNum.value?_neg (WF.num_iff.1 (h1.wf NC hw)) this hk
  | neg_neg h1 ih =>
    intro env r hr
    obtain ⟨u, hu, rfl⟩ := denote_neg.1 hr
    obtain ⟨v, hv, rfl⟩ := denote_neg.1 (ih (WF.neg_iff.1 he) (everywhere_neg.1 hs).2 env u hu)
    rw [neg_neg]; exact hv
  | neg h1 _ _ ih =>
    intro env r hr
    obtain ⟨u, hu, rfl⟩ := denote_neg.1 hr
    exact denote_neg.2 ⟨u, ih (WF.neg_iff.1 he) (everywhere_neg.1 hs).2 env u hu, rfl⟩
  | add_num h1 h2 hz i j =>
    intro env r hr
    obtain ⟨u, v, hu, hv, rfl⟩ := denote_add.1 hr
    have hw := WF.add_iff.1 he
    have hs' := (everywhere_add.1 hs).2
    have hx := i hw.1 hs'.1 env u hu
    have hy := j hw.2 hs'.2 env v hv
    rw [denote_ofNum] at *
    exact SmartNum.value?_add (WF.num_iff.1 (h1.wf NC hw.1)) (WF.num_iff.1 (h2.wf NC hw.2)) hx hy hz
  | add_zero_l h1 h2 h0 _ i j =>
    intro env r hr
    obtain ⟨u, v, hu, hv, rfl⟩ := denote_add.1 hr
    have hw := WF.add_iff.1 he
    have hs' := (everywhere_add.1 hs).2
    have hx := i hw.1 hs'.1 env u hu
    rw [denote_ofNum, (WF.num_iff.1 (h1.wf NC hw.1)).value_zero h0] at hx
    cases hx
    rw [zero_add]; exact j hw.2 hs'.2 env v hv
  | add_zero_r h1 h2 h0 _ i j =>
    intro env r hr
    obtain ⟨u, v, hu, hv, rfl⟩ := denote_add.1 hr
    have hw := WF.add_iff.1 he
    have hs' := (everywhere_add.1 hs).2
    have hx := j hw.2 hs'.2 env v hv
    rw [denote_ofNum, (WF.num_iff.1 (h2.wf NC hw.2)).value_zero h0] at hx
    cases hx
    rw [add_zero]; exact i hw.1 hs'.1 env u hu
  | add h1 h2 _ _ _ i j =>
    intro env r hr
    obtain ⟨u, v, hu, hv, rfl⟩ := denote_add.1 hr
    have hw := WF.add_iff.1 he
    have hs' := (everywhere_add.1 hs).2
    exact denote_add.2 ⟨u, v, i hw.1 hs'.1 env u hu, j hw.2 hs'.2 env v hv, rfl⟩
  | sub_num h1 h2 hz i j =>
    intro env r hr
    obtain ⟨u, v, hu, hv, rfl⟩ := denote_sub.1 hr
    have hw := WF.sub_iff.1 he
    have hs' := (everywhere_sub.1 hs).2
    have hx := i hw.1 hs'.1 env u hu
    have hy := j hw.2 hs'.2 env v hv
    rw [denote_ofNum] at *
    exact SmartNum.value?_sub (WF.num_iff.1 (h1.wf NC hw.1)) (WF.num_iff.1 (h2.wf NC hw.2)) hx hy hz
  | sub_zero_l h1 h2 h0 _ i j =>
    intro env r hr
    obtain ⟨u, v, hu, hv, rfl⟩ := denote_sub.1 hr
    have hw := WF.sub_iff.1 he
    have hs' := (everywhere_sub.1 hs).2
    have hx := i hw.1 hs'.1 env u hu
    rw [denote_ofNum, (WF.num_iff.1 (h1.wf NC hw.1)).value_zero h0] at hx
    cases hx
    exact denote_neg.2 ⟨v, j hw.2 hs'.2 env v hv, by rw [zero_sub]⟩
  | sub_zero_r h1 h2 h0 _ i j =>
    intro env r hr
    obtain ⟨u, v, hu, hv, rfl⟩ := denote_sub.1 hr
    have hw := WF.sub_iff.1 he
    have hs' := (everywhere_sub.1 hs).2
    have hx := j hw.2 hs'.2 env v hv
    rw [denote_ofNum, (WF.num_iff.1 (h2.wf NC hw.2)).value_zero h0] at hx
    cases hx
    rw [sub_zero]; exact i hw.1 hs'.1 env u hu
  | sub h1 h2 _ _ _ i j =>
    intro env r hr
    obtain ⟨u, v, hu, hv, rfl⟩ := denote_sub.1 hr
    have hw := WF.sub_iff.1 he
    have hs' := (everywhere_sub.1 hs).2
    exact denote_sub.2 ⟨u, v, i hw.1 hs'.1 env u hu, j hw.2 hs'.2 env v hv, rfl⟩
  | mul_num h1 h2 hz i j =>
    intro env r hr
    obtain ⟨u, v, hu, hv, rfl⟩ := denote_mul.1 hr
    have hw := WF.mul_iff.1 he
    have hs' := (everywhere_mul.1 hs).2
    have hx := i hw.1 hs'.1 env u hu
    have hy := j hw.2 hs'.2 env v hv
    rw [denote_ofNum] at *
    exact SmartNum.value?_mul (WF.num_iff.1 (h1.wf NC hw.1)) (WF.num_iff.1 (h2.wf NC hw.2)) hx hy hz
  | mul_zero_l h1 h2 h0 _ i j =>
    intro env r hr
    obtain ⟨u, v, hu, hv, rfl⟩ := denote_mul.1 hr
    have hw := WF.mul_iff.1 he
    have hs' := (everywhere_mul.1 hs).2
    have hx := i hw.1 hs'.1 env u hu
    rw [denote_ofNum, (WF.num_iff.1 (h1.wf NC hw.1)).value_zero h0] at hx
    cases hx
    rw [zero_mul]; exact denote_zero env
  | mul_zero_r h1 h2 h0 _ i j =>
    intro env r hr
    obtain ⟨u, v, hu, hv, rfl⟩ := denote_mul.1 hr
    have hw := WF.mul_iff.1 he
    have hs' := (everywhere_mul.1 hs).2
    have hx := j hw.2 hs'.2 env v hv
    rw [denote_ofNum, (WF.num_iff.1 (h2.wf NC hw.2)).value_zero h0] at hx
    cases hx
    rw [mul_zero]; exact denote_zero env
  | mul_one_l h1 h2 h0 _ i j =>
    intro env r hr
    obtain ⟨u, v, hu, hv, rfl⟩ := denote_mul.1 hr
    have hw := WF.mul_iff.1 he
    have hs' := (everywhere_mul.1 hs).2
    have hx := i hw.1 hs'.1 env u hu
    rw [denote_ofNum, (WF.num_iff.1 (h1.wf NC hw.1)).value_one h0] at hx
    cases hx
    rw [one_mul]; exact j hw.2 hs'.2 env v hv
  | mul_one_r h1 h2 h0 _ i j =>
    intro env r hr
    obtain ⟨u, v, hu, hv, rfl⟩ := denote_mul.1 hr
    have hw := WF.mul_iff.1 he
    have hs' := (everywhere_mul.1 hs).2
    have hx := j hw.2 hs'.2 env v hv
    rw [denote_ofNum, (WF.num_iff.1 (h2.wf NC hw.2)).value_one h0] at hx
    cases hx
    rw [mul_one]; exact i hw.1 hs'.1 env u hu
  | mul h1 h2 _ _ _ _ _ i j =>
    intro env r hr
    obtain ⟨u, v, hu, hv, rfl⟩ := denote_mul.1 hr
    have hw := WF.mul_iff.1 he
    have hs' := (everywhere_mul.1 hs).2
    exact denote_mul.2 ⟨u, v, i hw.1 hs'.1 env u hu, j hw.2 hs'.2 env v hv, rfl⟩
  | div_num h1 h2 hz i j =>
    intro env r hr
    obtain ⟨u, v, hu, hv, hv0, rfl⟩ := denote_div.1 hr
    have hw := WF.div_iff.1 he
    have hs' := (everywhere_div.1 hs).2
    have hx := i hw.1 hs'.1 env u hu
    have hy := j hw.2 hs'.2 env v hv
    rw [denote_ofNum] at *
    exact SmartNum.value?_div (WF.num_iff.1 (h1.wf NC hw.1)) (WF.num_iff.1 (h2.wf NC hw.2)) hx hy hv0 hz
  | div_zero_l h1 h2 h0 _ i j =>
    intro env r hr
    obtain ⟨u, v, hu, hv, hv0, rfl⟩ := denote_div.1 hr
    have hw := WF.div_iff.1 he
    have hs' := (everywhere_div.1 hs).2
    have hx := i hw.1 hs'.1 env u hu
    rw [denote_ofNum, (WF.num_iff.1 (h1.wf NC hw.1)).value_zero h0] at hx
    cases hx
    rw [zero_div]; exact denote_zero env
  | div h1 h2 _ _ i j =>
    intro env r hr
    obtain ⟨u, v, hu, hv, hv0, rfl⟩ := denote_div.1 hr
    have hw := WF.div_iff.1 he
    have hs' := (everywhere_div.1 hs).2
    exact denote_div.2 ⟨u, v, i hw.1 hs'.1 env u hu, j hw.2 hs'.2 env v hv, hv0, rfl⟩
  | sin_num h1 h0 ih =>
    intro env r hr
    obtain ⟨u, hu, rfl⟩ := denote_sin.1 hr
    have hw := WF.sin_iff.1 he
    have hx := ih hw (everywhere_sin.1 hs).2 env u hu
    have hv := WF.num_iff.1 (h1.wf NC hw)
    rw [denote_ofNum] at hx
    rw [Bool.or_eq_true] at h0
    rcases h0 with h0 | h0
    · rw [hv.value_zero h0] at hx; cases hx; rw [Real.sin_zero]; exact denote_zero env
    · rw [hv.value_pi h0] at hx; cases hx; rw [Real.sin_pi]; exact denote_zero env
  | sin h1 _ _ ih =>
    intro env r hr
    obtain ⟨u, hu, rfl⟩ := denote_sin.1 hr
    exact denote_sin.2 ⟨u, ih (WF.sin_iff.1 he) (everywhere_sin.1 hs).2 env u hu, rfl⟩
  | cos_num h1 h0 ih =>
    intro env r hr
    obtain ⟨u, hu, rfl⟩ := denote_cos.1 hr
    have hw := WF.cos_iff.1 he
    have hx := ih hw (everywhere_cos.1 hs).2 env u hu
    have hv := WF.num_iff.1 (h1.wf NC hw)
    have hp := (everywhere_cos.1 hs).1.cos _ _ rfl (numAggregate_of_agg hw.tree h1)
    rw [isPi_ofNum] at hp
    rw [hp, Bool.or_false] at h0
    rw [denote_ofNum, hv.value_zero h0] at hx; cases hx; rw [Real.cos_zero]; exact denote_one env
  | cos h1 _ _ ih =>
    intro env r hr
    obtain ⟨u, hu, rfl⟩ := denote_cos.1 hr
    exact denote_cos.2 ⟨u, ih (WF.cos_iff.1 he) (everywhere_cos.1 hs).2 env u hu, rfl⟩
  | exp_zero h1 h0 ih =>
    intro env r hr
    obtain ⟨u, hu, rfl⟩ := denote_exp.1 hr
    have hw := WF.exp_iff.1 he
    have hx := ih hw (everywhere_exp.1 hs).2 env u hu
    rw [denote_ofNum, (WF.num_iff.1 (h1.wf NC hw)).value_zero h0] at hx
    cases hx; rw [Real.exp_zero]; exact denote_one env
  | exp_one h1 h0 ih =>
    intro env r hr
    obtain ⟨u, hu, rfl⟩ := denote_exp.1 hr
    have hw := WF.exp_iff.1 he
    have hx := ih hw (everywhere_exp.1 hs).2 env u hu
    rw [denote_ofNum, (WF.num_iff.1 (h1.wf NC hw)).value_one h0] at hx
    cases hx
    rw [Expr.e, denote_ofNum]
    exact SmartNum.valid_e.value_e rfl
  | exp_ln h1 ih =>
    intro env r hr
    obtain ⟨u, hu, rfl⟩ := denote_exp.1 hr
    obtain ⟨v, hv, hv0, rfl⟩ := denote_ln.1 (ih (WF.exp_iff.1 he) (everywhere_exp.1 hs).2 env u hu)
    rw [Real.exp_log hv0]; exact hv
  | exp h1 _ _ _ ih =>
    intro env r hr
    obtain ⟨u, hu, rfl⟩ := denote_exp.1 hr
    exact denote_exp.2 ⟨u, ih (WF.exp_iff.1 he) (everywhere_exp.1 hs).2 env u hu, rfl⟩
  | ln_e h1 h0 ih =>
    intro env r hr
    obtain ⟨u, hu, hu0, rfl⟩ := denote_ln.1 hr
    have hw := WF.ln_iff.1 he
    have hx := ih hw (everywhere_ln.1 hs).2 env u hu
    rw [denote_ofNum, (WF.num_iff.1 (h1.wf NC hw)).value_e h0] at hx
    cases hx; rw [Real.log_exp]; exact denote_one env
  | ln_one h1 h0 ih =>
    intro env r hr
    obtain ⟨u, hu, hu0, rfl⟩ := denote_ln.1 hr
    have hw := WF.ln_iff.1 he
    have hx := ih hw (everywhere_ln.1 hs).2 env u hu
    rw [denote_ofNum, (WF.num_iff.1 (h1.wf NC hw)).value_one h0] at hx
    cases hx; rw [Real.log_one]; exact denote_zero env
  | ln_exp h1 ih =>
    intro env r hr
    obtain ⟨u, hu, hu0, rfl⟩ := denote_ln.1 hr
    obtain ⟨v, hv, rfl⟩ := denote_exp.1 (ih (WF.ln_iff.1 he) (everywhere_ln.1 hs).2 env u hu)
    rw [Real.log_exp]; exact hv
  | ln h1 _ _ _ ih =>
    intro env r hr
    obtain ⟨u, hu, hu0, rfl⟩ := denote_ln.1 hr
    exact denote_ln.2 ⟨u, ih (WF.ln_iff.1 he) (everywhere_ln.1 hs).2 env u hu, hu0, rfl⟩
  | pow_zero h1 h2 h0 i j =>
    have hp := (everywhere_pow.1 hs).1.pow _ _ _ rfl (numAggregate_of_agg (WF.pow_iff.1 he).1.tree h1)
    rw [isZero_ofNum, h0] at hp; cases hp.1
  | pow_one h1 h2 h0 i j =>
    have hp := (everywhere_pow.1 hs).1.pow _ _ _ rfl (numAggregate_of_agg (WF.pow_iff.1 he).1.tree h1)
    rw [isOne_ofNum, h0] at hp; cases hp.2.1
  | pow_ln h1 h2 i j =>
    have hp := (everywhere_pow.1 hs).1.pow _ _ _ rfl (numAggregate_of_agg (WF.pow_iff.1 he).1.tree h1)
    exact absurd rfl (hp.2.2 _)
  | pow h1 h2 _ _ _ i j =>
    intro env r hr
    obtain ⟨u, v, hu, hv, hp⟩ := denote_pow.1 hr
    have hw := WF.pow_iff.1 he
    have hs' := (everywhere_pow.1 hs).2
    exact denote_pow.2 ⟨u, v, i hw.1 hs'.1 env u hu, j hw.2 hs'.2 env v hv, hp⟩

end SymRust
