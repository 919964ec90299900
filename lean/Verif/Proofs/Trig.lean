import Verif.Proofs.TaylorSem
/-! # Restrictions on the arguments of sin and cos survive aggregation and differentiation -/

namespace SymRust
open Expr Filter Topology
variable {F : Type}

/-- A restriction on the arguments of `sin` and `cos`. -/
def TrigAll (Q : Expr F → Prop) (e : Expr F) : Prop :=
  Everywhere (fun s => ∀ a : Expr F, s = a.sin ∨ s = a.cos → Q a) e

section
variable {Q : Expr F → Prop} {a b : Expr F}
local macro "pw" : tactic => `(tactic| (intro x h; rcases h with h | h <;> expr_inj at h))
theorem trigAll_ofNum (n : SmartNum F) : TrigAll Q (ofNum n) := everywhere_ofNum.2 (by pw)
theorem trigAll_ofVar (v : Variable) : TrigAll Q (ofVar v : Expr F) := everywhere_ofVar.2 (by pw)
theorem trigAll_neg : TrigAll Q a.neg ↔ TrigAll Q a := everywhere_neg.trans ⟨fun h => h.2, fun h => ⟨by pw, h⟩⟩
theorem trigAll_exp : TrigAll Q a.exp ↔ TrigAll Q a := everywhere_exp.trans ⟨fun h => h.2, fun h => ⟨by pw, h⟩⟩
theorem trigAll_ln : TrigAll Q a.ln ↔ TrigAll Q a := everywhere_ln.trans ⟨fun h => h.2, fun h => ⟨by pw, h⟩⟩
theorem trigAll_sin : TrigAll Q a.sin ↔ Q a ∧ TrigAll Q a :=
  everywhere_sin.trans ⟨fun h => ⟨h.1 _ (.inl rfl), h.2⟩, fun h =>
    ⟨by intro c hc; rcases hc with hc | hc <;> expr_inj at hc; subst hc; exact h.1, h.2⟩⟩
theorem trigAll_cos : TrigAll Q a.cos ↔ Q a ∧ TrigAll Q a :=
  everywhere_cos.trans ⟨fun h => ⟨h.1 _ (.inr rfl), h.2⟩, fun h =>
    ⟨by intro c hc; rcases hc with hc | hc <;> expr_inj at hc; subst hc; exact h.1, h.2⟩⟩
theorem trigAll_add : TrigAll Q (a.add b) ↔ TrigAll Q a ∧ TrigAll Q b :=
  everywhere_add.trans ⟨fun h => h.2, fun h => ⟨by pw, h⟩⟩
theorem trigAll_sub : TrigAll Q (a.sub b) ↔ TrigAll Q a ∧ TrigAll Q b :=
  everywhere_sub.trans ⟨fun h => h.2, fun h => ⟨by pw, h⟩⟩
theorem trigAll_mul : TrigAll Q (a.mul b) ↔ TrigAll Q a ∧ TrigAll Q b :=
  everywhere_mul.trans ⟨fun h => h.2, fun h => ⟨by pw, h⟩⟩
theorem trigAll_div : TrigAll Q (a.div b) ↔ TrigAll Q a ∧ TrigAll Q b :=
  everywhere_div.trans ⟨fun h => h.2, fun h => ⟨by pw, h⟩⟩
theorem trigAll_pow : TrigAll Q (a.pow b) ↔ TrigAll Q a ∧ TrigAll Q b :=
  everywhere_pow.trans ⟨fun h => h.2, fun h => ⟨by pw, h⟩⟩
end

/-- Restrictions that survive passing to expressions with at least the same values. -/
def TrigInv [ExactFloat F] (Q : Expr F → Prop) : Prop := ∀ a a' : Expr F, Sound a a' → Q a → Q a'

section
variable [ExactFloat F] {Q : Expr F → Prop} {E : Set Env} {x : Variable} {e e' : Expr F}

theorem Agg.trigAll (hQ : TrigInv Q) (h : Agg .strict e e') (he : WF SmartNum.Valid e)
    (hE : Safe SmartNum.value? E e) (hs : TrigAll Q e) : TrigAll Q e' := by
  induction h with
  | sin h1 _ _ i =>
    obtain ⟨k1, k2⟩ := trigAll_sin.1 hs
    have ha := WF.sin_iff.1 he
    have hE := safe_sin.1 hE
    exact trigAll_sin.2 ⟨hQ _ _ (agg_sound' h1 ha hE) k1, i ha hE k2⟩
  | cos h1 _ _ i =>
    obtain ⟨k1, k2⟩ := trigAll_cos.1 hs
    have ha := WF.cos_iff.1 he
    have hE := (safe_cos.1 hE).2
    exact trigAll_cos.2 ⟨hQ _ _ (agg_sound' h1 ha hE) k1, i ha hE k2⟩
  | _ =>
    simp_all [WF.neg_iff, WF.add_iff, WF.sub_iff, WF.mul_iff, WF.div_iff, WF.sin_iff, WF.cos_iff, WF.exp_iff,
      WF.ln_iff, WF.pow_iff, trigAll_ofNum, trigAll_ofVar, trigAll_neg, trigAll_add, trigAll_sub, trigAll_mul,
      trigAll_div, trigAll_sin, trigAll_exp, trigAll_ln, trigAll_pow, trigAll_cos, ofI64, Expr.e, safe_neg, safe_add,
      safe_sub, safe_mul, safe_div, safe_sin, safe_exp, safe_ln, safe_pow, safe_cos]

theorem Der.trigAll (hQ : TrigInv Q) (h : Der .strict x e e') (he : WF SmartNum.Valid e)
    (hE : SafeD SmartNum.value? E e) (hs : TrigAll Q e) : TrigAll Q e' := by
  have NC := numClosed_valid (F := F) .strict
  induction h with
  | num n => exact trigAll_ofNum _
  | var => exact trigAll_ofNum _
  | var_ne y h => exact trigAll_ofNum _
  | neg h1 hg i =>
    have ha := WF.neg_iff.1 he
    have hE := safeD_neg.1 hE
    exact hg.trigAll hQ (.neg _ (h1.wf NC ha)) (safe_neg.2 (h1.safeD ha hE).1) (trigAll_neg.2 (i ha hE (trigAll_neg.1 hs)))
  | add h1 h2 hg i j =>
    have ha := WF.add_iff.1 he
    have hE := safeD_add.1 hE
    have hs := trigAll_add.1 hs
    exact hg.trigAll hQ (.add _ _ (h1.wf NC ha.1) (h2.wf NC ha.2))
      (safe_add.2 ⟨(h1.safeD ha.1 hE.1).1, (h2.safeD ha.2 hE.2).1⟩)
      (trigAll_add.2 ⟨i ha.1 hE.1 hs.1, j ha.2 hE.2 hs.2⟩)
  | sub h1 h2 hg i j =>
    have ha := WF.sub_iff.1 he
    have hE := safeD_sub.1 hE
    have hs := trigAll_sub.1 hs
    exact hg.trigAll hQ (.sub _ _ (h1.wf NC ha.1) (h2.wf NC ha.2))
      (safe_sub.2 ⟨(h1.safeD ha.1 hE.1).1, (h2.safeD ha.2 hE.2).1⟩)
      (trigAll_sub.2 ⟨i ha.1 hE.1 hs.1, j ha.2 hE.2 hs.2⟩)
  | mul h1 h2 hg i j =>
    have ha := WF.mul_iff.1 he
    have hE := safeD_mul.1 hE
    have hs := trigAll_mul.1 hs
    exact hg.trigAll hQ (.add _ _ (.mul _ _ (h1.wf NC ha.1) ha.2) (.mul _ _ ha.1 (h2.wf NC ha.2)))
      (safe_add.2 ⟨safe_mul.2 ⟨(h1.safeD ha.1 hE.1).1, hE.2.1⟩, safe_mul.2 ⟨hE.1.1, (h2.safeD ha.2 hE.2).1⟩⟩)
      (trigAll_add.2 ⟨trigAll_mul.2 ⟨i ha.1 hE.1 hs.1, hs.2⟩, trigAll_mul.2 ⟨hs.1, j ha.2 hE.2 hs.2⟩⟩)
  | div h1 h2 hg i j =>
    have ha := WF.div_iff.1 he
    have hE := safeD_div.1 hE
    have hs := trigAll_div.1 hs
    exact hg.trigAll hQ (.div _ _ (.sub _ _ (.mul _ _ (h1.wf NC ha.1) ha.2) (.mul _ _ ha.1 (h2.wf NC ha.2)))
      (.mul _ _ ha.2 ha.2))
      (safe_div.2 ⟨safe_sub.2 ⟨safe_mul.2 ⟨(h1.safeD ha.1 hE.1).1, hE.2.1⟩,
        safe_mul.2 ⟨hE.1.1, (h2.safeD ha.2 hE.2).1⟩⟩, safe_mul.2 ⟨hE.2.1, hE.2.1⟩⟩)
      (trigAll_div.2 ⟨trigAll_sub.2 ⟨trigAll_mul.2 ⟨i ha.1 hE.1 hs.1, hs.2⟩, trigAll_mul.2 ⟨hs.1, j ha.2 hE.2 hs.2⟩⟩,
        trigAll_mul.2 ⟨hs.2, hs.2⟩⟩)
  | sin h1 hg i =>
    have ha := WF.sin_iff.1 he
    have hE := safeD_sin.1 hE
    have hs := trigAll_sin.1 hs
    exact hg.trigAll hQ (.mul _ _ (.cos _ ha) (h1.wf NC ha))
      (safe_mul.2 ⟨safe_cos.2 ⟨hE.1, hE.2.1⟩, (h1.safeD ha hE.2).1⟩)
      (trigAll_mul.2 ⟨trigAll_cos.2 hs, i ha hE.2 hs.2⟩)
  | cos h1 hg i =>
    have ha := WF.cos_iff.1 he
    have hE := safeD_cos.1 hE
    have hs := trigAll_cos.1 hs
    exact hg.trigAll hQ (.mul _ _ (.neg _ (.sin _ ha)) (h1.wf NC ha))
      (safe_mul.2 ⟨safe_neg.2 (safe_sin.2 hE.2.1), (h1.safeD ha hE.2).1⟩)
      (trigAll_mul.2 ⟨trigAll_neg.2 (trigAll_sin.2 hs), i ha hE.2 hs.2⟩)
  | exp h1 hg i =>
    have ha := WF.exp_iff.1 he
    have hE' := safeD_exp.1 hE
    exact hg.trigAll hQ (.mul _ _ (h1.wf NC ha) he) (safe_mul.2 ⟨(h1.safeD ha hE').1, hE.1⟩)
      (trigAll_mul.2 ⟨i ha hE' (trigAll_exp.1 hs), hs⟩)
  | ln h1 hg i =>
    have ha := WF.ln_iff.1 he
    have hE := safeD_ln.1 hE
    have hs := trigAll_ln.1 hs
    exact hg.trigAll hQ (.div _ _ (h1.wf NC ha) ha) (safe_div.2 ⟨(h1.safeD ha hE).1, hE.1⟩)
      (trigAll_div.2 ⟨i ha hE hs, hs⟩)
  | pow h1 h2 hg i j =>
    have ha := WF.pow_iff.1 he
    have hE' := safeD_pow.1 hE
    have hs' := trigAll_pow.1 hs
    exact hg.trigAll hQ (.mul _ _ he (.add _ _ (.mul _ _ (h2.wf NC ha.2) (.ln _ ha.1))
      (.div _ _ (.mul _ _ ha.2 (h1.wf NC ha.1)) ha.1)))
      (safe_mul.2 ⟨hE.1, safe_add.2 ⟨safe_mul.2 ⟨(h2.safeD ha.2 hE'.2.2).1, safe_ln.2 hE'.2.1.1⟩,
        safe_div.2 ⟨safe_mul.2 ⟨hE'.2.2.1, (h1.safeD ha.1 hE'.2.1).1⟩, hE'.2.1.1⟩⟩⟩)
      (trigAll_mul.2 ⟨hs, trigAll_add.2 ⟨trigAll_mul.2 ⟨j ha.2 hE'.2.2 hs'.2, trigAll_ln.2 hs'.1⟩,
        trigAll_div.2 ⟨trigAll_mul.2 ⟨hs'.2, i ha.1 hE'.2.1 hs'.1⟩, hs'.1⟩⟩⟩)


theorem nthDerivative_trig (hQ : TrigInv Q) {d : Expr F} (he : WF SmartNum.Valid e)
    (hE : SafeD SmartNum.value? E e) (hs : TrigAll Q e) (k : Nat) (h : nthDerivative .strict e x k = .ok d) :
    TrigAll Q d := by
  induction k generalizing d with
  | zero => cases h; exact hs
  | succ k ih =>
    obtain ⟨d', h1, h2⟩ := nthDerivative_succ h
    obtain ⟨i1, i2, -⟩ := nthDerivative_inv he hE k h1
    exact (der_of_derivative i1.tree h2).trigAll hQ i1 i2 (ih h1)
end

end SymRust
