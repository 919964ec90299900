import Verif.Proofs.Safe
import Verif.Proofs.Deriv
import Verif.Spec.Calculus
/-! Closure of the restrictions under `num_aggregate`, `derivative` and substitution. -/

namespace SymRust
variable {F : Type}
open Expr

section conv
variable [FloatOps F]

theorem derivative_of_der {m : Mode} {x : Variable} {e e' : Expr F} (he : Tree e) (h : Der m x e e') :
    e.derivative m x = .ok e' := by
  have wf : ∀ {a a' : Expr F}, Tree a → Der m x a a' → Tree a' := fun ha h => h.wf (numClosed_true m) ha
  induction h with
  | num n => exact derivative_ofNum m x n
  | var => rw [derivative_ofVar, if_pos rfl]
  | var_ne y h => rw [derivative_ofVar, if_neg h]
  | neg h1 hg i =>
    have ha := WF.neg_iff.1 he
    rw [derivative_neg, i ha]
    exact congrArg Res.lift (numAggregate_of_agg (.neg _ (wf ha h1)) hg)
  | add h1 h2 hg i j =>
    have ha := WF.add_iff.1 he
    rw [derivative_add, i ha.1, j ha.2]
    exact congrArg Res.lift (numAggregate_of_agg (.add _ _ (wf ha.1 h1) (wf ha.2 h2)) hg)
  | sub h1 h2 hg i j =>
    have ha := WF.sub_iff.1 he
    rw [derivative_sub, i ha.1, j ha.2]
    exact congrArg Res.lift (numAggregate_of_agg (.sub _ _ (wf ha.1 h1) (wf ha.2 h2)) hg)
  | mul h1 h2 hg i j =>
    have ha := WF.mul_iff.1 he
    rw [derivative_mul, i ha.1, j ha.2]
    exact congrArg Res.lift (numAggregate_of_agg
      (.add _ _ (.mul _ _ (wf ha.1 h1) ha.2) (.mul _ _ ha.1 (wf ha.2 h2))) hg)
  | div h1 h2 hg i j =>
    have ha := WF.div_iff.1 he
    rw [derivative_div, i ha.1, j ha.2]
    exact congrArg Res.lift (numAggregate_of_agg
      (.div _ _ (.sub _ _ (.mul _ _ (wf ha.1 h1) ha.2) (.mul _ _ ha.1 (wf ha.2 h2))) (.mul _ _ ha.2 ha.2)) hg)
  | sin h1 hg i =>
    have ha := WF.sin_iff.1 he
    rw [derivative_sin, i ha]
    exact congrArg Res.lift (numAggregate_of_agg (.mul _ _ (.cos _ ha) (wf ha h1)) hg)
  | cos h1 hg i =>
    have ha := WF.cos_iff.1 he
    rw [derivative_cos, i ha]
    exact congrArg Res.lift (numAggregate_of_agg (.mul _ _ (.neg _ (.sin _ ha)) (wf ha h1)) hg)
  | exp h1 hg i =>
    have ha := WF.exp_iff.1 he
    rw [derivative_exp, i ha]
    exact congrArg Res.lift (numAggregate_of_agg (.mul _ _ (wf ha h1) he) hg)
  | ln h1 hg i =>
    have ha := WF.ln_iff.1 he
    rw [derivative_ln, i ha]
    exact congrArg Res.lift (numAggregate_of_agg (.div _ _ (wf ha h1) ha) hg)
  | pow h1 h2 hg i j =>
    have ha := WF.pow_iff.1 he
    rw [derivative_pow, i ha.1, j ha.2]
    exact congrArg Res.lift (numAggregate_of_agg (.mul _ _ he (.add _ _ (.mul _ _ (wf ha.2 h2) (.ln _ ha.1))
      (.div _ _ (.mul _ _ ha.2 (wf ha.1 h1)) ha.1))) hg)

theorem Der.absent {m : Mode} {x : Variable} {e e' : Expr F} (he : Tree e) (h : Der m x e e')
    (hx : ¬ Occurs x e) : e' = ofI64 0 :=
  derivative_absent he hx (derivative_of_der he h)

end conv

/-! ### `SafeD` -/

section
variable {ν : SmartNum F → Option ℝ} {E : Set Env} {a b : Expr F}
local macro "sinsafe" : tactic =>
  `(tactic| (intro x h; expr_inj at h))

theorem safeD_ofNum (n : SmartNum F) : SafeD ν E (ofNum n) :=
  ⟨safe_ofNum n, everywhere_ofNum.2 (by sinsafe)⟩
theorem safeD_ofVar (v : Variable) : SafeD ν E (ofVar v) :=
  ⟨safe_ofVar v, everywhere_ofVar.2 (by sinsafe)⟩
theorem safeD_neg : SafeD ν E a.neg ↔ SafeD ν E a := by
  simp only [SafeD, safe_neg, everywhere_neg]
  exact ⟨fun h => ⟨h.1, h.2.2⟩, fun h => ⟨h.1, by sinsafe, h.2⟩⟩
theorem safeD_exp : SafeD ν E a.exp ↔ SafeD ν E a := by
  simp only [SafeD, safe_exp, everywhere_exp]
  exact ⟨fun h => ⟨h.1, h.2.2⟩, fun h => ⟨h.1, by sinsafe, h.2⟩⟩
theorem safeD_ln : SafeD ν E a.ln ↔ SafeD ν E a := by
  simp only [SafeD, safe_ln, everywhere_ln]
  exact ⟨fun h => ⟨h.1, h.2.2⟩, fun h => ⟨h.1, by sinsafe, h.2⟩⟩
theorem safeD_cos : SafeD ν E a.cos ↔ Avoids ν E a Real.pi ∧ SafeD ν E a := by
  simp only [SafeD, safe_cos, everywhere_cos]
  exact ⟨fun h => ⟨h.1.1, h.1.2, h.2.2⟩, fun h => ⟨⟨h.1, h.2.1⟩, by sinsafe, h.2.2⟩⟩
theorem safeD_sin : SafeD ν E a.sin ↔ Avoids ν E a Real.pi ∧ SafeD ν E a := by
  simp only [SafeD, safe_sin, everywhere_sin]
  refine ⟨fun h => ⟨h.2.1 _ rfl, h.1, h.2.2⟩, fun h => ⟨h.2.1, ?_, h.2.2⟩⟩
  intro c hc; expr_inj at hc; subst hc; exact h.1
theorem safeD_add : SafeD ν E (a.add b) ↔ SafeD ν E a ∧ SafeD ν E b := by
  simp only [SafeD, safe_add, everywhere_add]
  exact ⟨fun h => ⟨⟨h.1.1, h.2.2.1⟩, h.1.2, h.2.2.2⟩, fun h => ⟨⟨h.1.1, h.2.1⟩, by sinsafe, h.1.2, h.2.2⟩⟩
theorem safeD_sub : SafeD ν E (a.sub b) ↔ SafeD ν E a ∧ SafeD ν E b := by
  simp only [SafeD, safe_sub, everywhere_sub]
  exact ⟨fun h => ⟨⟨h.1.1, h.2.2.1⟩, h.1.2, h.2.2.2⟩, fun h => ⟨⟨h.1.1, h.2.1⟩, by sinsafe, h.1.2, h.2.2⟩⟩
theorem safeD_mul : SafeD ν E (a.mul b) ↔ SafeD ν E a ∧ SafeD ν E b := by
  simp only [SafeD, safe_mul, everywhere_mul]
  exact ⟨fun h => ⟨⟨h.1.1, h.2.2.1⟩, h.1.2, h.2.2.2⟩, fun h => ⟨⟨h.1.1, h.2.1⟩, by sinsafe, h.1.2, h.2.2⟩⟩
theorem safeD_div : SafeD ν E (a.div b) ↔ SafeD ν E a ∧ SafeD ν E b := by
  simp only [SafeD, safe_div, everywhere_div]
  exact ⟨fun h => ⟨⟨h.1.1, h.2.2.1⟩, h.1.2, h.2.2.2⟩, fun h => ⟨⟨h.1.1, h.2.1⟩, by sinsafe, h.1.2, h.2.2⟩⟩
theorem safeD_pow : SafeD ν E (a.pow b) ↔ (Avoids ν E a 0 ∧ Avoids ν E a 1 ∧ Everywhere NotLn a) ∧
    SafeD ν E a ∧ SafeD ν E b := by
  simp only [SafeD, safe_pow, everywhere_pow]
  exact ⟨fun h => ⟨h.1.1, ⟨h.1.2.1, h.2.2.1⟩, h.1.2.2, h.2.2.2⟩,
    fun h => ⟨⟨h.1, h.2.1.1, h.2.2.1⟩, by sinsafe, h.2.1.2, h.2.2.2⟩⟩

theorem SafeD.mono {E' : Set Env} (h : E ⊆ E') {e : Expr F} (he : SafeD ν E e) : SafeD ν E' e :=
  ⟨he.1.mono h, Everywhere.mono (fun _ hs a ha => (hs a ha).mono h) he.2⟩
end

section
variable [ExactFloat F]

theorem Agg.safeD {E : Set Env} {e e' : Expr F} (h : Agg .strict e e') (he : WF SmartNum.Valid e)
    (hs : SafeD SmartNum.value? E e) : SafeD SmartNum.value? E e' := by
  induction h with
  | cos h1 _ _ ih =>
    have hw := WF.cos_iff.1 he
    obtain ⟨h2, h3⟩ := safeD_cos.1 hs
    exact safeD_cos.2 ⟨h2.sound (agg_sound' h1 hw h3.1), ih hw h3⟩
  | sin h1 _ _ ih =>
    have hw := WF.sin_iff.1 he
    obtain ⟨h2, h3⟩ := safeD_sin.1 hs
    exact safeD_sin.2 ⟨h2.sound (agg_sound' h1 hw h3.1), ih hw h3⟩
  | pow h1 h2 _ _ _ i j =>
    have hw := WF.pow_iff.1 he
    obtain ⟨⟨k0, k1, k2⟩, k3, k4⟩ := safeD_pow.1 hs
    have hsd := agg_sound' h1 hw.1 k3.1
    exact safeD_pow.2 ⟨⟨k0.sound hsd, k1.sound hsd, h1.noLn k2⟩, i hw.1 k3, j hw.2 k4⟩
  | _ =>
    simp_all [WF.neg_iff, WF.add_iff, WF.sub_iff, WF.mul_iff, WF.div_iff, WF.sin_iff, WF.cos_iff, WF.exp_iff,
      WF.ln_iff, WF.pow_iff, safeD_ofNum, safeD_ofVar, safeD_neg, safeD_add, safeD_sub, safeD_mul, safeD_div,
      safeD_sin, safeD_exp, safeD_ln, safeD_pow, safeD_cos, ofI64, Expr.e]

theorem Der.safeD {x : Variable} {E : Set Env} {e e' : Expr F} (h : Der .strict x e e') (he : WF SmartNum.Valid e)
    (hs : SafeD SmartNum.value? E e) : SafeD SmartNum.value? E e' := by
  have NC := numClosed_valid (F := F) .strict
  induction h with
  | num n => exact safeD_ofNum _
  | var => exact safeD_ofNum _
  | var_ne y h => exact safeD_ofNum _
  | neg h1 hg i =>
    have ha := WF.neg_iff.1 he
    exact hg.safeD (.neg _ (h1.wf NC ha)) (safeD_neg.2 (i ha (safeD_neg.1 hs)))
  | add h1 h2 hg i j =>
    have ha := WF.add_iff.1 he
    have hs := safeD_add.1 hs
    exact hg.safeD (.add _ _ (h1.wf NC ha.1) (h2.wf NC ha.2)) (safeD_add.2 ⟨i ha.1 hs.1, j ha.2 hs.2⟩)
  | sub h1 h2 hg i j =>
    have ha := WF.sub_iff.1 he
    have hs := safeD_sub.1 hs
    exact hg.safeD (.sub _ _ (h1.wf NC ha.1) (h2.wf NC ha.2)) (safeD_sub.2 ⟨i ha.1 hs.1, j ha.2 hs.2⟩)
  | mul h1 h2 hg i j =>
    have ha := WF.mul_iff.1 he
    have hs := safeD_mul.1 hs
    exact hg.safeD (.add _ _ (.mul _ _ (h1.wf NC ha.1) ha.2) (.mul _ _ ha.1 (h2.wf NC ha.2)))
      (safeD_add.2 ⟨safeD_mul.2 ⟨i ha.1 hs.1, hs.2⟩, safeD_mul.2 ⟨hs.1, j ha.2 hs.2⟩⟩)
  | div h1 h2 hg i j =>
    have ha := WF.div_iff.1 he
    have hs := safeD_div.1 hs
    exact hg.safeD (.div _ _ (.sub _ _ (.mul _ _ (h1.wf NC ha.1) ha.2) (.mul _ _ ha.1 (h2.wf NC ha.2)))
      (.mul _ _ ha.2 ha.2))
      (safeD_div.2 ⟨safeD_sub.2 ⟨safeD_mul.2 ⟨i ha.1 hs.1, hs.2⟩, safeD_mul.2 ⟨hs.1, j ha.2 hs.2⟩⟩,
        safeD_mul.2 ⟨hs.2, hs.2⟩⟩)
  | sin h1 hg i =>
    have ha := WF.sin_iff.1 he
    have hs := safeD_sin.1 hs
    exact hg.safeD (.mul _ _ (.cos _ ha) (h1.wf NC ha)) (safeD_mul.2 ⟨safeD_cos.2 hs, i ha hs.2⟩)
  | cos h1 hg i =>
    have ha := WF.cos_iff.1 he
    have hs := safeD_cos.1 hs
    exact hg.safeD (.mul _ _ (.neg _ (.sin _ ha)) (h1.wf NC ha))
      (safeD_mul.2 ⟨safeD_neg.2 (safeD_sin.2 hs), i ha hs.2⟩)
  | exp h1 hg i =>
    have ha := WF.exp_iff.1 he
    exact hg.safeD (.mul _ _ (h1.wf NC ha) he) (safeD_mul.2 ⟨i ha (safeD_exp.1 hs), hs⟩)
  | ln h1 hg i =>
    have ha := WF.ln_iff.1 he
    have hs := safeD_ln.1 hs
    exact hg.safeD (.div _ _ (h1.wf NC ha) ha) (safeD_div.2 ⟨i ha hs, hs⟩)
  | pow h1 h2 hg i j =>
    have ha := WF.pow_iff.1 he
    have hs' := safeD_pow.1 hs
    exact hg.safeD (.mul _ _ he (.add _ _ (.mul _ _ (h2.wf NC ha.2) (.ln _ ha.1))
      (.div _ _ (.mul _ _ ha.2 (h1.wf NC ha.1)) ha.1)))
      (safeD_mul.2 ⟨hs, safeD_add.2 ⟨safeD_mul.2 ⟨j ha.2 hs'.2.2, safeD_ln.2 hs'.2.1⟩,
        safeD_div.2 ⟨safeD_mul.2 ⟨hs'.2.2, i ha.1 hs'.2.1⟩, hs'.2.1⟩⟩⟩)

end

/-! ### a generic closure argument for restrictions on powers -/

/-- A restriction on powers only. -/
def PowAll (Q : Expr F → Expr F → Prop) (e : Expr F) : Prop :=
  Everywhere (fun s => ∀ a b : Expr F, s = a.pow b → Q a b) e

section
variable {Q : Expr F → Expr F → Prop} {a b : Expr F}
local macro "pw" : tactic => `(tactic| (intro x y h; expr_inj at h))
theorem powAll_ofNum (n : SmartNum F) : PowAll Q (ofNum n) := everywhere_ofNum.2 (by pw)
theorem powAll_ofVar (v : Variable) : PowAll Q (ofVar v : Expr F) := everywhere_ofVar.2 (by pw)
theorem powAll_neg : PowAll Q a.neg ↔ PowAll Q a := everywhere_neg.trans ⟨fun h => h.2, fun h => ⟨by pw, h⟩⟩
theorem powAll_sin : PowAll Q a.sin ↔ PowAll Q a := everywhere_sin.trans ⟨fun h => h.2, fun h => ⟨by pw, h⟩⟩
theorem powAll_cos : PowAll Q a.cos ↔ PowAll Q a := everywhere_cos.trans ⟨fun h => h.2, fun h => ⟨by pw, h⟩⟩
theorem powAll_exp : PowAll Q a.exp ↔ PowAll Q a := everywhere_exp.trans ⟨fun h => h.2, fun h => ⟨by pw, h⟩⟩
theorem powAll_ln : PowAll Q a.ln ↔ PowAll Q a := everywhere_ln.trans ⟨fun h => h.2, fun h => ⟨by pw, h⟩⟩
theorem powAll_add : PowAll Q (a.add b) ↔ PowAll Q a ∧ PowAll Q b :=
  everywhere_add.trans ⟨fun h => h.2, fun h => ⟨by pw, h⟩⟩
theorem powAll_sub : PowAll Q (a.sub b) ↔ PowAll Q a ∧ PowAll Q b :=
  everywhere_sub.trans ⟨fun h => h.2, fun h => ⟨by pw, h⟩⟩
theorem powAll_mul : PowAll Q (a.mul b) ↔ PowAll Q a ∧ PowAll Q b :=
  everywhere_mul.trans ⟨fun h => h.2, fun h => ⟨by pw, h⟩⟩
theorem powAll_div : PowAll Q (a.div b) ↔ PowAll Q a ∧ PowAll Q b :=
  everywhere_div.trans ⟨fun h => h.2, fun h => ⟨by pw, h⟩⟩
theorem powAll_pow : PowAll Q (a.pow b) ↔ Q a b ∧ PowAll Q a ∧ PowAll Q b :=
  everywhere_pow.trans ⟨fun h => ⟨h.1 _ _ rfl, h.2⟩, fun h =>
    ⟨by intro c d hc; expr_inj at hc; obtain ⟨rfl, rfl⟩ := hc; exact h.1, h.2⟩⟩
end

/-- Restrictions that survive passing to expressions with at least the same values and at most the same
variables. -/
def PowInv [ExactFloat F] (Q : Expr F → Expr F → Prop) : Prop :=
  ∀ a b a' b' : Expr F, Sound a a' → (∀ x, Occurs x a' → Occurs x a) → (∀ x, Occurs x b' → Occurs x b) →
    Q a b → Q a' b'

section
variable [ExactFloat F] {Q : Expr F → Expr F → Prop} {E : Set Env} {x : Variable} {e e' : Expr F}

theorem Agg.powAll (hQ : PowInv Q) (h : Agg .strict e e') (he : WF SmartNum.Valid e)
    (hE : Safe SmartNum.value? E e) (hs : PowAll Q e) : PowAll Q e' := by
  induction h with
  | pow h1 h2 _ _ _ i j =>
    obtain ⟨k1, k2, k3⟩ := powAll_pow.1 hs
    have ha := WF.pow_iff.1 he
    have hE := (safe_pow.1 hE).2
    exact powAll_pow.2 ⟨hQ _ _ _ _ (agg_sound' h1 ha.1 hE.1) (fun _ => h1.occurs) (fun _ => h2.occurs) k1,
      i ha.1 hE.1 k2, j ha.2 hE.2 k3⟩
  | _ =>
    simp_all [WF.neg_iff, WF.add_iff, WF.sub_iff, WF.mul_iff, WF.div_iff, WF.sin_iff, WF.cos_iff, WF.exp_iff,
      WF.ln_iff, WF.pow_iff, powAll_ofNum, powAll_ofVar, powAll_neg, powAll_add, powAll_sub, powAll_mul, powAll_div,
      powAll_sin, powAll_exp, powAll_ln, powAll_pow, powAll_cos, ofI64, Expr.e, safe_neg, safe_add, safe_sub,
      safe_mul, safe_div, safe_sin, safe_exp, safe_ln, safe_pow, safe_cos]

theorem Der.powAll (hQ : PowInv Q) (h : Der .strict x e e') (he : WF SmartNum.Valid e)
    (hE : SafeD SmartNum.value? E e) (hs : PowAll Q e) : PowAll Q e' := by
  have NC := numClosed_valid (F := F) .strict
  induction h with
  | num n => exact powAll_ofNum _
  | var => exact powAll_ofNum _
  | var_ne y h => exact powAll_ofNum _
  | neg h1 hg i =>
    have ha := WF.neg_iff.1 he
    have hE := safeD_neg.1 hE
    exact hg.powAll hQ (.neg _ (h1.wf NC ha)) (safe_neg.2 (h1.safeD ha hE).1) (powAll_neg.2 (i ha hE (powAll_neg.1 hs)))
  | add h1 h2 hg i j =>
    have ha := WF.add_iff.1 he
    have hE := safeD_add.1 hE
    have hs := powAll_add.1 hs
    exact hg.powAll hQ (.add _ _ (h1.wf NC ha.1) (h2.wf NC ha.2))
      (safe_add.2 ⟨(h1.safeD ha.1 hE.1).1, (h2.safeD ha.2 hE.2).1⟩)
      (powAll_add.2 ⟨i ha.1 hE.1 hs.1, j ha.2 hE.2 hs.2⟩)
  | sub h1 h2 hg i j =>
    have ha := WF.sub_iff.1 he
    have hE := safeD_sub.1 hE
    have hs := powAll_sub.1 hs
    exact hg.powAll hQ (.sub _ _ (h1.wf NC ha.1) (h2.wf NC ha.2))
      (safe_sub.2 ⟨(h1.safeD ha.1 hE.1).1, (h2.safeD ha.2 hE.2).1⟩)
      (powAll_sub.2 ⟨i ha.1 hE.1 hs.1, j ha.2 hE.2 hs.2⟩)
  | mul h1 h2 hg i j =>
    have ha := WF.mul_iff.1 he
    have hE := safeD_mul.1 hE
    have hs := powAll_mul.1 hs
    exact hg.powAll hQ (.add _ _ (.mul _ _ (h1.wf NC ha.1) ha.2) (.mul _ _ ha.1 (h2.wf NC ha.2)))
      (safe_add.2 ⟨safe_mul.2 ⟨(h1.safeD ha.1 hE.1).1, hE.2.1⟩, safe_mul.2 ⟨hE.1.1, (h2.safeD ha.2 hE.2).1⟩⟩)
      (powAll_add.2 ⟨powAll_mul.2 ⟨i ha.1 hE.1 hs.1, hs.2⟩, powAll_mul.2 ⟨hs.1, j ha.2 hE.2 hs.2⟩⟩)
  | div h1 h2 hg i j =>
    have ha := WF.div_iff.1 he
    have hE := safeD_div.1 hE
    have hs := powAll_div.1 hs
    exact hg.powAll hQ (.div _ _ (.sub _ _ (.mul _ _ (h1.wf NC ha.1) ha.2) (.mul _ _ ha.1 (h2.wf NC ha.2)))
      (.mul _ _ ha.2 ha.2))
      (safe_div.2 ⟨safe_sub.2 ⟨safe_mul.2 ⟨(h1.safeD ha.1 hE.1).1, hE.2.1⟩,
        safe_mul.2 ⟨hE.1.1, (h2.safeD ha.2 hE.2).1⟩⟩, safe_mul.2 ⟨hE.2.1, hE.2.1⟩⟩)
      (powAll_div.2 ⟨powAll_sub.2 ⟨powAll_mul.2 ⟨i ha.1 hE.1 hs.1, hs.2⟩, powAll_mul.2 ⟨hs.1, j ha.2 hE.2 hs.2⟩⟩,
        powAll_mul.2 ⟨hs.2, hs.2⟩⟩)
  | sin h1 hg i =>
    have ha := WF.sin_iff.1 he
    have hE := safeD_sin.1 hE
    have hs := powAll_sin.1 hs
    exact hg.powAll hQ (.mul _ _ (.cos _ ha) (h1.wf NC ha))
      (safe_mul.2 ⟨safe_cos.2 ⟨hE.1, hE.2.1⟩, (h1.safeD ha hE.2).1⟩)
      (powAll_mul.2 ⟨powAll_cos.2 hs, i ha hE.2 hs⟩)
  | cos h1 hg i =>
    have ha := WF.cos_iff.1 he
    have hE := safeD_cos.1 hE
    have hs := powAll_cos.1 hs
    exact hg.powAll hQ (.mul _ _ (.neg _ (.sin _ ha)) (h1.wf NC ha))
      (safe_mul.2 ⟨safe_neg.2 (safe_sin.2 hE.2.1), (h1.safeD ha hE.2).1⟩)
      (powAll_mul.2 ⟨powAll_neg.2 (powAll_sin.2 hs), i ha hE.2 hs⟩)
  | exp h1 hg i =>
    have ha := WF.exp_iff.1 he
    have hE' := safeD_exp.1 hE
    exact hg.powAll hQ (.mul _ _ (h1.wf NC ha) he) (safe_mul.2 ⟨(h1.safeD ha hE').1, hE.1⟩)
      (powAll_mul.2 ⟨i ha hE' (powAll_exp.1 hs), hs⟩)
  | ln h1 hg i =>
    have ha := WF.ln_iff.1 he
    have hE := safeD_ln.1 hE
    have hs := powAll_ln.1 hs
    exact hg.powAll hQ (.div _ _ (h1.wf NC ha) ha) (safe_div.2 ⟨(h1.safeD ha hE).1, hE.1⟩)
      (powAll_div.2 ⟨i ha hE hs, hs⟩)
  | pow h1 h2 hg i j =>
    have ha := WF.pow_iff.1 he
    have hE' := safeD_pow.1 hE
    have hs' := powAll_pow.1 hs
    exact hg.powAll hQ (.mul _ _ he (.add _ _ (.mul _ _ (h2.wf NC ha.2) (.ln _ ha.1))
      (.div _ _ (.mul _ _ ha.2 (h1.wf NC ha.1)) ha.1)))
      (safe_mul.2 ⟨hE.1, safe_add.2 ⟨safe_mul.2 ⟨(h2.safeD ha.2 hE'.2.2).1, safe_ln.2 hE'.2.1.1⟩,
        safe_div.2 ⟨safe_mul.2 ⟨hE'.2.2.1, (h1.safeD ha.1 hE'.2.1).1⟩, hE'.2.1.1⟩⟩⟩)
      (powAll_mul.2 ⟨hs, powAll_add.2 ⟨powAll_mul.2 ⟨j ha.2 hE'.2.2 hs'.2.2, powAll_ln.2 hs'.2.1⟩,
        powAll_div.2 ⟨powAll_mul.2 ⟨hs'.2.2, i ha.1 hE'.2.1 hs'.2.1⟩, hs'.2.1⟩⟩⟩)

theorem powInv_powOK (env : Env) (x : Variable) : PowInv (F := F) fun a b =>
    ∃ u, denote SmartNum.value? env a = some u ∧ (0 < u ∨ (u ≠ 0 ∧ ¬ Occurs x b)) := by
  rintro a b a' b' hs - ho ⟨u, hu, h⟩
  exact ⟨u, hs _ _ hu, h.imp id fun h => ⟨h.1, fun hx => h.2 (ho x hx)⟩⟩

theorem Der.powOK {env : Env} (h : Der .strict x e e') (he : WF SmartNum.Valid e)
    (hE : SafeD SmartNum.value? E e) (hs : PowOK SmartNum.value? env x e) : PowOK SmartNum.value? env x e' :=
  h.powAll (powInv_powOK env x) he hE hs
end

end SymRust
