import Verif.Proofs.AggFacts
/-! The relation `Agg` describes exactly the successful runs of `num_aggregate`. -/

namespace SymRust
variable {F : Type} [FloatOps F]
open Expr

theorem sinEvalRule_zero {x : SmartNum F} (h : (x.isZero || x.isPi) = true) :
    sinEvalRule [.ok (ofNum x)] = .ok (ofI64 0) := by
  unfold sinEvalRule
  simp only [pop_one, Res.ok_bind, ofNum, root]
  erw [if_pos h]; rfl
theorem cosEvalRule_zero {x : SmartNum F} (h : (x.isZero || x.isPi) = true) :
    cosEvalRule [.ok (ofNum x)] = .ok (ofI64 1) := by
  unfold cosEvalRule
  simp only [pop_one, Res.ok_bind, ofNum, root]
  erw [if_pos h]; rfl

theorem SmartNum.isOne_not_zero {x : SmartNum F} (h : x.isOne = true) : x.isZero = false := by
  unfold isOne at h; unfold isZero; cases hx : x.tag <;> simp_all
theorem SmartNum.isOne_not_e {x : SmartNum F} (h : x.isOne = true) : x.isE = false := by
  unfold isOne at h; unfold isE; cases hx : x.tag <;> simp_all

theorem numAggregate_of_agg {m : Mode} {e e' : Expr F} (he : Tree e) (h : Agg m e e') :
    e.numAggregate m = .ok e' := by
  induction h with
  | num n => exact numAggregate_ofNum m n
  | var v => exact numAggregate_ofVar m v
  | neg_num h1 hk ih =>
    rw [numAggregate_neg, ih (WF.neg_iff.1 he)]
    simp [negEvalRule, pop_one, hk]
  | neg_neg h1 ih => rw [numAggregate_neg, ih (WF.neg_iff.1 he)]; rfl
  | neg h1 hn hc ih =>
    rw [numAggregate_neg, ih (WF.neg_iff.1 he)]
    exact negEvalRule_fixed (h1.wf (numClosed_true m) (WF.neg_iff.1 he)) hn hc
  | add_num h1 h2 hz i j =>
    rw [numAggregate_add, i (WF.add_iff.1 he).1, j (WF.add_iff.1 he).2]
    simp [addEvalRule, pop_one, pop_two, hz]
  | add_zero_l h1 h2 h0 hn i j =>
    rw [numAggregate_add, i (WF.add_iff.1 he).1, j (WF.add_iff.1 he).2]
    simp [addEvalRule, pop_one, pop_two, h0, hn]
  | add_zero_r h1 h2 h0 hn i j =>
    rw [numAggregate_add, i (WF.add_iff.1 he).1, j (WF.add_iff.1 he).2]
    have hz : ∀ a : Expr F, a.isNum = false → a.isZero = false := fun a h => by
      by_contra hc; rw [isZero_isNum (by simpa using hc)] at h; cases h
    simp [addEvalRule, pop_one, pop_two, h0, hn, hz _ hn]
  | add h1 h2 ha hb hc i j =>
    rw [numAggregate_add, i (WF.add_iff.1 he).1, j (WF.add_iff.1 he).2]
    exact addEvalRule_fixed ⟨ha, hb, hc⟩
  | sub_num h1 h2 hz i j =>
    rw [numAggregate_sub, i (WF.sub_iff.1 he).1, j (WF.sub_iff.1 he).2]
    simp [subEvalRule, pop_one, pop_two, hz]
  | sub_zero_l h1 h2 h0 hn i j =>
    rw [numAggregate_sub, i (WF.sub_iff.1 he).1, j (WF.sub_iff.1 he).2]
    simp [subEvalRule, pop_one, pop_two, h0, hn]
  | sub_zero_r h1 h2 h0 hn i j =>
    rw [numAggregate_sub, i (WF.sub_iff.1 he).1, j (WF.sub_iff.1 he).2]
    have hz : ∀ a : Expr F, a.isNum = false → a.isZero = false := fun a h => by
      by_contra hc; rw [isZero_isNum (by simpa using hc)] at h; cases h
    simp [subEvalRule, pop_one, pop_two, h0, hn, hz _ hn]
  | sub h1 h2 ha hb hc i j =>
    rw [numAggregate_sub, i (WF.sub_iff.1 he).1, j (WF.sub_iff.1 he).2]
    exact subEvalRule_fixed ⟨ha, hb, hc⟩
  | mul_num h1 h2 hz i j =>
    rw [numAggregate_mul, i (WF.mul_iff.1 he).1, j (WF.mul_iff.1 he).2]
    simp [mulEvalRule, pop_one, pop_two, hz]
  | mul_zero_l h1 h2 h0 hn i j =>
    rw [numAggregate_mul, i (WF.mul_iff.1 he).1, j (WF.mul_iff.1 he).2]
    simp [mulEvalRule, pop_one, pop_two, h0, hn]
  | mul_zero_r h1 h2 h0 hn i j =>
    rw [numAggregate_mul, i (WF.mul_iff.1 he).1, j (WF.mul_iff.1 he).2]
    simp [mulEvalRule, pop_one, pop_two, h0, hn]
  | mul_one_l h1 h2 h0 hn i j =>
    rw [numAggregate_mul, i (WF.mul_iff.1 he).1, j (WF.mul_iff.1 he).2]
    have hz : ∀ a : Expr F, a.isNum = false → a.isZero = false := fun a h => by
      by_contra hc; rw [isZero_isNum (by simpa using hc)] at h; cases h
    simp [mulEvalRule, pop_one, pop_two, h0, hn, hz _ hn, SmartNum.isOne_not_zero h0]
  | mul_one_r h1 h2 h0 hn i j =>
    rw [numAggregate_mul, i (WF.mul_iff.1 he).1, j (WF.mul_iff.1 he).2]
    have hz : ∀ a : Expr F, a.isNum = false → a.isZero = false := fun a h => by
      by_contra hc; rw [isZero_isNum (by simpa using hc)] at h; cases h
    have ho : ∀ a : Expr F, a.isNum = false → a.isOne = false := fun a h => by
      by_contra hc; rw [isOne_isNum (by simpa using hc)] at h; cases h
    simp [mulEvalRule, pop_one, pop_two, h0, hn, hz _ hn, ho _ hn, SmartNum.isOne_not_zero h0]
  | mul h1 h2 ha hb hc hd hf i j =>
    rw [numAggregate_mul, i (WF.mul_iff.1 he).1, j (WF.mul_iff.1 he).2]
    exact mulEvalRule_fixed ⟨ha, hb, hc, hd, hf⟩
  | div_num h1 h2 hz i j =>
    rw [numAggregate_div, i (WF.div_iff.1 he).1, j (WF.div_iff.1 he).2]
    simp [divEvalRule, pop_one, pop_two, hz]
  | div_zero_l h1 h2 h0 hn i j =>
    rw [numAggregate_div, i (WF.div_iff.1 he).1, j (WF.div_iff.1 he).2]
    simp [divEvalRule, pop_one, pop_two, h0, hn]
  | div h1 h2 ha hb i j =>
    rw [numAggregate_div, i (WF.div_iff.1 he).1, j (WF.div_iff.1 he).2]
    exact divEvalRule_fixed ⟨ha, hb⟩
  | sin_num h1 h0 ih => rw [numAggregate_sin, ih (WF.sin_iff.1 he)]; exact sinEvalRule_zero h0
  | sin h1 h0 hp ih =>
    rw [numAggregate_sin, ih (WF.sin_iff.1 he)]
    exact sinEvalRule_fixed (h1.wf (numClosed_true m) (WF.sin_iff.1 he)) ⟨h0, hp⟩
  | cos_num h1 h0 ih => rw [numAggregate_cos, ih (WF.cos_iff.1 he)]; exact cosEvalRule_zero h0
  | cos h1 h0 hp ih =>
    rw [numAggregate_cos, ih (WF.cos_iff.1 he)]
    exact cosEvalRule_fixed (h1.wf (numClosed_true m) (WF.cos_iff.1 he)) ⟨h0, hp⟩
  | exp_zero h1 h0 ih =>
    rw [numAggregate_exp, ih (WF.exp_iff.1 he)]
    simp [expEvalRule, pop_one, ofNum, root, h0]
  | exp_one h1 h0 ih =>
    rw [numAggregate_exp, ih (WF.exp_iff.1 he)]
    simp [expEvalRule, pop_one, ofNum, root, h0, SmartNum.isOne_not_zero h0]
  | exp_ln h1 ih => rw [numAggregate_exp, ih (WF.exp_iff.1 he)]; rfl
  | exp h1 h0 hp hc ih =>
    rw [numAggregate_exp, ih (WF.exp_iff.1 he)]
    exact expEvalRule_fixed (h1.wf (numClosed_true m) (WF.exp_iff.1 he)) ⟨h0, hp, hc⟩
  | ln_e h1 h0 ih =>
    rw [numAggregate_ln, ih (WF.ln_iff.1 he)]
    simp [lnEvalRule, pop_one, ofNum, root, h0]; rfl
  | ln_one h1 h0 ih =>
    rw [numAggregate_ln, ih (WF.ln_iff.1 he)]
    simp [lnEvalRule, pop_one, ofNum, root, h0, SmartNum.isOne_not_e h0]; rfl
  | ln_exp h1 ih => rw [numAggregate_ln, ih (WF.ln_iff.1 he)]; rfl
  | ln h1 h0 hp hc ih =>
    rw [numAggregate_ln, ih (WF.ln_iff.1 he)]
    exact lnEvalRule_fixed (h1.wf (numClosed_true m) (WF.ln_iff.1 he)) ⟨h0, hp, hc⟩
  | pow_zero h1 h2 h0 i j =>
    rw [numAggregate_pow, i (WF.pow_iff.1 he).1, j (WF.pow_iff.1 he).2]
    simp [powEvalRule, pop_one, pop_two, ofNum, root, h0]
  | pow_one h1 h2 h0 i j =>
    rw [numAggregate_pow, i (WF.pow_iff.1 he).1, j (WF.pow_iff.1 he).2]
    simp [powEvalRule, pop_one, pop_two, ofNum, root, h0, SmartNum.isOne_not_zero h0]
  | pow_ln h1 h2 i j => rw [numAggregate_pow, i (WF.pow_iff.1 he).1, j (WF.pow_iff.1 he).2]; rfl
  | pow h1 h2 h0 hp hc i j =>
    rw [numAggregate_pow, i (WF.pow_iff.1 he).1, j (WF.pow_iff.1 he).2]
    exact powEvalRule_fixed (h1.wf (numClosed_true m) (WF.pow_iff.1 he).1) ⟨h0, hp, hc⟩

theorem Agg.unique {m : Mode} {e a b : Expr F} (he : Tree e) (h : Agg m e a) (h' : Agg m e b) : a = b := by
  have := (numAggregate_of_agg he h).symm.trans (numAggregate_of_agg he h')
  cases this; rfl

end SymRust
