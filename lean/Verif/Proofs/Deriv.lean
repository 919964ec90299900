import Verif.Proofs.AggFacts
import Verif.Model.Derivative
/-! `derivative` as an inductive relation on well-formed trees. -/

namespace SymRust
variable {F : Type} [FloatOps F]
open Expr

section eqs
variable (m : Mode) (x : Variable) (a b : Expr F)

omit [FloatOps F] in
theorem popO_one {ε α : Type} (x : α) : popO (ε := ε) [x] = .ok (x, []) := rfl
omit [FloatOps F] in
theorem popO_two {ε α : Type} (x y : α) : popO (ε := ε) [x, y] = .ok (y, [x]) := rfl

theorem derivative_ofNum (n : SmartNum F) : (ofNum n).derivative m x = .ok (ofI64 0) := by
  simp only [ofNum, derivative, ofI64, numAggregate]; rfl
theorem derivative_ofVar (v : Variable) :
    (ofVar v : Expr F).derivative m x = .ok (if x = v then ofI64 1 else ofI64 0) := by
  have : x.name = v.name ↔ x = v := by
    constructor
    · intro h; cases x; cases v; simp_all
    · intro h; rw [h]
  simp only [ofVar, newVariable, derivative, this]
  split <;> simp only [ofI64, numAggregate_ofNum] <;> rfl

theorem derivative_neg : a.neg.derivative m x =
    a.derivative m x >>= fun d => (d.neg.numAggregate m).lift := by
  simp only [Expr.neg, derivative, derivativeList, genOpNeg, negDerivativeRule, popO_one]
  cases derivative m a x <;> rfl
theorem derivative_add : (a.add b).derivative m x =
    b.derivative m x >>= fun r => a.derivative m x >>= fun l => ((l.add r).numAggregate m).lift := by
  simp only [Expr.add, derivative, derivativeList, genOpAdd, addDerivativeRule, popO_two]
  cases derivative m a x <;> cases derivative m b x <;> rfl
theorem derivative_sub : (a.sub b).derivative m x =
    b.derivative m x >>= fun r => a.derivative m x >>= fun l => ((l.sub r).numAggregate m).lift := by
  simp only [Expr.sub, derivative, derivativeList, genOpSub, subDerivativeRule, popO_two]
  cases derivative m a x <;> cases derivative m b x <;> rfl
theorem derivative_mul : (a.mul b).derivative m x =
    b.derivative m x >>= fun r => a.derivative m x >>= fun l =>
      (((l.mul b).add (a.mul r)).numAggregate m).lift := by
  simp only [Expr.mul, derivative, derivativeList, genOpMul, mulDerivativeRule, popO_two]
  cases derivative m a x <;> cases derivative m b x <;> rfl
theorem derivative_div : (a.div b).derivative m x =
    b.derivative m x >>= fun r => a.derivative m x >>= fun l =>
      ((((l.mul b).sub (a.mul r)).div (b.mul b)).numAggregate m).lift := by
  simp only [Expr.div, derivative, derivativeList, genOpDiv, divDerivativeRule, popO_two]
  cases derivative m a x <;> cases derivative m b x <;> rfl
theorem derivative_sin : a.sin.derivative m x =
    a.derivative m x >>= fun d => ((a.cos.mul d).numAggregate m).lift := by
  simp only [Expr.sin, derivative, derivativeList, genOpSin, sinDerivativeRule, popO_one]
  cases derivative m a x <;> rfl
theorem derivative_cos : a.cos.derivative m x =
    a.derivative m x >>= fun d => ((a.sin.neg.mul d).numAggregate m).lift := by
  simp only [Expr.cos, derivative, derivativeList, genOpCos, cosDerivativeRule, popO_one]
  cases derivative m a x <;> rfl
theorem derivative_exp : a.exp.derivative m x =
    a.derivative m x >>= fun d => ((d.mul a.exp).numAggregate m).lift := by
  simp only [Expr.exp, derivative, derivativeList, genOpExp, expDerivativeRule, popO_one]
  cases derivative m a x <;> rfl
theorem derivative_ln : a.ln.derivative m x =
    a.derivative m x >>= fun d => ((d.div a).numAggregate m).lift := by
  simp only [Expr.ln, derivative, derivativeList, genOpLn, lnDerivativeRule, popO_one]
  cases derivative m a x <;> rfl
theorem derivative_pow : (a.pow b).derivative m x =
    b.derivative m x >>= fun r => a.derivative m x >>= fun l =>
      (((a.pow b).mul ((r.mul a.ln).add ((b.mul l).div a))).numAggregate m).lift := by
  simp only [Expr.pow, derivative, derivativeList, genOpPow, powDerivativeRule, popO_two]
  cases derivative m a x <;> cases derivative m b x <;> rfl
end eqs

/-- One constructor per rule of `derivative`; the last premise is the final `num_aggregate`. -/
inductive Der (m : Mode) (x : Variable) : Expr F → Expr F → Prop
  | num (n : SmartNum F) : Der m x (ofNum n) (ofI64 0)
  | var : Der m x (ofVar x) (ofI64 1)
  | var_ne (y : Variable) : x ≠ y → Der m x (ofVar y) (ofI64 0)
  | neg {a a' e : Expr F} : Der m x a a' → Agg m a'.neg e → Der m x a.neg e
  | add {a b a' b' e : Expr F} : Der m x a a' → Der m x b b' → Agg m (a'.add b') e → Der m x (a.add b) e
  | sub {a b a' b' e : Expr F} : Der m x a a' → Der m x b b' → Agg m (a'.sub b') e → Der m x (a.sub b) e
  | mul {a b a' b' e : Expr F} : Der m x a a' → Der m x b b' →
      Agg m ((a'.mul b).add (a.mul b')) e → Der m x (a.mul b) e
  | div {a b a' b' e : Expr F} : Der m x a a' → Der m x b b' →
      Agg m (((a'.mul b).sub (a.mul b')).div (b.mul b)) e → Der m x (a.div b) e
  | sin {a a' e : Expr F} : Der m x a a' → Agg m (a.cos.mul a') e → Der m x a.sin e
  | cos {a a' e : Expr F} : Der m x a a' → Agg m (a.sin.neg.mul a') e → Der m x a.cos e
  | exp {a a' e : Expr F} : Der m x a a' → Agg m (a'.mul a.exp) e → Der m x a.exp e
  | ln {a a' e : Expr F} : Der m x a a' → Agg m (a'.div a) e → Der m x a.ln e
  | pow {a b a' b' e : Expr F} : Der m x a a' → Der m x b b' →
      Agg m ((a.pow b).mul ((b'.mul a.ln).add ((b.mul a').div a))) e → Der m x (a.pow b) e

theorem Der.wf {m : Mode} {x : Variable} {P : SmartNum F → Prop} (hP : NumClosed m P) {e e' : Expr F}
    (h : Der m x e e') (he : WF P e) : WF P e' := by
  induction h with
  | num | var_ne => exact .num _ (hP.ofI64 0)
  | var => exact .num _ (hP.ofI64 1)
  | neg _ hg ih => exact hg.wf hP (.neg _ (ih (WF.neg_iff.mp he)))
  | add _ _ hg i j => have := WF.add_iff.mp he; exact hg.wf hP (.add _ _ (i this.1) (j this.2))
  | sub _ _ hg i j => have := WF.sub_iff.mp he; exact hg.wf hP (.sub _ _ (i this.1) (j this.2))
  | mul _ _ hg i j =>
    have := WF.mul_iff.mp he
    exact hg.wf hP (.add _ _ (.mul _ _ (i this.1) this.2) (.mul _ _ this.1 (j this.2)))
  | div _ _ hg i j =>
    have := WF.div_iff.mp he
    exact hg.wf hP (.div _ _ (.sub _ _ (.mul _ _ (i this.1) this.2) (.mul _ _ this.1 (j this.2)))
      (.mul _ _ this.2 this.2))
  | sin _ hg ih => have := WF.sin_iff.mp he; exact hg.wf hP (.mul _ _ (.cos _ this) (ih this))
  | cos _ hg ih => have := WF.cos_iff.mp he; exact hg.wf hP (.mul _ _ (.neg _ (.sin _ this)) (ih this))
  | exp _ hg ih => exact hg.wf hP (.mul _ _ (ih (WF.exp_iff.mp he)) he)
  | ln _ hg ih => have := WF.ln_iff.mp he; exact hg.wf hP (.div _ _ (ih this) this)
  | pow _ _ hg i j =>
    have := WF.pow_iff.mp he
    exact hg.wf hP (.mul _ _ he (.add _ _ (.mul _ _ (j this.2) (.ln _ this.1))
      (.div _ _ (.mul _ _ this.2 (i this.1)) this.1)))

/-- A successful `derivative` of a well-formed tree is a `Der` step. -/
theorem der_of_derivative {m : Mode} {x : Variable} {e e' : Expr F} (he : Tree e)
    (h : e.derivative m x = .ok e') : Der m x e e' := by
  have wf : ∀ {a a' : Expr F}, Tree a → Der m x a a' → Tree a' := fun ha h => h.wf (numClosed_true m) ha
  induction he generalizing e' with
  | num n _ => rw [derivative_ofNum] at h; cases h; exact .num n
  | var v =>
    rw [derivative_ofVar] at h
    split at h
    · rename_i h0; subst h0; cases h; exact .var
    · rename_i h0; cases h; exact .var_ne v h0
  | neg a ha ih =>
    rw [derivative_neg, Out.bind_eq_ok] at h
    obtain ⟨d, h1, h2⟩ := h
    have i := ih h1
    exact .neg i (agg_of_numAggregate (.neg _ (wf ha i)) (Res.lift_eq_ok.mp h2))
  | add a b ha hb iha ihb =>
    rw [derivative_add, Out.bind_eq_ok] at h
    obtain ⟨r, h1, h⟩ := h
    obtain ⟨l, h2, h⟩ := Out.bind_eq_ok.mp h
    have i := iha h2
    have j := ihb h1
    exact .add i j (agg_of_numAggregate (.add _ _ (wf ha i) (wf hb j)) (Res.lift_eq_ok.mp h))
  | sub a b ha hb iha ihb =>
    rw [derivative_sub, Out.bind_eq_ok] at h
    obtain ⟨r, h1, h⟩ := h
    obtain ⟨l, h2, h⟩ := Out.bind_eq_ok.mp h
    have i := iha h2
    have j := ihb h1
    exact .sub i j (agg_of_numAggregate (.sub _ _ (wf ha i) (wf hb j)) (Res.lift_eq_ok.mp h))
  | mul a b ha hb iha ihb =>
    rw [derivative_mul, Out.bind_eq_ok] at h
    obtain ⟨r, h1, h⟩ := h
    obtain ⟨l, h2, h⟩ := Out.bind_eq_ok.mp h
    have i := iha h2
    have j := ihb h1
    exact .mul i j (agg_of_numAggregate (.add _ _ (.mul _ _ (wf ha i) hb) (.mul _ _ ha (wf hb j)))
      (Res.lift_eq_ok.mp h))
  | div a b ha hb iha ihb =>
    rw [derivative_div, Out.bind_eq_ok] at h
    obtain ⟨r, h1, h⟩ := h
    obtain ⟨l, h2, h⟩ := Out.bind_eq_ok.mp h
    have i := iha h2
    have j := ihb h1
    exact .div i j (agg_of_numAggregate (.div _ _ (.sub _ _ (.mul _ _ (wf ha i) hb)
      (.mul _ _ ha (wf hb j))) (.mul _ _ hb hb)) (Res.lift_eq_ok.mp h))
  | sin a ha ih =>
    rw [derivative_sin, Out.bind_eq_ok] at h
    obtain ⟨d, h1, h2⟩ := h
    have i := ih h1
    exact .sin i (agg_of_numAggregate (.mul _ _ (.cos _ ha) (wf ha i)) (Res.lift_eq_ok.mp h2))
  | cos a ha ih =>
    rw [derivative_cos, Out.bind_eq_ok] at h
    obtain ⟨d, h1, h2⟩ := h
    have i := ih h1
    exact .cos i (agg_of_numAggregate (.mul _ _ (.neg _ (.sin _ ha)) (wf ha i)) (Res.lift_eq_ok.mp h2))
  | exp a ha ih =>
    rw [derivative_exp, Out.bind_eq_ok] at h
    obtain ⟨d, h1, h2⟩ := h
    have i := ih h1
    exact .exp i (agg_of_numAggregate (.mul _ _ (wf ha i) (.exp _ ha)) (Res.lift_eq_ok.mp h2))
  | ln a ha ih =>
    rw [derivative_ln, Out.bind_eq_ok] at h
    obtain ⟨d, h1, h2⟩ := h
    have i := ih h1
    exact .ln i (agg_of_numAggregate (.div _ _ (wf ha i) ha) (Res.lift_eq_ok.mp h2))
  | pow a b ha hb iha ihb =>
    rw [derivative_pow, Out.bind_eq_ok] at h
    obtain ⟨r, h1, h⟩ := h
    obtain ⟨l, h2, h⟩ := Out.bind_eq_ok.mp h
    have i := iha h2
    have j := ihb h1
    exact .pow i j (agg_of_numAggregate (.mul _ _ (.pow _ _ ha hb) (.add _ _ (.mul _ _ (wf hb j) (.ln _ ha))
      (.div _ _ (.mul _ _ hb (wf ha i)) ha))) (Res.lift_eq_ok.mp h))

/-- `derivative` never returns `Err`. -/
theorem derivative_no_err {m : Mode} {x : Variable} {e : Expr F} (he : Tree e) (err : DerivativeError F) :
    e.derivative m x ≠ .err err := by
  have hl : ∀ r : Res (Expr F), r.lift ≠ .err err := by intro r; cases r <;> simp
  induction he with
  | num n _ => rw [derivative_ofNum]; simp
  | var v => rw [derivative_ofVar]; simp
  | neg a _ ih => rw [derivative_neg]; cases h : a.derivative m x <;> simp_all
  | sin a _ ih => rw [derivative_sin]; cases h : a.derivative m x <;> simp_all
  | cos a _ ih => rw [derivative_cos]; cases h : a.derivative m x <;> simp_all
  | exp a _ ih => rw [derivative_exp]; cases h : a.derivative m x <;> simp_all
  | ln a _ ih => rw [derivative_ln]; cases h : a.derivative m x <;> simp_all
  | add a b _ _ ih ih' =>
    rw [derivative_add]; cases h : a.derivative m x <;> cases h' : b.derivative m x <;> simp_all
  | sub a b _ _ ih ih' =>
    rw [derivative_sub]; cases h : a.derivative m x <;> cases h' : b.derivative m x <;> simp_all
  | mul a b _ _ ih ih' =>
    rw [derivative_mul]; cases h : a.derivative m x <;> cases h' : b.derivative m x <;> simp_all
  | div a b _ _ ih ih' =>
    rw [derivative_div]; cases h : a.derivative m x <;> cases h' : b.derivative m x <;> simp_all
  | pow a b _ _ ih ih' =>
    rw [derivative_pow]; cases h : a.derivative m x <;> cases h' : b.derivative m x <;> simp_all

/-! ### zero propagates -/

/-- every successful aggregation of `e` is the literal 0 -/
def AggZero (m : Mode) (e : Expr F) : Prop := ∀ r, e.numAggregate m = .ok r → r = ofI64 0

theorem aggZero_zero (m : Mode) : AggZero m (ofI64 0 : Expr F) := by
  intro r h; rw [ofI64, numAggregate_ofNum] at h; cases h; rfl

theorem AggZero.neg {m : Mode} {a : Expr F} (ha : AggZero m a) : AggZero m a.neg := by
  intro r h
  rw [numAggregate_neg, negEvalRule_bind, Res.bind_eq_ok] at h
  obtain ⟨a', h1, h2⟩ := h
  rw [ha _ h1] at h2
  cases m <;> (cases h2; rfl)

theorem AggZero.add {m : Mode} {a b : Expr F} (ha : AggZero m a) (hb : AggZero m b) :
    AggZero m (a.add b) := by
  intro r h
  rw [numAggregate_add, addEvalRule_bind, Res.bind_eq_ok] at h
  obtain ⟨b', h1, h⟩ := h
  obtain ⟨a', h2, h⟩ := Res.bind_eq_ok.mp h
  rw [ha _ h2, hb _ h1] at h
  cases m <;> (cases h; rfl)

theorem AggZero.sub {m : Mode} {a b : Expr F} (ha : AggZero m a) (hb : AggZero m b) :
    AggZero m (a.sub b) := by
  intro r h
  rw [numAggregate_sub, subEvalRule_bind, Res.bind_eq_ok] at h
  obtain ⟨b', h1, h⟩ := h
  obtain ⟨a', h2, h⟩ := Res.bind_eq_ok.mp h
  rw [ha _ h2, hb _ h1] at h
  cases m <;> (cases h; rfl)

theorem SmartNum.zero_mul_eq {m : Mode} {y z : SmartNum F} (h : (SmartNum.ofI64 0).mul m y = .ok z) :
    z = SmartNum.ofI64 0 := by
  unfold SmartNum.mul at h
  rw [if_neg (by simp [SmartNum.ofI64, SmartNum.isOne, SmartNum.ofVal, SmartNumVal.ofI64,
    SmartNumVal.isOne, SmartNumVal.isZero])] at h
  split at h
  · cases h; rfl
  · simp only [Res.bind_eq_ok] at h
    obtain ⟨v, hv, h⟩ := h
    unfold SmartNumVal.mul at hv
    rw [if_pos (by simp [SmartNum.ofI64, SmartNum.ofVal, SmartNumVal.ofI64, SmartNumVal.isZero])] at hv
    cases hv; cases h; rfl

theorem SmartNum.mul_zero_eq {m : Mode} {y z : SmartNum F} (h : y.mul m (SmartNum.ofI64 0) = .ok z) :
    z = SmartNum.ofI64 0 := by
  unfold SmartNum.mul at h
  split at h
  · cases h; rfl
  rw [if_neg (by simp [SmartNum.ofI64, SmartNum.isOne, SmartNum.ofVal, SmartNumVal.ofI64,
    SmartNumVal.isOne, SmartNumVal.isZero])] at h
  simp only [Res.bind_eq_ok] at h
  obtain ⟨v, hv, h⟩ := h
  unfold SmartNumVal.mul at hv
  rw [if_pos (by simp [SmartNum.ofI64, SmartNum.ofVal, SmartNumVal.ofI64, SmartNumVal.isZero])] at hv
  cases hv; cases h; rfl

theorem SmartNum.zero_div_eq {m : Mode} {y z : SmartNum F} (h : (SmartNum.ofI64 0).div m y = .ok z) :
    z = SmartNum.ofI64 0 := by
  unfold SmartNum.div at h
  simp only [Res.bind_eq_ok] at h
  obtain ⟨v, hv, h⟩ := h
  unfold SmartNumVal.div at hv
  rw [if_pos (by simp [SmartNum.ofI64, SmartNum.ofVal, SmartNumVal.ofI64, SmartNumVal.isZero])] at hv
  cases hv; cases h; rfl

theorem AggZero.mul_left {m : Mode} {a b : Expr F} (ha : AggZero m a) : AggZero m (a.mul b) := by
  intro r h
  rw [numAggregate_mul, mulEvalRule_bind, Res.bind_eq_ok] at h
  obtain ⟨b', h1, h⟩ := h
  obtain ⟨a', h2, h⟩ := Res.bind_eq_ok.mp h
  rw [ha _ h2] at h
  unfold mulEvalRule at h
  simp only [pop_one, pop_two, Res.ok_bind] at h
  split at h
  · simp only [ofI64, numUnwrap_ofNum, Res.ok_bind, Res.bind_eq_ok, Res.pure_eq, Res.ok.injEq] at h
    obtain ⟨y, -, z, hz, rfl⟩ := h
    rw [SmartNum.zero_mul_eq hz]; rfl
  · rw [if_pos (by rfl)] at h; cases h; rfl

theorem AggZero.mul_right {m : Mode} {a b : Expr F} (hb : AggZero m b) : AggZero m (a.mul b) := by
  intro r h
  rw [numAggregate_mul, mulEvalRule_bind, Res.bind_eq_ok] at h
  obtain ⟨b', h1, h⟩ := h
  obtain ⟨a', h2, h⟩ := Res.bind_eq_ok.mp h
  rw [hb _ h1] at h
  unfold mulEvalRule at h
  simp only [pop_one, pop_two, Res.ok_bind] at h
  split at h
  · simp only [ofI64, numUnwrap_ofNum, Res.ok_bind, Res.bind_eq_ok, Res.pure_eq, Res.ok.injEq] at h
    obtain ⟨y, -, z, hz, rfl⟩ := h
    rw [SmartNum.mul_zero_eq hz]; rfl
  · rw [if_pos (by rw [Bool.or_eq_true]; right; rfl)] at h; cases h; rfl

theorem AggZero.div {m : Mode} {a b : Expr F} (ha : AggZero m a) : AggZero m (a.div b) := by
  intro r h
  rw [numAggregate_div, divEvalRule_bind, Res.bind_eq_ok] at h
  obtain ⟨b', h1, h⟩ := h
  obtain ⟨a', h2, h⟩ := Res.bind_eq_ok.mp h
  rw [ha _ h2] at h
  unfold divEvalRule at h
  simp only [pop_one, pop_two, Res.ok_bind] at h
  split at h
  · simp only [ofI64, numUnwrap_ofNum, Res.ok_bind, Res.bind_eq_ok, Res.pure_eq, Res.ok.injEq] at h
    obtain ⟨y, -, z, hz, rfl⟩ := h
    rw [SmartNum.zero_div_eq hz]; rfl
  · rw [if_pos (by rfl)] at h; cases h; rfl

/-- The derivative of an expression without `x` is the literal 0. -/
theorem derivative_absent {m : Mode} {x : Variable} {e e' : Expr F} (he : Tree e) (hx : ¬ Occurs x e)
    (h : e.derivative m x = .ok e') : e' = ofI64 0 := by
  induction he generalizing e' with
  | num n _ => rw [derivative_ofNum] at h; cases h; rfl
  | var v =>
    rw [derivative_ofVar] at h
    rw [occurs_ofVar] at hx
    rw [if_neg (fun h => hx h.symm)] at h; cases h; rfl
  | neg a _ ih =>
    rw [occurs_neg] at hx
    rw [derivative_neg, Out.bind_eq_ok] at h
    obtain ⟨d, h1, h2⟩ := h
    have z : AggZero m d := by rw [ih hx h1]; exact aggZero_zero m
    exact (show AggZero m _ from .neg z) _ (Res.lift_eq_ok.mp h2)
  | sin a _ ih =>
    rw [occurs_sin] at hx
    rw [derivative_sin, Out.bind_eq_ok] at h
    obtain ⟨d, h1, h2⟩ := h
    have z : AggZero m d := by rw [ih hx h1]; exact aggZero_zero m
    exact (show AggZero m _ from .mul_right z) _ (Res.lift_eq_ok.mp h2)
  | cos a _ ih =>
    rw [occurs_cos] at hx
    rw [derivative_cos, Out.bind_eq_ok] at h
    obtain ⟨d, h1, h2⟩ := h
    have z : AggZero m d := by rw [ih hx h1]; exact aggZero_zero m
    exact (show AggZero m _ from .mul_right z) _ (Res.lift_eq_ok.mp h2)
  | exp a _ ih =>
    rw [occurs_exp] at hx
    rw [derivative_exp, Out.bind_eq_ok] at h
    obtain ⟨d, h1, h2⟩ := h
    have z : AggZero m d := by rw [ih hx h1]; exact aggZero_zero m
    exact (show AggZero m _ from .mul_left z) _ (Res.lift_eq_ok.mp h2)
  | ln a _ ih =>
    rw [occurs_ln] at hx
    rw [derivative_ln, Out.bind_eq_ok] at h
    obtain ⟨d, h1, h2⟩ := h
    have z : AggZero m d := by rw [ih hx h1]; exact aggZero_zero m
    exact (show AggZero m _ from .div z) _ (Res.lift_eq_ok.mp h2)
  | add a b _ _ ih ih' =>
    rw [occurs_add, not_or] at hx
    rw [derivative_add, Out.bind_eq_ok] at h
    obtain ⟨r, h1, h⟩ := h
    obtain ⟨l, h2, h⟩ := Out.bind_eq_ok.mp h
    have za : AggZero m l := by rw [ih hx.1 h2]; exact aggZero_zero m
    have zb : AggZero m r := by rw [ih' hx.2 h1]; exact aggZero_zero m
    exact (show AggZero m _ from .add za zb) _ (Res.lift_eq_ok.mp h)
  | sub a b _ _ ih ih' =>
    rw [occurs_sub, not_or] at hx
    rw [derivative_sub, Out.bind_eq_ok] at h
    obtain ⟨r, h1, h⟩ := h
    obtain ⟨l, h2, h⟩ := Out.bind_eq_ok.mp h
    have za : AggZero m l := by rw [ih hx.1 h2]; exact aggZero_zero m
    have zb : AggZero m r := by rw [ih' hx.2 h1]; exact aggZero_zero m
    exact (show AggZero m _ from .sub za zb) _ (Res.lift_eq_ok.mp h)
  | mul a b _ _ ih ih' =>
    rw [occurs_mul, not_or] at hx
    rw [derivative_mul, Out.bind_eq_ok] at h
    obtain ⟨r, h1, h⟩ := h
    obtain ⟨l, h2, h⟩ := Out.bind_eq_ok.mp h
    have za : AggZero m l := by rw [ih hx.1 h2]; exact aggZero_zero m
    have zb : AggZero m r := by rw [ih' hx.2 h1]; exact aggZero_zero m
    exact (show AggZero m _ from .add (.mul_left za) (.mul_right zb)) _ (Res.lift_eq_ok.mp h)
  | div a b _ _ ih ih' =>
    rw [occurs_div, not_or] at hx
    rw [derivative_div, Out.bind_eq_ok] at h
    obtain ⟨r, h1, h⟩ := h
    obtain ⟨l, h2, h⟩ := Out.bind_eq_ok.mp h
    have za : AggZero m l := by rw [ih hx.1 h2]; exact aggZero_zero m
    have zb : AggZero m r := by rw [ih' hx.2 h1]; exact aggZero_zero m
    exact (show AggZero m _ from .div (.sub (.mul_left za) (.mul_right zb))) _ (Res.lift_eq_ok.mp h)
  | pow a b _ _ ih ih' =>
    rw [occurs_pow, not_or] at hx
    rw [derivative_pow, Out.bind_eq_ok] at h
    obtain ⟨r, h1, h⟩ := h
    obtain ⟨l, h2, h⟩ := Out.bind_eq_ok.mp h
    have za : AggZero m l := by rw [ih hx.1 h2]; exact aggZero_zero m
    have zb : AggZero m r := by rw [ih' hx.2 h1]; exact aggZero_zero m
    exact (show AggZero m _ from .mul_right (.add (.mul_left zb) (.div (.mul_right za)))) _ (Res.lift_eq_ok.mp h)

theorem Der.occurs {m : Mode} {x y : Variable} {e e' : Expr F} (h : Der m x e e') (hy : Occurs y e') :
    Occurs y e := by
  induction h with
  | num | var | var_ne => simp at hy
  | neg _ hg _ | sin _ hg _ | cos _ hg _ | exp _ hg _ | ln _ hg _ =>
    have := hg.occurs hy; simp_all <;> tauto
  | add _ _ hg _ _ | sub _ _ hg _ _ | mul _ _ hg _ _ | div _ _ hg _ _ | pow _ _ hg _ _ =>
    have := hg.occurs hy; simp_all <;> tauto

end SymRust
