import Verif.Spec.Enclose
import Verif.Proofs.Trig
import Verif.Proofs.EncloseAgg
/-! # Expressions that vanish with `x` by inspection; their simplification still does -/

namespace SymRust
open Expr
variable {F : Type} [FloatOps F] {x : Variable} {a b e e' : Expr F}

open Rounding (Vanishes)

section inv
local macro "vi" h:ident : tactic => `(tactic| (
  generalize hg : _ = e at $h:ident
  cases $h:ident <;> expr_inj at hg))
theorem vanishes_num {n : SmartNum F} (h : Vanishes x (ofNum n)) : n.isZero = true := by
  generalize hg : Expr.ofNum n = e at h
  cases h <;> expr_inj at hg
  subst hg; assumption
theorem vanishes_neg (h : Vanishes x a.neg) : Vanishes x a := by
  generalize hg : a.neg = e at h
  cases h <;> expr_inj at hg
  subst hg; assumption
theorem vanishes_sin (h : Vanishes x a.sin) : Vanishes x a := by
  generalize hg : a.sin = e at h
  cases h <;> expr_inj at hg
  subst hg; assumption
theorem vanishes_cos (h : Vanishes x a.cos) : False := by
  generalize hg : a.cos = e at h
  cases h <;> expr_inj at hg
theorem vanishes_exp (h : Vanishes x a.exp) : False := by
  generalize hg : a.exp = e at h
  cases h <;> expr_inj at hg
theorem vanishes_ln (h : Vanishes x a.ln) : False := by
  generalize hg : a.ln = e at h
  cases h <;> expr_inj at hg
theorem vanishes_pow (h : Vanishes x (a.pow b)) : False := by
  generalize hg : a.pow b = e at h
  cases h <;> expr_inj at hg
theorem vanishes_add (h : Vanishes x (a.add b)) : Vanishes x a ∧ Vanishes x b := by
  generalize hg : a.add b = e at h
  cases h <;> expr_inj at hg
  obtain ⟨rfl, rfl⟩ := hg; constructor <;> assumption
theorem vanishes_sub (h : Vanishes x (a.sub b)) : Vanishes x a ∧ Vanishes x b := by
  generalize hg : a.sub b = e at h
  cases h <;> expr_inj at hg
  obtain ⟨rfl, rfl⟩ := hg; constructor <;> assumption
theorem vanishes_mul (h : Vanishes x (a.mul b)) : Vanishes x a ∨ Vanishes x b := by
  generalize hg : a.mul b = e at h
  cases h <;> expr_inj at hg
  · obtain ⟨rfl, rfl⟩ := hg; left; assumption
  · obtain ⟨rfl, rfl⟩ := hg; right; assumption
theorem vanishes_div (h : Vanishes x (a.div b)) : Vanishes x a := by
  generalize hg : a.div b = e at h
  cases h <;> expr_inj at hg
  obtain ⟨rfl, rfl⟩ := hg; assumption
end inv

theorem vanishes_zero : Vanishes x (Expr.ofI64 0 : Expr F) := .num _ rfl

section nums
variable {m : Mode} {u v w : SmartNum F}
theorem SmartNum.Valid.not_zero_one (hu : u.Valid) (h0 : u.isZero = true) (h1 : u.isOne = true) : False := by
  have := hu.zero_iff.1 h0
  rw [hu.one_iff.1 h1] at this
  simp at this
theorem SmartNum.Valid.val_zero (hu : u.Valid) (h0 : u.isZero = true) : u.value.isZero = true :=
  (SmartNumVal.isZero_iff hu.ok).2 (hu.zero_iff.1 h0)
theorem neg_isZero (hu : u.Valid) (h0 : u.isZero = true) (h : u.neg .strict = .ok w) (hw : w.Valid) : w.isZero = true := by
  have := SmartNum.neg_exact (by decide) hu (hu.zero_iff.1 h0) h
  exact hw.zero_iff.2 (by simpa using this)
theorem mul_isZero (hu : u.Valid) (hv : v.Valid) (h0 : u.isZero = true ∨ v.isZero = true) (h : u.mul m v = .ok w) :
    w.isZero = true := by
  unfold SmartNum.mul at h
  split_ifs at h with h1 h2
  · cases h; exact h0.resolve_left fun h => hu.not_zero_one h h1
  · cases h; exact h0.resolve_right fun h => hv.not_zero_one h h2
  · have : u.value.mul m v.value = .ok (.integer 0) := by
      unfold SmartNumVal.mul
      rw [if_pos]
      rcases h0 with h | h
      · simp [hu.val_zero h]
      · simp [hv.val_zero h]
    rw [this] at h
    cases h; rfl
theorem div_isZero (hu : u.Valid) (h0 : u.isZero = true) (h : u.div m v = .ok w) : w.isZero = true := by
  unfold SmartNum.div at h
  have : u.value.div m v.value = .ok (.integer 0) := by
    unfold SmartNumVal.div
    rw [if_pos (hu.val_zero h0)]
  rw [this] at h
  cases h; rfl
end nums

theorem Agg.vanishes (h : Agg .strict e e') (he : WF SmartNum.Valid e) (hz : Vanishes x e) : Vanishes x e' := by
  have NC := numClosed_valid (F := F) .strict
  induction h with
  | num n => exact hz
  | var v => exact hz
  | neg_num h1 hk i =>
    have ha := WF.neg_iff.1 he
    have wn := WF.num_iff.1 (h1.wf NC ha)
    exact .num _ (neg_isZero wn (vanishes_num (i ha (vanishes_neg hz))) hk (NC.neg _ _ wn hk))
  | neg_neg h1 i => exact vanishes_neg (i (WF.neg_iff.1 he) (vanishes_neg hz))
  | neg h1 _ _ i => exact .neg _ (i (WF.neg_iff.1 he) (vanishes_neg hz))
  | add_num h1 h2 hk i j =>
    obtain ⟨ha, hb⟩ := WF.add_iff.1 he
    obtain ⟨z1, z2⟩ := vanishes_add hz
    have := vanishes_num (i ha z1)
    unfold SmartNum.add at hk
    rw [if_pos this] at hk
    cases hk
    exact j hb z2
  | add_zero_l h1 h2 _ _ i j => exact j (WF.add_iff.1 he).2 (vanishes_add hz).2
  | add_zero_r h1 h2 _ _ i j => exact i (WF.add_iff.1 he).1 (vanishes_add hz).1
  | add h1 h2 _ _ _ i j => exact .add _ _ (i (WF.add_iff.1 he).1 (vanishes_add hz).1) (j (WF.add_iff.1 he).2 (vanishes_add hz).2)
  | sub_num h1 h2 hk i j =>
    obtain ⟨ha, hb⟩ := WF.sub_iff.1 he
    obtain ⟨z1, z2⟩ := vanishes_sub hz
    have := vanishes_num (i ha z1)
    unfold SmartNum.sub at hk
    rw [if_pos this] at hk
    have wn := WF.num_iff.1 (h2.wf NC hb)
    exact .num _ (neg_isZero wn (vanishes_num (j hb z2)) hk (NC.neg _ _ wn hk))
  | sub_zero_l h1 h2 _ _ i j => exact .neg _ (j (WF.sub_iff.1 he).2 (vanishes_sub hz).2)
  | sub_zero_r h1 h2 _ _ i j => exact i (WF.sub_iff.1 he).1 (vanishes_sub hz).1
  | sub h1 h2 _ _ _ i j => exact .sub _ _ (i (WF.sub_iff.1 he).1 (vanishes_sub hz).1) (j (WF.sub_iff.1 he).2 (vanishes_sub hz).2)
  | mul_num h1 h2 hk i j =>
    obtain ⟨ha, hb⟩ := WF.mul_iff.1 he
    exact .num _ (mul_isZero (WF.num_iff.1 (h1.wf NC ha)) (WF.num_iff.1 (h2.wf NC hb))
      ((vanishes_mul hz).imp (fun h => vanishes_num (i ha h)) (fun h => vanishes_num (j hb h))) hk)
  | mul_zero_l => exact vanishes_zero
  | mul_zero_r => exact vanishes_zero
  | mul_one_l h1 h2 h3 _ i j =>
    obtain ⟨ha, hb⟩ := WF.mul_iff.1 he
    rcases vanishes_mul hz with h | h
    · exact ((WF.num_iff.1 (h1.wf NC ha)).not_zero_one (vanishes_num (i ha h)) h3).elim
    · exact j hb h
  | mul_one_r h1 h2 h3 _ i j =>
    obtain ⟨ha, hb⟩ := WF.mul_iff.1 he
    rcases vanishes_mul hz with h | h
    · exact i ha h
    · exact ((WF.num_iff.1 (h2.wf NC hb)).not_zero_one (vanishes_num (j hb h)) h3).elim
  | mul h1 h2 _ _ _ _ _ i j =>
    obtain ⟨ha, hb⟩ := WF.mul_iff.1 he
    rcases vanishes_mul hz with h | h
    · exact .mul_left _ _ (i ha h)
    · exact .mul_right _ _ (j hb h)
  | div_num h1 h2 hk i j =>
    obtain ⟨ha, hb⟩ := WF.div_iff.1 he
    exact .num _ (div_isZero (WF.num_iff.1 (h1.wf NC ha)) (vanishes_num (i ha (vanishes_div hz))) hk)
  | div_zero_l => exact vanishes_zero
  | div h1 h2 _ _ i j => exact .div _ _ (i (WF.div_iff.1 he).1 (vanishes_div hz))
  | sin_num => exact vanishes_zero
  | sin h1 _ _ i => exact .sin _ (i (WF.sin_iff.1 he) (vanishes_sin hz))
  | cos_num | cos => exact (vanishes_cos hz).elim
  | exp_zero | exp_one | exp_ln | exp => exact (vanishes_exp hz).elim
  | ln_e | ln_one | ln_exp | ln => exact (vanishes_ln hz).elim
  | pow_zero | pow_one | pow_ln | pow => exact (vanishes_pow hz).elim

theorem Vanishes.value {ν : SmartNum F → Option ℝ} (hν : ∀ n : SmartNum F, n.Valid → n.isZero = true → ν n = some 0)
    (he : WF SmartNum.Valid e) (h : Vanishes x e) {env : Env} (h0 : env x = 0) {r : ℝ} (hr : denote ν env e = some r) :
    r = 0 := by
  induction h generalizing r with
  | num n hn => rw [denote_ofNum, hν n (WF.num_iff.1 he) hn] at hr; cases hr; rfl
  | var => rw [denote_ofVar, h0] at hr; cases hr; rfl
  | neg a _ i => obtain ⟨u, hu, rfl⟩ := denote_neg.1 hr; rw [i (WF.neg_iff.1 he) hu, neg_zero]
  | sin a _ i => obtain ⟨u, hu, rfl⟩ := denote_sin.1 hr; rw [i (WF.sin_iff.1 he) hu, Real.sin_zero]
  | add a b _ _ i j =>
    obtain ⟨u, v, hu, hv, rfl⟩ := denote_add.1 hr
    rw [i (WF.add_iff.1 he).1 hu, j (WF.add_iff.1 he).2 hv, add_zero]
  | sub a b _ _ i j =>
    obtain ⟨u, v, hu, hv, rfl⟩ := denote_sub.1 hr
    rw [i (WF.sub_iff.1 he).1 hu, j (WF.sub_iff.1 he).2 hv, sub_zero]
  | mul_left a b _ i =>
    obtain ⟨u, v, hu, hv, rfl⟩ := denote_mul.1 hr
    rw [i (WF.mul_iff.1 he).1 hu, zero_mul]
  | mul_right a b _ i =>
    obtain ⟨u, v, hu, hv, rfl⟩ := denote_mul.1 hr
    rw [i (WF.mul_iff.1 he).2 hv, mul_zero]
  | div a b _ i =>
    obtain ⟨u, v, hu, hv, -, rfl⟩ := denote_div.1 hr
    rw [i (WF.div_iff.1 he).1 hu, zero_div]

/-! ### arguments of `sin` and `cos` in derivatives -/

theorem Agg.trigV {Q : Expr F → Prop} (hQ : ∀ a a', Agg .strict a a' → WF SmartNum.Valid a → Q a → Q a')
    (h : Agg .strict e e') (he : WF SmartNum.Valid e) (hs : TrigAll Q e) : TrigAll Q e' := by
  induction h with
  | sin h1 _ _ i =>
    obtain ⟨k1, k2⟩ := trigAll_sin.1 hs
    have ha := WF.sin_iff.1 he
    exact trigAll_sin.2 ⟨hQ _ _ h1 ha k1, i ha k2⟩
  | cos h1 _ _ i =>
    obtain ⟨k1, k2⟩ := trigAll_cos.1 hs
    have ha := WF.cos_iff.1 he
    exact trigAll_cos.2 ⟨hQ _ _ h1 ha k1, i ha k2⟩
  | _ =>
    simp_all [WF.neg_iff, WF.add_iff, WF.sub_iff, WF.mul_iff, WF.div_iff, WF.sin_iff, WF.cos_iff, WF.exp_iff,
      WF.ln_iff, WF.pow_iff, trigAll_ofNum, trigAll_ofVar, trigAll_neg, trigAll_add, trigAll_sub, trigAll_mul,
      trigAll_div, trigAll_sin, trigAll_exp, trigAll_ln, trigAll_pow, trigAll_cos, Expr.ofI64, Expr.e]

theorem Der.trigV {Q : Expr F → Prop} (hQ : ∀ a a', Agg .strict a a' → WF SmartNum.Valid a → Q a → Q a')
    {y : Variable} (h : Der .strict y e e') (he : WF SmartNum.Valid e) (hs : TrigAll Q e) : TrigAll Q e' := by
  have NC := numClosed_valid (F := F) .strict
  induction h with
  | num n => exact trigAll_ofNum _
  | var => exact trigAll_ofNum _
  | var_ne y h => exact trigAll_ofNum _
  | neg h1 hg i =>
    have ha := WF.neg_iff.1 he
    exact hg.trigV hQ (.neg _ (h1.wf NC ha)) (trigAll_neg.2 (i ha (trigAll_neg.1 hs)))
  | add h1 h2 hg i j =>
    have ha := WF.add_iff.1 he
    have hs := trigAll_add.1 hs
    exact hg.trigV hQ (.add _ _ (h1.wf NC ha.1) (h2.wf NC ha.2)) (trigAll_add.2 ⟨i ha.1 hs.1, j ha.2 hs.2⟩)
  | sub h1 h2 hg i j =>
    have ha := WF.sub_iff.1 he
    have hs := trigAll_sub.1 hs
    exact hg.trigV hQ (.sub _ _ (h1.wf NC ha.1) (h2.wf NC ha.2)) (trigAll_sub.2 ⟨i ha.1 hs.1, j ha.2 hs.2⟩)
  | mul h1 h2 hg i j =>
    have ha := WF.mul_iff.1 he
    have hs := trigAll_mul.1 hs
    exact hg.trigV hQ (.add _ _ (.mul _ _ (h1.wf NC ha.1) ha.2) (.mul _ _ ha.1 (h2.wf NC ha.2)))
      (trigAll_add.2 ⟨trigAll_mul.2 ⟨i ha.1 hs.1, hs.2⟩, trigAll_mul.2 ⟨hs.1, j ha.2 hs.2⟩⟩)
  | div h1 h2 hg i j =>
    have ha := WF.div_iff.1 he
    have hs := trigAll_div.1 hs
    exact hg.trigV hQ (.div _ _ (.sub _ _ (.mul _ _ (h1.wf NC ha.1) ha.2) (.mul _ _ ha.1 (h2.wf NC ha.2)))
      (.mul _ _ ha.2 ha.2))
      (trigAll_div.2 ⟨trigAll_sub.2 ⟨trigAll_mul.2 ⟨i ha.1 hs.1, hs.2⟩, trigAll_mul.2 ⟨hs.1, j ha.2 hs.2⟩⟩,
        trigAll_mul.2 ⟨hs.2, hs.2⟩⟩)
  | sin h1 hg i =>
    have ha := WF.sin_iff.1 he
    have hs := trigAll_sin.1 hs
    exact hg.trigV hQ (.mul _ _ (.cos _ ha) (h1.wf NC ha)) (trigAll_mul.2 ⟨trigAll_cos.2 hs, i ha hs.2⟩)
  | cos h1 hg i =>
    have ha := WF.cos_iff.1 he
    have hs := trigAll_cos.1 hs
    exact hg.trigV hQ (.mul _ _ (.neg _ (.sin _ ha)) (h1.wf NC ha))
      (trigAll_mul.2 ⟨trigAll_neg.2 (trigAll_sin.2 hs), i ha hs.2⟩)
  | exp h1 hg i =>
    have ha := WF.exp_iff.1 he
    exact hg.trigV hQ (.mul _ _ (h1.wf NC ha) he) (trigAll_mul.2 ⟨i ha (trigAll_exp.1 hs), hs⟩)
  | ln h1 hg i =>
    have ha := WF.ln_iff.1 he
    have hs := trigAll_ln.1 hs
    exact hg.trigV hQ (.div _ _ (h1.wf NC ha) ha) (trigAll_div.2 ⟨i ha hs, hs⟩)
  | pow h1 h2 hg i j =>
    have ha := WF.pow_iff.1 he
    have hs' := trigAll_pow.1 hs
    exact hg.trigV hQ (.mul _ _ he (.add _ _ (.mul _ _ (h2.wf NC ha.2) (.ln _ ha.1))
      (.div _ _ (.mul _ _ ha.2 (h1.wf NC ha.1)) ha.1)))
      (trigAll_mul.2 ⟨hs, trigAll_add.2 ⟨trigAll_mul.2 ⟨j ha.2 hs'.2, trigAll_ln.2 hs'.1⟩,
        trigAll_div.2 ⟨trigAll_mul.2 ⟨hs'.2, i ha.1 hs'.1⟩, hs'.1⟩⟩⟩)

theorem nthDerivative_trigV {Q : Expr F → Prop} (hQ : ∀ a a', Agg .strict a a' → WF SmartNum.Valid a → Q a → Q a')
    {y : Variable} {d : Expr F} (he : WF SmartNum.Valid e) (hs : TrigAll Q e) (k : Nat)
    (h : nthDerivative .strict e y k = .ok d) : TrigAll Q d ∧ WF SmartNum.Valid d := by
  induction k generalizing d with
  | zero => cases h; exact ⟨hs, he⟩
  | succ k ih =>
    obtain ⟨d', h1, h2⟩ := Out.bind_eq_ok.1 h
    obtain ⟨i1, i2⟩ := ih h1
    have hd := der_of_derivative i2.tree h2
    exact ⟨hd.trigV hQ i2 i1, hd.wf (numClosed_valid _) i2⟩

end SymRust
