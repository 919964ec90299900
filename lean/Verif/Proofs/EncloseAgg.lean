import Verif.Proofs.EncloseRed
/-! `num_aggregate` and `derivative` are such simplifications. -/

namespace SymRust
variable {F : Type} [FloatOps F] {R : Rounding F} {x : Variable} {𝒱 : Set Ranges} {e e' : Expr F}
open Expr

namespace Rounding

theorem inZero {S : Set ℝ} (h : R.blur 0 ⊆ S) : R.InNum (SmartNum.ofI64 0) S :=
  inNum_of_real? (SmartNum.valid_ofI64 0) R.z0 h
theorem inOne {S : Set ℝ} (h : R.blur 1 ⊆ S) : R.InNum (SmartNum.ofI64 1) S :=
  inNum_of_real? (SmartNum.valid_ofI64 1) R.o1 h

end Rounding
open Rounding

theorem Agg.red (h : Agg .strict e e') (he : WF SmartNum.Valid e) (hs : RuleSafe .strict e) : R.Red x e e' := by
  have NC := numClosed_valid (F := F) .strict
  have he' : WF SmartNum.Valid e' := h.wf NC he
  have nt := fun n : SmartNum F => num_textbook (R := R) (x := x) n
  induction h with
  | num n => exact .refl _
  | var v => exact .refl _
  | neg_num h1 hk ih =>
    have w := WF.neg_iff.1 he
    have hx := h1.wf NC w
    refine .trans (.neg (ih w (everywhere_neg.1 hs).2 hx)) (.const _ _ (fun V S hw => ?_) ?_)
    · obtain ⟨S₁, w1, hb⟩ := cov_neg.1 hw
      exact neg_in (WF.num_iff.1 hx) (WF.num_iff.1 he') (cov_num.1 w1) hb hk
    · rw [textbook_neg]; exact (nt _).z_neg
  | neg_neg h1 ih =>
    have w := WF.neg_iff.1 he
    exact .trans (.neg (ih w (everywhere_neg.1 hs).2 (h1.wf NC w))) (.neg_neg _)
  | neg h1 _ _ ih =>
    have w := WF.neg_iff.1 he
    exact .neg (ih w (everywhere_neg.1 hs).2 (h1.wf NC w))
  | add_num h1 h2 hz i j =>
    have w := WF.add_iff.1 he
    have hs' := (everywhere_add.1 hs).2
    have hx := h1.wf NC w.1
    have hy := h2.wf NC w.2
    refine .trans (.add (i w.1 hs'.1 hx) (j w.2 hs'.2 hy)) (.const _ _ (fun V S hw => ?_) ?_)
    · obtain ⟨S₁, S₂, w1, w2, hb⟩ := cov_add.1 hw
      exact add_in (WF.num_iff.1 hx) (WF.num_iff.1 hy) (WF.num_iff.1 he') (cov_num.1 w1) (cov_num.1 w2) hb hz
    · rw [textbook_add]; exact (nt _).z_add (nt _)
  | add_zero_l h1 h2 h0 _ i j =>
    have w := WF.add_iff.1 he
    have hs' := (everywhere_add.1 hs).2
    have hx := h1.wf NC w.1
    exact .trans (.add (i w.1 hs'.1 hx) (j w.2 hs'.2 he')) (.add_zero_l _ (real?_zero (WF.num_iff.1 hx) h0))
  | add_zero_r h1 h2 h0 _ i j =>
    have w := WF.add_iff.1 he
    have hs' := (everywhere_add.1 hs).2
    have hx := h2.wf NC w.2
    exact .trans (.add (i w.1 hs'.1 he') (j w.2 hs'.2 hx)) (.add_zero_r _ (real?_zero (WF.num_iff.1 hx) h0))
  | add h1 h2 _ _ _ i j =>
    have w := WF.add_iff.1 he
    have hs' := (everywhere_add.1 hs).2
    exact .add (i w.1 hs'.1 (h1.wf NC w.1)) (j w.2 hs'.2 (h2.wf NC w.2))
  | sub_num h1 h2 hz i j =>
    have w := WF.sub_iff.1 he
    have hs' := (everywhere_sub.1 hs).2
    have hx := h1.wf NC w.1
    have hy := h2.wf NC w.2
    refine .trans (.sub (i w.1 hs'.1 hx) (j w.2 hs'.2 hy)) (.const _ _ (fun V S hw => ?_) ?_)
    · obtain ⟨S₁, S₂, w1, w2, hb⟩ := cov_sub.1 hw
      exact sub_in (WF.num_iff.1 hx) (WF.num_iff.1 hy) (WF.num_iff.1 he') (cov_num.1 w1) (cov_num.1 w2) hb hz
    · rw [textbook_sub]; exact (nt _).z_sub (nt _)
  | sub_zero_l h1 h2 h0 _ i j =>
    have w := WF.sub_iff.1 he
    have hs' := (everywhere_sub.1 hs).2
    have hx := h1.wf NC w.1
    exact .trans (.sub (i w.1 hs'.1 hx) (j w.2 hs'.2 (h2.wf NC w.2))) (.sub_zero_l _ (real?_zero (WF.num_iff.1 hx) h0))
  | sub_zero_r h1 h2 h0 _ i j =>
    have w := WF.sub_iff.1 he
    have hs' := (everywhere_sub.1 hs).2
    have hx := h2.wf NC w.2
    exact .trans (.sub (i w.1 hs'.1 he') (j w.2 hs'.2 hx)) (.sub_zero_r _ (real?_zero (WF.num_iff.1 hx) h0))
  | sub h1 h2 _ _ _ i j =>
    have w := WF.sub_iff.1 he
    have hs' := (everywhere_sub.1 hs).2
    exact .sub (i w.1 hs'.1 (h1.wf NC w.1)) (j w.2 hs'.2 (h2.wf NC w.2))
  | mul_num h1 h2 hz i j =>
    have w := WF.mul_iff.1 he
    have hs' := (everywhere_mul.1 hs).2
    have hx := h1.wf NC w.1
    have hy := h2.wf NC w.2
    refine .trans (.mul (i w.1 hs'.1 hx) (j w.2 hs'.2 hy)) (.const _ _ (fun V S hw => ?_) ?_)
    · obtain ⟨S₁, S₂, w1, w2, hb⟩ := cov_mul.1 hw
      exact mul_in (WF.num_iff.1 hx) (WF.num_iff.1 hy) (WF.num_iff.1 he') (cov_num.1 w1) (cov_num.1 w2) hb hz
    · rw [textbook_mul]; exact ((nt _).z_mul_l _).z_add ((nt _).z_mul_r _)
  | mul_zero_l h1 h2 h0 _ i j =>
    have w := WF.mul_iff.1 he
    have hs' := (everywhere_mul.1 hs).2
    have hx := h1.wf NC w.1
    exact .trans (.mul (i w.1 hs'.1 hx) (.refl _)) (.mul_zero_l _ (real?_zero (WF.num_iff.1 hx) h0))
  | mul_zero_r h1 h2 h0 _ i j =>
    have w := WF.mul_iff.1 he
    have hs' := (everywhere_mul.1 hs).2
    have hx := h2.wf NC w.2
    exact .trans (.mul (.refl _) (j w.2 hs'.2 hx)) (.mul_zero_r _ (real?_zero (WF.num_iff.1 hx) h0))
  | mul_one_l h1 h2 h0 _ i j =>
    have w := WF.mul_iff.1 he
    have hs' := (everywhere_mul.1 hs).2
    have hx := h1.wf NC w.1
    exact .trans (.mul (i w.1 hs'.1 hx) (j w.2 hs'.2 he')) (.mul_one_l _ (real?_one (WF.num_iff.1 hx) h0))
  | mul_one_r h1 h2 h0 _ i j =>
    have w := WF.mul_iff.1 he
    have hs' := (everywhere_mul.1 hs).2
    have hx := h2.wf NC w.2
    exact .trans (.mul (i w.1 hs'.1 he') (j w.2 hs'.2 hx)) (.mul_one_r _ (real?_one (WF.num_iff.1 hx) h0))
  | mul h1 h2 _ _ _ _ _ i j =>
    have w := WF.mul_iff.1 he
    have hs' := (everywhere_mul.1 hs).2
    exact .mul (i w.1 hs'.1 (h1.wf NC w.1)) (j w.2 hs'.2 (h2.wf NC w.2))
  | div_num h1 h2 hz i j =>
    have w := WF.div_iff.1 he
    have hs' := (everywhere_div.1 hs).2
    have hx := h1.wf NC w.1
    have hy := h2.wf NC w.2
    refine .trans (.div (i w.1 hs'.1 hx) (j w.2 hs'.2 hy)) (.const _ _ (fun V S hw => ?_) ?_)
    · obtain ⟨S₁, S₂, w1, w2, hb⟩ := cov_div.1 hw
      exact div_in (WF.num_iff.1 hx) (WF.num_iff.1 hy) (WF.num_iff.1 he') (cov_num.1 w1) (cov_num.1 w2) hb hz
    · rw [textbook_div]; exact (((nt _).z_mul_l _).z_sub ((nt _).z_mul_r _)).z_div _
  | div_zero_l h1 h2 h0 _ i j =>
    have w := WF.div_iff.1 he
    have hs' := (everywhere_div.1 hs).2
    have hx := h1.wf NC w.1
    exact .trans (.div (i w.1 hs'.1 hx) (.refl _)) (.div_zero _ (real?_zero (WF.num_iff.1 hx) h0))
  | div h1 h2 _ _ i j =>
    have w := WF.div_iff.1 he
    have hs' := (everywhere_div.1 hs).2
    exact .div (i w.1 hs'.1 (h1.wf NC w.1)) (j w.2 hs'.2 (h2.wf NC w.2))
  | sin_num h1 h0 ih =>
    have w := WF.sin_iff.1 he
    have hx := h1.wf NC w
    refine .trans (.sin (ih w (everywhere_sin.1 hs).2 hx)) (.const _ _ (fun V S hw => ?_) ?_)
    · obtain ⟨S₁, w1, hb⟩ := cov_sin.1 hw
      rw [Bool.or_eq_true] at h0
      rcases h0 with h0 | h0
      · exact inZero (by simpa using hb _ ((cov_num.1 w1).value (real?_zero (WF.num_iff.1 hx) h0)))
      · exact inZero (by simpa using hb _ ((cov_num.1 w1).value (real?_pi h0)))
    · rw [textbook_sin]; exact (nt _).z_mul_r _
  | sin h1 _ _ ih =>
    have w := WF.sin_iff.1 he
    exact .sin (ih w (everywhere_sin.1 hs).2 (h1.wf NC w))
  | cos_num h1 h0 ih =>
    have w := WF.cos_iff.1 he
    have hx := h1.wf NC w
    have hp := (everywhere_cos.1 hs).1.cos _ _ rfl (numAggregate_of_agg w.tree h1)
    rw [isPi_ofNum] at hp
    rw [hp, Bool.or_false] at h0
    refine .trans (.cos (ih w (everywhere_cos.1 hs).2 hx)) (.const _ _ (fun V S hw => ?_) ?_)
    · obtain ⟨S₁, w1, hb⟩ := cov_cos.1 hw
      exact inOne (by simpa using hb _ ((cov_num.1 w1).value (real?_zero (WF.num_iff.1 hx) h0)))
    · rw [textbook_cos]; exact (nt _).z_mul_r _
  | cos h1 _ _ ih =>
    have w := WF.cos_iff.1 he
    exact .cos (ih w (everywhere_cos.1 hs).2 (h1.wf NC w))
  | exp_zero h1 h0 ih =>
    have w := WF.exp_iff.1 he
    have hx := h1.wf NC w
    refine .trans (.exp (ih w (everywhere_exp.1 hs).2 hx)) (.const _ _ (fun V S hw => ?_) ?_)
    · obtain ⟨S₁, w1, hb⟩ := cov_exp.1 hw
      exact inOne (by simpa using hb _ ((cov_num.1 w1).value (real?_zero (WF.num_iff.1 hx) h0)))
    · rw [textbook_exp]; exact (nt _).z_mul_l _
  | exp_one h1 h0 ih =>
    have w := WF.exp_iff.1 he
    have hx := h1.wf NC w
    refine .trans (.exp (ih w (everywhere_exp.1 hs).2 hx)) (.const _ _ (fun V S hw => ?_) ?_)
    · obtain ⟨S₁, w1, hb⟩ := cov_exp.1 hw
      exact inNum_of_real? SmartNum.valid_e (v := Real.exp 1) (by simp [real?, SmartNum.e])
        (by simpa using hb _ ((cov_num.1 w1).value (real?_one (WF.num_iff.1 hx) h0)))
    · rw [textbook_exp]; exact (nt _).z_mul_l _
  | exp_ln h1 ih =>
    have w := WF.exp_iff.1 he
    exact .trans (.exp (ih w (everywhere_exp.1 hs).2 (h1.wf NC w))) (.exp_ln he'.tree)
  | exp h1 _ _ _ ih =>
    have w := WF.exp_iff.1 he
    exact .exp (ih w (everywhere_exp.1 hs).2 (h1.wf NC w))
  | ln_e h1 h0 ih =>
    have w := WF.ln_iff.1 he
    have hx := h1.wf NC w
    refine .trans (.ln (ih w (everywhere_ln.1 hs).2 hx)) (.const _ _ (fun V S hw => ?_) ?_)
    · obtain ⟨S₁, w1, hb⟩ := cov_ln.1 hw
      have ht : ‹SmartNum F›.tag = .e := by simpa [SmartNum.isE] using h0
      exact inOne (by simpa using (hb _ ((cov_num.1 w1).value (v := Real.exp 1) (by simp [real?, ht]))).2)
    · rw [textbook_ln]; exact (nt _).z_div _
  | ln_one h1 h0 ih =>
    have w := WF.ln_iff.1 he
    have hx := h1.wf NC w
    refine .trans (.ln (ih w (everywhere_ln.1 hs).2 hx)) (.const _ _ (fun V S hw => ?_) ?_)
    · obtain ⟨S₁, w1, hb⟩ := cov_ln.1 hw
      exact inZero (by simpa using (hb _ ((cov_num.1 w1).value (real?_one (WF.num_iff.1 hx) h0))).2)
    · rw [textbook_ln]; exact (nt _).z_div _
  | ln_exp h1 ih =>
    have w := WF.ln_iff.1 he
    exact .trans (.ln (ih w (everywhere_ln.1 hs).2 (h1.wf NC w))) (.ln_exp he'.tree)
  | ln h1 _ _ _ ih =>
    have w := WF.ln_iff.1 he
    exact .ln (ih w (everywhere_ln.1 hs).2 (h1.wf NC w))
  | pow_zero h1 h2 h0 i j =>
    have hp := (everywhere_pow.1 hs).1.pow _ _ _ rfl (numAggregate_of_agg (WF.pow_iff.1 he).1.tree h1)
    rw [isZero_ofNum, h0] at hp; cases hp.1
  | pow_one h1 h2 h0 i j =>
    have hp := (everywhere_pow.1 hs).1.pow _ _ _ rfl (numAggregate_of_agg (WF.pow_iff.1 he).1.tree h1)
    rw [isOne_ofNum, h0] at hp; cases hp.2.1
  | pow_ln h1 h2 i j =>
    have hp := (everywhere_pow.1 hs).1.pow _ _ _ rfl (numAggregate_of_agg (WF.pow_iff.1 he).1.tree h1)
    exact absurd rfl (hp.2.2 _)
  | pow h1 h2 _ _ _ i j =>
    have w := WF.pow_iff.1 he
    have hs' := (everywhere_pow.1 hs).2
    exact .pow (i w.1 hs'.1 (h1.wf NC w.1)) (j w.2 hs'.2 (h2.wf NC w.2))

theorem Agg.redC (h : Agg .strict e e') (he : WF SmartNum.Valid e) (hs : R.ClearC 𝒱 e) : R.Red x e e' :=
  h.red he (hs.ruleSafe he)

theorem Der.red (h : Der .strict x e e') (he : WF SmartNum.Valid e) (hs : R.ClearC 𝒱 e) :
    R.Red x (e.textbook x) e' := by
  have NC := numClosed_valid (F := F) .strict
  induction h with
  | num n => rw [textbook_ofNum]; exact .refl _
  | var => rw [textbook_same]; exact .refl _
  | var_ne y h => rw [textbook_other _ h]; exact .refl _
  | neg h1 hg i =>
    have ha := WF.neg_iff.1 he
    have hs := clearC_neg.1 hs
    rw [textbook_neg]
    exact .trans (.neg (i ha hs)) (hg.redC (.neg _ (h1.wf NC ha)) (clearC_neg.2 (h1.clearC ha hs)))
  | add h1 h2 hg i j =>
    have ha := WF.add_iff.1 he
    have hs := clearC_add.1 hs
    rw [textbook_add]
    exact .trans (.add (i ha.1 hs.1) (j ha.2 hs.2)) (hg.redC (.add _ _ (h1.wf NC ha.1) (h2.wf NC ha.2))
      (clearC_add.2 ⟨h1.clearC ha.1 hs.1, h2.clearC ha.2 hs.2⟩))
  | sub h1 h2 hg i j =>
    have ha := WF.sub_iff.1 he
    have hs := clearC_sub.1 hs
    rw [textbook_sub]
    exact .trans (.sub (i ha.1 hs.1) (j ha.2 hs.2)) (hg.redC (.sub _ _ (h1.wf NC ha.1) (h2.wf NC ha.2))
      (clearC_sub.2 ⟨h1.clearC ha.1 hs.1, h2.clearC ha.2 hs.2⟩))
  | mul h1 h2 hg i j =>
    have ha := WF.mul_iff.1 he
    have hs := clearC_mul.1 hs
    rw [textbook_mul]
    exact .trans (.add (.mul (i ha.1 hs.1) (.refl _)) (.mul (.refl _) (j ha.2 hs.2)))
      (hg.redC (.add _ _ (.mul _ _ (h1.wf NC ha.1) ha.2) (.mul _ _ ha.1 (h2.wf NC ha.2)))
        (clearC_add.2 ⟨clearC_mul.2 ⟨h1.clearC ha.1 hs.1, hs.2⟩, clearC_mul.2 ⟨hs.1, h2.clearC ha.2 hs.2⟩⟩))
  | div h1 h2 hg i j =>
    have ha := WF.div_iff.1 he
    have hs := clearC_div.1 hs
    rw [textbook_div]
    exact .trans (.div (.sub (.mul (i ha.1 hs.1) (.refl _)) (.mul (.refl _) (j ha.2 hs.2))) (.refl _))
      (hg.redC (.div _ _ (.sub _ _ (.mul _ _ (h1.wf NC ha.1) ha.2) (.mul _ _ ha.1 (h2.wf NC ha.2)))
        (.mul _ _ ha.2 ha.2))
        (clearC_div.2 ⟨clearC_sub.2 ⟨clearC_mul.2 ⟨h1.clearC ha.1 hs.1, hs.2⟩,
          clearC_mul.2 ⟨hs.1, h2.clearC ha.2 hs.2⟩⟩, clearC_mul.2 ⟨hs.2, hs.2⟩⟩))
  | sin h1 hg i =>
    have ha := WF.sin_iff.1 he
    have hs := clearC_sin.1 hs
    rw [textbook_sin]
    exact .trans (.mul (.refl _) (i ha hs.2)) (hg.redC (.mul _ _ (.cos _ ha) (h1.wf NC ha))
      (clearC_mul.2 ⟨clearC_cos.2 hs, h1.clearC ha hs.2⟩))
  | cos h1 hg i =>
    have ha := WF.cos_iff.1 he
    have hs := clearC_cos.1 hs
    rw [textbook_cos]
    exact .trans (.mul (.refl _) (i ha hs.2)) (hg.redC (.mul _ _ (.neg _ (.sin _ ha)) (h1.wf NC ha))
      (clearC_mul.2 ⟨clearC_neg.2 (clearC_sin.2 hs), h1.clearC ha hs.2⟩))
  | exp h1 hg i =>
    have ha := WF.exp_iff.1 he
    have hs' := clearC_exp.1 hs
    rw [textbook_exp]
    exact .trans (.mul (i ha hs') (.refl _)) (hg.redC (.mul _ _ (h1.wf NC ha) he)
      (clearC_mul.2 ⟨h1.clearC ha hs', hs⟩))
  | ln h1 hg i =>
    have ha := WF.ln_iff.1 he
    have hs := clearC_ln.1 hs
    rw [textbook_ln]
    exact .trans (.div (i ha hs) (.refl _)) (hg.redC (.div _ _ (h1.wf NC ha) ha)
      (clearC_div.2 ⟨h1.clearC ha hs, hs⟩))
  | @pow a b a' b' e h1 h2 hg i j =>
    have ha := WF.pow_iff.1 he
    have hs' := clearC_pow.1 hs
    have da := h1.clearC ha.1 hs'.2.1
    have db := h2.clearC ha.2 hs'.2.2
    by_cases hx : Occurs x b
    · rw [textbook_pow _ _ _ hx]
      exact .trans (.mul (.refl _) (.add (.mul (j ha.2 hs'.2.2) (.refl _)) (.div (.mul (.refl _) (i ha.1 hs'.2.1)) (.refl _))))
        (hg.redC (.mul _ _ he (.add _ _ (.mul _ _ (h2.wf NC ha.2) (.ln _ ha.1))
          (.div _ _ (.mul _ _ ha.2 (h1.wf NC ha.1)) ha.1)))
          (clearC_mul.2 ⟨hs, clearC_add.2 ⟨clearC_mul.2 ⟨db, clearC_ln.2 hs'.2.1⟩,
            clearC_div.2 ⟨clearC_mul.2 ⟨hs'.2.2, da⟩, hs'.2.1⟩⟩⟩))
    · rw [textbook_pow_const _ _ _ hx]
      have hb' := h2.absent ha.2.tree hx
      subst hb'
      have hg' := agg_pow_drop he.tree (.div _ _ (.mul _ _ ha.2.tree (h1.wf NC ha.1).tree) ha.1.tree) (.ln _ ha.1.tree) hg
      exact .trans (.mul (.refl _) (.div (.mul (.refl _) (i ha.1 hs'.2.1)) (.refl _)))
        (hg'.redC (.mul _ _ he (.div _ _ (.mul _ _ ha.2 (h1.wf NC ha.1)) ha.1))
          (clearC_mul.2 ⟨hs, clearC_div.2 ⟨clearC_mul.2 ⟨hs'.2.2, da⟩, hs'.2.1⟩⟩))

theorem textbookN_wf {P : SmartNum F → Prop} (h0 : P (.ofI64 0)) (h1 : P (.ofI64 1)) (he : WF P e) (k : Nat) :
    WF P (e.textbookN x k) := by
  induction k with
  | zero => exact he
  | succ k i => exact textbook_wf h0 h1 i

theorem nthDerivative_red (he : WF SmartNum.Valid e) (hs : R.ClearC 𝒱 e) {k : Nat} {d : Expr F}
    (h : nthDerivative .strict e x k = .ok d) :
    WF SmartNum.Valid d ∧ R.ClearC 𝒱 d ∧ R.Red x (e.textbookN x k) d := by
  induction k generalizing d with
  | zero => cases h; exact ⟨he, hs, .refl _⟩
  | succ k ih =>
    obtain ⟨d', h1, h2⟩ := Out.bind_eq_ok.1 h
    obtain ⟨w, c, r⟩ := ih h1
    have hd := der_of_derivative w.tree h2
    exact ⟨hd.wf (numClosed_valid .strict) w, hd.clearC w c,
      .trans (r.textbook (textbookN_wf trivial trivial he.tree k)) (hd.red w c)⟩

end SymRust
