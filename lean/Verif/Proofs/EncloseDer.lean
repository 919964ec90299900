import Verif.Proofs.Enclose
import Verif.Proofs.Calculus
import Verif.Proofs.Chain
/-! The restrictions under `num_aggregate` and `derivative`; derivatives by the textbook rules. -/

namespace SymRust
variable {F : Type}
open Expr Filter Topology

/-! ### the restrictions -/

namespace Rounding
variable [FloatOps F] {R : Rounding F} {𝒱 : Set Ranges} {a b e e' : Expr F} {c : ℝ}

/-- `Differs` with `Cov`. -/
def DiffC (R : Rounding F) (𝒱 : Set Ranges) (e : Expr F) (c : ℝ) : Prop :=
  ∃ V ∈ 𝒱, V.envs.Nonempty ∧ ∃ S, R.Cov V e S ∧ c ∉ S

/-- `ClearAt` with `Cov`. -/
structure ClearCAt (R : Rounding F) (𝒱 : Set Ranges) (s : Expr F) : Prop where
  cos : ∀ a : Expr F, s = a.cos → R.DiffC 𝒱 a Real.pi
  sin : ∀ a : Expr F, s = a.sin → R.DiffC 𝒱 a Real.pi
  pow : ∀ a b : Expr F, s = a.pow b → R.DiffC 𝒱 a 0 ∧ R.DiffC 𝒱 a 1 ∧ Everywhere NotLn a

def ClearC (R : Rounding F) (𝒱 : Set Ranges) (e : Expr F) : Prop := Everywhere (R.ClearCAt 𝒱) e

section
local macro "cl" : tactic => `(tactic| constructor <;> · intros; rename_i h; expr_inj at h)
theorem clearC_ofNum (n : SmartNum F) : R.ClearC 𝒱 (ofNum n) := everywhere_ofNum.2 (by cl)
theorem clearC_ofVar (v : Variable) : R.ClearC 𝒱 (ofVar v) := everywhere_ofVar.2 (by cl)
theorem clearC_neg : R.ClearC 𝒱 a.neg ↔ R.ClearC 𝒱 a := everywhere_neg.trans ⟨fun h => h.2, fun h => ⟨by cl, h⟩⟩
theorem clearC_exp : R.ClearC 𝒱 a.exp ↔ R.ClearC 𝒱 a := everywhere_exp.trans ⟨fun h => h.2, fun h => ⟨by cl, h⟩⟩
theorem clearC_ln : R.ClearC 𝒱 a.ln ↔ R.ClearC 𝒱 a := everywhere_ln.trans ⟨fun h => h.2, fun h => ⟨by cl, h⟩⟩
theorem clearC_add : R.ClearC 𝒱 (a.add b) ↔ R.ClearC 𝒱 a ∧ R.ClearC 𝒱 b :=
  everywhere_add.trans ⟨fun h => h.2, fun h => ⟨by cl, h⟩⟩
theorem clearC_sub : R.ClearC 𝒱 (a.sub b) ↔ R.ClearC 𝒱 a ∧ R.ClearC 𝒱 b :=
  everywhere_sub.trans ⟨fun h => h.2, fun h => ⟨by cl, h⟩⟩
theorem clearC_mul : R.ClearC 𝒱 (a.mul b) ↔ R.ClearC 𝒱 a ∧ R.ClearC 𝒱 b :=
  everywhere_mul.trans ⟨fun h => h.2, fun h => ⟨by cl, h⟩⟩
theorem clearC_div : R.ClearC 𝒱 (a.div b) ↔ R.ClearC 𝒱 a ∧ R.ClearC 𝒱 b :=
  everywhere_div.trans ⟨fun h => h.2, fun h => ⟨by cl, h⟩⟩
theorem clearC_sin : R.ClearC 𝒱 a.sin ↔ R.DiffC 𝒱 a Real.pi ∧ R.ClearC 𝒱 a :=
  everywhere_sin.trans ⟨fun h => ⟨h.1.sin _ rfl, h.2⟩, fun h => ⟨by
    constructor
    · intro c h; expr_inj at h
    · intro c hc; expr_inj at hc; subst hc; exact h.1
    · intro c d h; expr_inj at h, h.2⟩⟩
theorem clearC_cos : R.ClearC 𝒱 a.cos ↔ R.DiffC 𝒱 a Real.pi ∧ R.ClearC 𝒱 a :=
  everywhere_cos.trans ⟨fun h => ⟨h.1.cos _ rfl, h.2⟩, fun h => ⟨by
    constructor
    · intro c hc; expr_inj at hc; subst hc; exact h.1
    · intro c h; expr_inj at h
    · intro c d h; expr_inj at h, h.2⟩⟩
theorem clearC_pow : R.ClearC 𝒱 (a.pow b) ↔ (R.DiffC 𝒱 a 0 ∧ R.DiffC 𝒱 a 1 ∧ Everywhere NotLn a) ∧
    R.ClearC 𝒱 a ∧ R.ClearC 𝒱 b :=
  everywhere_pow.trans ⟨fun h => ⟨h.1.pow _ _ rfl, h.2⟩, fun h => ⟨by
    constructor
    · intro c h; expr_inj at h
    · intro c h; expr_inj at h
    · intro c d hc; expr_inj at hc; obtain ⟨rfl, rfl⟩ := hc; exact h.1, h.2⟩⟩
end

theorem Differs.diffC (h : R.Differs 𝒱 e c) (he : WF SmartNum.Valid e) : R.DiffC 𝒱 e c := by
  obtain ⟨V, h1, h2, S, h3, h4⟩ := h
  exact ⟨V, h1, h2, S, h3.cov he, h4⟩

theorem Clear.clearC (h : R.Clear 𝒱 e) (he : WF SmartNum.Valid e) : R.ClearC 𝒱 e := by
  induction he with
  | num n _ => exact clearC_ofNum n
  | var v => exact clearC_ofVar v
  | neg a _ i => exact clearC_neg.2 (i (everywhere_neg.1 h).2)
  | sin a w i => exact clearC_sin.2 ⟨((everywhere_sin.1 h).1.sin _ rfl).diffC w, i (everywhere_sin.1 h).2⟩
  | cos a w i => exact clearC_cos.2 ⟨((everywhere_cos.1 h).1.cos _ rfl).diffC w, i (everywhere_cos.1 h).2⟩
  | exp a _ i => exact clearC_exp.2 (i (everywhere_exp.1 h).2)
  | ln a _ i => exact clearC_ln.2 (i (everywhere_ln.1 h).2)
  | add a b _ _ i j => exact clearC_add.2 ⟨i (everywhere_add.1 h).2.1, j (everywhere_add.1 h).2.2⟩
  | sub a b _ _ i j => exact clearC_sub.2 ⟨i (everywhere_sub.1 h).2.1, j (everywhere_sub.1 h).2.2⟩
  | mul a b _ _ i j => exact clearC_mul.2 ⟨i (everywhere_mul.1 h).2.1, j (everywhere_mul.1 h).2.2⟩
  | div a b _ _ i j => exact clearC_div.2 ⟨i (everywhere_div.1 h).2.1, j (everywhere_div.1 h).2.2⟩
  | pow a b w _ i j =>
    have k := everywhere_pow.1 h
    exact clearC_pow.2 ⟨⟨(k.1.pow_zero _ _ rfl).diffC w, (k.1.pow_one _ _ rfl).diffC w, noLn_iff.1 (k.1.pow_ln _ _ rfl)⟩,
      i k.2.1, j k.2.2⟩

theorem DiffC.agg (h : R.DiffC 𝒱 e c) (ha : Agg .strict e e') (he : WF SmartNum.Valid e) (hs : RuleSafe .strict e) :
    R.DiffC 𝒱 e' c := by
  obtain ⟨V, h1, h2, S, h3, h4⟩ := h
  exact ⟨V, h1, h2, S, agg_cov ha he hs h2 h3, h4⟩

theorem not_diffC_num {n : SmartNum F} (hn : R.real? n = some c) : ¬ R.DiffC 𝒱 (ofNum n) c := by
  rintro ⟨V, -, -, S, h3, h4⟩
  obtain ⟨v, h5, h6, -⟩ := cov_num.1 h3
  rw [hn] at h6; cases h6
  exact h4 h5

theorem real?_zero {n : SmartNum F} (hn : n.Valid) (h : n.isZero = true) : R.real? n = some 0 := by
  simpa using real?_of_exact hn (hn.zero_iff.1 h)
theorem real?_one {n : SmartNum F} (hn : n.Valid) (h : n.isOne = true) : R.real? n = some 1 := by
  simpa using real?_of_exact hn (hn.one_iff.1 h)
theorem real?_pi {n : SmartNum F} (h : n.isPi = true) : R.real? n = some Real.pi := by
  have ht : n.tag = .pi := by simpa [SmartNum.isPi] using h
  simp [real?, ht]

local macro "rs" : tactic => `(tactic| constructor <;> · intros; rename_i h _; expr_inj at h)
theorem ClearC.ruleSafe (he : WF SmartNum.Valid e) (hs : R.ClearC 𝒱 e) : RuleSafe .strict e := by
  have NC := numClosed_valid (F := F) .strict
  induction he with
  | num n _ => exact everywhere_ofNum.2 (by rs)
  | var v => exact everywhere_ofVar.2 (by rs)
  | neg a h i => exact everywhere_neg.2 ⟨by rs, i (clearC_neg.1 hs)⟩
  | sin a h i => exact everywhere_sin.2 ⟨by rs, i (clearC_sin.1 hs).2⟩
  | exp a h i => exact everywhere_exp.2 ⟨by rs, i (clearC_exp.1 hs)⟩
  | ln a h i => exact everywhere_ln.2 ⟨by rs, i (clearC_ln.1 hs)⟩
  | add a b h h' i j => exact everywhere_add.2 ⟨by rs, i (clearC_add.1 hs).1, j (clearC_add.1 hs).2⟩
  | sub a b h h' i j => exact everywhere_sub.2 ⟨by rs, i (clearC_sub.1 hs).1, j (clearC_sub.1 hs).2⟩
  | mul a b h h' i j => exact everywhere_mul.2 ⟨by rs, i (clearC_mul.1 hs).1, j (clearC_mul.1 hs).2⟩
  | div a b h h' i j => exact everywhere_div.2 ⟨by rs, i (clearC_div.1 hs).1, j (clearC_div.1 hs).2⟩
  | cos a h i =>
    obtain ⟨h1, h2⟩ := clearC_cos.1 hs
    refine everywhere_cos.2 ⟨⟨?_, ?_⟩, i h2⟩
    · intro c c' hc hn
      expr_inj at hc
      subst hc
      have hag := agg_of_numAggregate h.tree hn
      by_contra hp
      have hp : c'.isPi = true := by simpa using hp
      have hw := hag.wf NC h
      have hnum : c'.isNum = true := by
        cases hw <;> first | rfl | cases hp
      obtain ⟨n, hv, rfl⟩ := hw.num_of_isNum hnum
      exact not_diffC_num (real?_pi hp) (h1.agg hag h (i h2))
    · intro c d c' hc; expr_inj at hc
  | pow a b h h' i j =>
    obtain ⟨⟨h0, h1, h2⟩, h3, h4⟩ := clearC_pow.1 hs
    refine everywhere_pow.2 ⟨⟨?_, ?_⟩, i h3, j h4⟩
    · intro c c' hc; expr_inj at hc
    · intro c d c' hc hn
      expr_inj at hc
      obtain ⟨rfl, rfl⟩ := hc
      have hag := agg_of_numAggregate h.tree hn
      have hw := hag.wf NC h
      refine ⟨?_, ?_, ?_⟩
      · by_contra hp
        have hp : c'.isZero = true := by simpa using hp
        obtain ⟨n, hv, rfl⟩ := hw.num_of_isNum (isZero_isNum hp)
        exact not_diffC_num (real?_zero hv hp) (h0.agg hag h (i h3))
      · by_contra hp
        have hp : c'.isOne = true := by simpa using hp
        obtain ⟨n, hv, rfl⟩ := hw.num_of_isNum (isOne_isNum hp)
        exact not_diffC_num (real?_one hv hp) (h1.agg hag h (i h3))
      · exact (hag.noLn h2).root

end Rounding

section
open Rounding
variable [FloatOps F] {R : Rounding F} {𝒱 : Set Ranges} {e e' : Expr F}

theorem Agg.clearC (h : Agg .strict e e') (he : WF SmartNum.Valid e) (hs : R.ClearC 𝒱 e) : R.ClearC 𝒱 e' := by
  induction h with
  | cos h1 _ _ ih =>
    have hw := WF.cos_iff.1 he
    obtain ⟨h2, h3⟩ := clearC_cos.1 hs
    exact clearC_cos.2 ⟨h2.agg h1 hw (h3.ruleSafe hw), ih hw h3⟩
  | sin h1 _ _ ih =>
    have hw := WF.sin_iff.1 he
    obtain ⟨h2, h3⟩ := clearC_sin.1 hs
    exact clearC_sin.2 ⟨h2.agg h1 hw (h3.ruleSafe hw), ih hw h3⟩
  | pow h1 h2 _ _ _ i j =>
    have hw := WF.pow_iff.1 he
    obtain ⟨⟨k0, k1, k2⟩, k3, k4⟩ := clearC_pow.1 hs
    have hsd := k3.ruleSafe hw.1
    exact clearC_pow.2 ⟨⟨k0.agg h1 hw.1 hsd, k1.agg h1 hw.1 hsd, h1.noLn k2⟩, i hw.1 k3, j hw.2 k4⟩
  | _ =>
    simp_all [WF.neg_iff, WF.add_iff, WF.sub_iff, WF.mul_iff, WF.div_iff, WF.sin_iff, WF.cos_iff, WF.exp_iff,
      WF.ln_iff, WF.pow_iff, clearC_ofNum, clearC_ofVar, clearC_neg, clearC_add, clearC_sub, clearC_mul, clearC_div,
      clearC_sin, clearC_exp, clearC_ln, clearC_pow, clearC_cos, Expr.ofI64, Expr.e]

theorem Der.clearC {x : Variable} (h : Der .strict x e e') (he : WF SmartNum.Valid e)
    (hs : R.ClearC 𝒱 e) : R.ClearC 𝒱 e' := by
  have NC := numClosed_valid (F := F) .strict
  induction h with
  | num n => exact clearC_ofNum _
  | var => exact clearC_ofNum _
  | var_ne y h => exact clearC_ofNum _
  | neg h1 hg i =>
    have ha := WF.neg_iff.1 he
    exact hg.clearC (.neg _ (h1.wf NC ha)) (clearC_neg.2 (i ha (clearC_neg.1 hs)))
  | add h1 h2 hg i j =>
    have ha := WF.add_iff.1 he
    have hs := clearC_add.1 hs
    exact hg.clearC (.add _ _ (h1.wf NC ha.1) (h2.wf NC ha.2)) (clearC_add.2 ⟨i ha.1 hs.1, j ha.2 hs.2⟩)
  | sub h1 h2 hg i j =>
    have ha := WF.sub_iff.1 he
    have hs := clearC_sub.1 hs
    exact hg.clearC (.sub _ _ (h1.wf NC ha.1) (h2.wf NC ha.2)) (clearC_sub.2 ⟨i ha.1 hs.1, j ha.2 hs.2⟩)
  | mul h1 h2 hg i j =>
    have ha := WF.mul_iff.1 he
    have hs := clearC_mul.1 hs
    exact hg.clearC (.add _ _ (.mul _ _ (h1.wf NC ha.1) ha.2) (.mul _ _ ha.1 (h2.wf NC ha.2)))
      (clearC_add.2 ⟨clearC_mul.2 ⟨i ha.1 hs.1, hs.2⟩, clearC_mul.2 ⟨hs.1, j ha.2 hs.2⟩⟩)
  | div h1 h2 hg i j =>
    have ha := WF.div_iff.1 he
    have hs := clearC_div.1 hs
    exact hg.clearC (.div _ _ (.sub _ _ (.mul _ _ (h1.wf NC ha.1) ha.2) (.mul _ _ ha.1 (h2.wf NC ha.2)))
      (.mul _ _ ha.2 ha.2))
      (clearC_div.2 ⟨clearC_sub.2 ⟨clearC_mul.2 ⟨i ha.1 hs.1, hs.2⟩, clearC_mul.2 ⟨hs.1, j ha.2 hs.2⟩⟩,
        clearC_mul.2 ⟨hs.2, hs.2⟩⟩)
  | sin h1 hg i =>
    have ha := WF.sin_iff.1 he
    have hs := clearC_sin.1 hs
    exact hg.clearC (.mul _ _ (.cos _ ha) (h1.wf NC ha)) (clearC_mul.2 ⟨clearC_cos.2 hs, i ha hs.2⟩)
  | cos h1 hg i =>
    have ha := WF.cos_iff.1 he
    have hs := clearC_cos.1 hs
    exact hg.clearC (.mul _ _ (.neg _ (.sin _ ha)) (h1.wf NC ha))
      (clearC_mul.2 ⟨clearC_neg.2 (clearC_sin.2 hs), i ha hs.2⟩)
  | exp h1 hg i =>
    have ha := WF.exp_iff.1 he
    exact hg.clearC (.mul _ _ (h1.wf NC ha) he) (clearC_mul.2 ⟨i ha (clearC_exp.1 hs), hs⟩)
  | ln h1 hg i =>
    have ha := WF.ln_iff.1 he
    have hs := clearC_ln.1 hs
    exact hg.clearC (.div _ _ (h1.wf NC ha) ha) (clearC_div.2 ⟨i ha hs, hs⟩)
  | pow h1 h2 hg i j =>
    have ha := WF.pow_iff.1 he
    have hs' := clearC_pow.1 hs
    exact hg.clearC (.mul _ _ he (.add _ _ (.mul _ _ (h2.wf NC ha.2) (.ln _ ha.1))
      (.div _ _ (.mul _ _ ha.2 (h1.wf NC ha.1)) ha.1)))
      (clearC_mul.2 ⟨hs, clearC_add.2 ⟨clearC_mul.2 ⟨j ha.2 hs'.2.2, clearC_ln.2 hs'.2.1⟩,
        clearC_div.2 ⟨clearC_mul.2 ⟨hs'.2.2, i ha.1 hs'.2.1⟩, hs'.2.1⟩⟩⟩)

end

/-! ### derivatives by the textbook rules -/

section
variable (x : Variable) (a b : Expr F)
theorem textbook_ofNum (n : SmartNum F) : (ofNum n).textbook x = ofI64 0 := by simp [ofNum, textbook]
theorem textbook_ofI64 (i : Int64) : (Expr.ofI64 i : Expr F).textbook x = ofI64 0 := textbook_ofNum x _
theorem textbook_same : (ofVar x : Expr F).textbook x = ofI64 1 := by simp [ofVar, newVariable, textbook]
theorem textbook_other {v : Variable} (h : x ≠ v) : (ofVar v : Expr F).textbook x = ofI64 0 := by
  have : x.name ≠ v.name := fun h' => h (by cases x; cases v; simpa using h')
  simp [ofVar, newVariable, textbook, this]
theorem textbook_neg : a.neg.textbook x = (a.textbook x).neg := by
  simp [Expr.neg, textbook, textbookList, genOpNeg]
theorem textbook_add : (a.add b).textbook x = (a.textbook x).add (b.textbook x) := by
  simp [Expr.add, textbook, textbookList, genOpAdd]
theorem textbook_sub : (a.sub b).textbook x = (a.textbook x).sub (b.textbook x) := by
  simp [Expr.sub, textbook, textbookList, genOpSub]
theorem textbook_mul : (a.mul b).textbook x = ((a.textbook x).mul b).add (a.mul (b.textbook x)) := by
  simp [Expr.mul, textbook, textbookList, genOpMul]
theorem textbook_div : (a.div b).textbook x =
    (((a.textbook x).mul b).sub (a.mul (b.textbook x))).div (b.mul b) := by
  simp [Expr.div, textbook, textbookList, genOpDiv]
theorem textbook_sin : a.sin.textbook x = a.cos.mul (a.textbook x) := by
  simp [Expr.sin, textbook, textbookList, genOpSin]
theorem textbook_cos : a.cos.textbook x = a.sin.neg.mul (a.textbook x) := by
  simp [Expr.cos, textbook, textbookList, genOpCos]
theorem textbook_exp : a.exp.textbook x = (a.textbook x).mul a.exp := by
  simp [Expr.exp, textbook, textbookList, genOpExp]
theorem textbook_ln : a.ln.textbook x = (a.textbook x).div a := by
  simp [Expr.ln, textbook, textbookList, genOpLn]
theorem textbook_pow (h : Occurs x b) : (a.pow b).textbook x =
    (a.pow b).mul (((b.textbook x).mul a.ln).add ((b.mul (a.textbook x)).div a)) := by
  simp [Expr.pow, textbook, textbookList, genOpPow, h]
theorem textbook_pow_const (h : ¬ Occurs x b) : (a.pow b).textbook x =
    (a.pow b).mul ((b.mul (a.textbook x)).div a) := by
  simp [Expr.pow, textbook, textbookList, genOpPow, h]
end

theorem textbook_wf {P : SmartNum F → Prop} (h0 : P (.ofI64 0)) (h1 : P (.ofI64 1)) {x : Variable} {e : Expr F}
    (he : WF P e) : WF P (e.textbook x) := by
  have z : WF P (Expr.ofI64 0 : Expr F) := .num _ h0
  induction he with
  | num n _ => rw [textbook_ofNum]; exact z
  | var v =>
    by_cases h : x = v
    · subst h; rw [textbook_same]; exact .num _ h1
    · rw [textbook_other x h]; exact z
  | neg a _ i => rw [textbook_neg]; exact .neg _ i
  | sin a h i => rw [textbook_sin]; exact .mul _ _ (.cos _ h) i
  | cos a h i => rw [textbook_cos]; exact .mul _ _ (.neg _ (.sin _ h)) i
  | exp a h i => rw [textbook_exp]; exact .mul _ _ i (.exp _ h)
  | ln a h i => rw [textbook_ln]; exact .div _ _ i h
  | add a b _ _ i j => rw [textbook_add]; exact .add _ _ i j
  | sub a b _ _ i j => rw [textbook_sub]; exact .sub _ _ i j
  | mul a b h h' i j => rw [textbook_mul]; exact .add _ _ (.mul _ _ i h') (.mul _ _ h j)
  | div a b h h' i j => rw [textbook_div]; exact .div _ _ (.sub _ _ (.mul _ _ i h') (.mul _ _ h j)) (.mul _ _ h' h')
  | pow a b h h' i j =>
    by_cases hx : Occurs x b
    · rw [textbook_pow _ _ _ hx]
      exact .mul _ _ (.pow _ _ h h') (.add _ _ (.mul _ _ j (.ln _ h)) (.div _ _ (.mul _ _ h' i) h))
    · rw [textbook_pow_const _ _ _ hx]
      exact .mul _ _ (.pow _ _ h h') (.div _ _ (.mul _ _ h' i) h)

/-- The textbook rules compute derivatives. -/
theorem textbook_hasDerivative {ν : SmartNum F → Option ℝ} (h0 : ν (.ofI64 0) = some 0) (h1 : ν (.ofI64 1) = some 1)
    {x : Variable} {env : Env} {e : Expr F} (he : Tree e) {r d : ℝ} (hr : denote ν env e = some r)
    (hd : denote ν env (e.textbook x) = some d) : HasDerivative ν env x e d := by
  have z : denote ν env (Expr.ofI64 0 : Expr F) = some 0 := by rw [Expr.ofI64, denote_ofNum, h0]
  have o : denote ν env (Expr.ofI64 1 : Expr F) = some 1 := by rw [Expr.ofI64, denote_ofNum, h1]
  induction he generalizing r d with
  | num n _ =>
    rw [textbook_ofNum, z] at hd; cases hd
    exact hasDerivative_const r fun t => by rw [denote_ofNum] at *; exact hr
  | var v =>
    by_cases h : x = v
    · subst h
      rw [textbook_same, o] at hd; cases hd
      exact ⟨id, .of_forall fun t => by simp, hasDerivAt_id _⟩
    · rw [textbook_other x h, z] at hd; cases hd
      exact hasDerivative_const (env v) fun t => by rw [denote_ofVar, Env.set_ne _ _ (Ne.symm h)]
  | neg a _ i =>
    rw [textbook_neg] at hd
    obtain ⟨u, hu, rfl⟩ := denote_neg.1 hr
    obtain ⟨d, hD, rfl⟩ := denote_neg.1 hd
    obtain ⟨g, hg1, hg2, hg3⟩ := (i hu hD).at hu
    refine ⟨fun t => -g t, ?_, hg2.neg⟩
    filter_upwards [hg1] with t ht using denote_neg.2 ⟨_, ht, rfl⟩
  | add a b _ _ i j =>
    rw [textbook_add] at hd
    obtain ⟨u, v, hu, hv, rfl⟩ := denote_add.1 hr
    obtain ⟨d, d', hD, hd', rfl⟩ := denote_add.1 hd
    obtain ⟨g, hg1, hg2, hg3⟩ := (i hu hD).at hu
    obtain ⟨k, hk1, hk2, hk3⟩ := (j hv hd').at hv
    refine ⟨fun t => g t + k t, ?_, hg2.add hk2⟩
    filter_upwards [hg1, hk1] with t ht ht' using denote_add.2 ⟨_, _, ht, ht', rfl⟩
  | sub a b _ _ i j =>
    rw [textbook_sub] at hd
    obtain ⟨u, v, hu, hv, rfl⟩ := denote_sub.1 hr
    obtain ⟨d, d', hD, hd', rfl⟩ := denote_sub.1 hd
    obtain ⟨g, hg1, hg2, hg3⟩ := (i hu hD).at hu
    obtain ⟨k, hk1, hk2, hk3⟩ := (j hv hd').at hv
    refine ⟨fun t => g t - k t, ?_, hg2.sub hk2⟩
    filter_upwards [hg1, hk1] with t ht ht' using denote_sub.2 ⟨_, _, ht, ht', rfl⟩
  | mul a b _ _ i j =>
    rw [textbook_mul] at hd
    obtain ⟨u, v, hu, hv, rfl⟩ := denote_mul.1 hr
    obtain ⟨p, q, hp, hq, rfl⟩ := denote_add.1 hd
    obtain ⟨d, v', hD, hv', rfl⟩ := denote_mul.1 hp
    obtain ⟨u', d', hu', hd', rfl⟩ := denote_mul.1 hq
    rw [hv] at hv'; cases hv'
    rw [hu] at hu'; cases hu'
    obtain ⟨g, hg1, hg2, hg3⟩ := (i hu hD).at hu
    obtain ⟨k, hk1, hk2, hk3⟩ := (j hv hd').at hv
    refine ⟨fun t => g t * k t, ?_, ?_⟩
    · filter_upwards [hg1, hk1] with t ht ht' using denote_mul.2 ⟨_, _, ht, ht', rfl⟩
    · have := hg2.mul hk2
      rw [hg3, hk3] at this; exact this
  | div a b _ _ i j =>
    rw [textbook_div] at hd
    obtain ⟨u, v, hu, hv, hv0, rfl⟩ := denote_div.1 hr
    obtain ⟨w, w', hw, hw', -, rfl⟩ := denote_div.1 hd
    obtain ⟨p, q, hp, hq, rfl⟩ := denote_sub.1 hw
    obtain ⟨d, v', hD, hv', rfl⟩ := denote_mul.1 hp
    obtain ⟨u', d', hu', hd', rfl⟩ := denote_mul.1 hq
    obtain ⟨v1, v2, hv1, hv2, rfl⟩ := denote_mul.1 hw'
    rw [hv] at hv' hv1 hv2; cases hv'; cases hv1; cases hv2
    rw [hu] at hu'; cases hu'
    obtain ⟨g, hg1, hg2, hg3⟩ := (i hu hD).at hu
    obtain ⟨k, hk1, hk2, hk3⟩ := (j hv hd').at hv
    refine ⟨fun t => g t / k t, ?_, ?_⟩
    · have hne : ∀ᶠ t in 𝓝 (env x), k t ≠ 0 := hk2.continuousAt.eventually_ne (by rw [hk3]; exact hv0)
      filter_upwards [hg1, hk1, hne] with t ht ht' h0 using denote_div.2 ⟨_, _, ht, ht', h0, rfl⟩
    · have := hg2.div hk2 (by rw [hk3]; exact hv0)
      rw [hg3, hk3, pow_two] at this; exact this
  | sin a _ i =>
    rw [textbook_sin] at hd
    obtain ⟨u, hu, rfl⟩ := denote_sin.1 hr
    obtain ⟨p, d, hp, hD, rfl⟩ := denote_mul.1 hd
    obtain ⟨u', hu', rfl⟩ := denote_cos.1 hp
    rw [hu] at hu'; cases hu'
    obtain ⟨g, hg1, hg2, hg3⟩ := (i hu hD).at hu
    refine ⟨fun t => Real.sin (g t), ?_, ?_⟩
    · filter_upwards [hg1] with t ht using denote_sin.2 ⟨_, ht, rfl⟩
    · have := hg2.sin; rw [hg3] at this; exact this
  | cos a _ i =>
    rw [textbook_cos] at hd
    obtain ⟨u, hu, rfl⟩ := denote_cos.1 hr
    obtain ⟨p, d, hp, hD, rfl⟩ := denote_mul.1 hd
    obtain ⟨q, hq, rfl⟩ := denote_neg.1 hp
    obtain ⟨u', hu', rfl⟩ := denote_sin.1 hq
    rw [hu] at hu'; cases hu'
    obtain ⟨g, hg1, hg2, hg3⟩ := (i hu hD).at hu
    refine ⟨fun t => Real.cos (g t), ?_, ?_⟩
    · filter_upwards [hg1] with t ht using denote_cos.2 ⟨_, ht, rfl⟩
    · have := hg2.cos; rw [hg3] at this; exact this
  | exp a _ i =>
    rw [textbook_exp] at hd
    obtain ⟨d, p, hD, hp, rfl⟩ := denote_mul.1 hd
    obtain ⟨u, hu, rfl⟩ := denote_exp.1 hr
    obtain ⟨u', hu', rfl⟩ := denote_exp.1 hp
    rw [hu] at hu'; cases hu'
    obtain ⟨g, hg1, hg2, hg3⟩ := (i hu hD).at hu
    refine ⟨fun t => Real.exp (g t), ?_, ?_⟩
    · filter_upwards [hg1] with t ht using denote_exp.2 ⟨_, ht, rfl⟩
    · have := hg2.exp; rw [hg3, mul_comm] at this; exact this
  | ln a _ i =>
    rw [textbook_ln] at hd
    obtain ⟨u, hu, hu0, rfl⟩ := denote_ln.1 hr
    obtain ⟨d, u', hD, hu', -, rfl⟩ := denote_div.1 hd
    rw [hu] at hu'; cases hu'
    obtain ⟨g, hg1, hg2, hg3⟩ := (i hu hD).at hu
    refine ⟨fun t => Real.log (g t), ?_, ?_⟩
    · have hpos : ∀ᶠ t in 𝓝 (env x), 0 < g t := hg2.continuousAt.tendsto.eventually_const_lt (by rw [hg3]; exact hu0)
      filter_upwards [hg1, hpos] with t ht h0 using denote_ln.2 ⟨_, ht, h0, rfl⟩
    · have := hg2.log (by rw [hg3]; exact hu0.ne'); rw [hg3] at this; exact this
  | pow a b ha hb i j =>
    obtain ⟨u, v, hu, hv, huv⟩ := denote_pow.1 hr
    by_cases hx : Occurs x b
    · rw [textbook_pow _ _ _ hx] at hd
      obtain ⟨r', p, hr', hp, rfl⟩ := denote_mul.1 hd
      rw [hr] at hr'; cases hr'
      obtain ⟨p, q, hp1, hq, rfl⟩ := denote_add.1 hp
      obtain ⟨d', l, hd', hl, rfl⟩ := denote_mul.1 hp1
      obtain ⟨u', hu', hpos, rfl⟩ := denote_ln.1 hl
      rw [hu] at hu'; cases hu'
      obtain ⟨q, u', hq1, hu', -, rfl⟩ := denote_div.1 hq
      rw [hu] at hu'; cases hu'
      obtain ⟨v', d, hv', hD, rfl⟩ := denote_mul.1 hq1
      rw [hv] at hv'; cases hv'
      obtain ⟨g, hg1, hg2, hg3⟩ := (i hu hD).at hu
      obtain ⟨k, hk1, hk2, hk3⟩ := (j hv hd').at hv
      rw [powValue_pos hpos] at huv
      cases huv
      refine ⟨fun t => g t ^ k t, ?_, ?_⟩
      · have hgp : ∀ᶠ t in 𝓝 (env x), 0 < g t := hg2.continuousAt.tendsto.eventually_const_lt (by rw [hg3]; exact hpos)
        filter_upwards [hg1, hk1, hgp] with t ht ht' h0 using denote_pow.2 ⟨_, _, ht, ht', powValue_pos h0⟩
      · have := hg2.rpow hk2 (by rw [hg3]; exact hpos)
        rw [hg3, hk3, Real.rpow_sub_one hpos.ne'] at this
        convert this using 1
        field_simp; ring
    · rw [textbook_pow_const _ _ _ hx] at hd
      obtain ⟨r', p, hr', hp, rfl⟩ := denote_mul.1 hd
      rw [hr] at hr'; cases hr'
      obtain ⟨q, u', hq, hu', hu0, rfl⟩ := denote_div.1 hp
      rw [hu] at hu'; cases hu'
      obtain ⟨v', d, hv', hD, rfl⟩ := denote_mul.1 hq
      rw [hv] at hv'; cases hv'
      obtain ⟨g, hg1, hg2, hg3⟩ := (i hu hD).at hu
      rcases lt_or_gt_of_ne hu0 with hneg | hpos
      · obtain ⟨n, rfl⟩ := powValue_neg hneg huv
        rw [powValue_int hneg] at huv
        cases huv
        refine ⟨fun t => g t ^ n, ?_, ?_⟩
        · have hgn : ∀ᶠ t in 𝓝 (env x), g t < 0 :=
            hg2.continuousAt.tendsto.eventually_lt_const (by rw [hg3]; exact hneg)
          filter_upwards [hg1, hgn] with t ht h0
          exact denote_pow.2 ⟨_, _, ht, by rw [denote_absent hb hx]; exact hv, powValue_int h0 n⟩
        · have := (hasDerivAt_zpow n (g (env x)) (.inl (by rw [hg3]; exact hneg.ne))).comp (env x) hg2
          rw [hg3, zpow_sub_one₀ hneg.ne] at this
          have heq : u ^ n * (n * d / u) = n * (u ^ n * u⁻¹) * d := by ring
          rw [heq]; exact this
      · rw [powValue_pos hpos] at huv
        cases huv
        refine ⟨fun t => g t ^ v, ?_, ?_⟩
        · have hgp : ∀ᶠ t in 𝓝 (env x), 0 < g t :=
            hg2.continuousAt.tendsto.eventually_const_lt (by rw [hg3]; exact hpos)
          filter_upwards [hg1, hgp] with t ht h0
          exact denote_pow.2 ⟨_, _, ht, by rw [denote_absent hb hx]; exact hv, powValue_pos h0⟩
        · have := hg2.rpow_const (p := v) (.inl (by rw [hg3]; exact hpos.ne'))
          rw [hg3, Real.rpow_sub_one hpos.ne'] at this
          convert this using 1
          field_simp

end SymRust
