import Verif.Proofs.AggSound
/-! The restrictions of C20/C30 and their closure properties. -/

namespace SymRust
variable {F : Type}
open Expr

section
variable {P : Expr F → Prop}

/-- A predicate on subexpressions that only restricts some operators. -/
theorem Everywhere.mono {Q : Expr F → Prop} (h : ∀ s, P s → Q s) {e : Expr F} (he : Everywhere P e) :
    Everywhere Q e := fun s hs => h s (he s hs)

theorem everywhere_and {Q : Expr F → Prop} {e : Expr F} :
    Everywhere (fun s => P s ∧ Q s) e ↔ Everywhere P e ∧ Everywhere Q e :=
  ⟨fun h => ⟨fun s hs => (h s hs).1, fun s hs => (h s hs).2⟩, fun h s hs => ⟨h.1 s hs, h.2 s hs⟩⟩
end

/-- not an `ln` -/
def NotLn (s : Expr F) : Prop := ∀ c : Expr F, s ≠ c.ln

theorem noLn_iff {e : Expr F} : NoLn e ↔ Everywhere NotLn e :=
  ⟨fun h s hs c hc => h c (hc ▸ hs), fun h a ha => h _ ha a rfl⟩

section
variable (a b : Expr F) (n : SmartNum F) (v : Variable)
theorem notLn_ofNum : NotLn (ofNum n) := by intro c h; expr_inj at h
theorem notLn_ofVar : NotLn (ofVar v : Expr F) := by intro c h; expr_inj at h
theorem notLn_neg : NotLn a.neg := by intro c h; expr_inj at h
theorem notLn_sin : NotLn a.sin := by intro c h; expr_inj at h
theorem notLn_cos : NotLn a.cos := by intro c h; expr_inj at h
theorem notLn_exp : NotLn a.exp := by intro c h; expr_inj at h
theorem notLn_add : NotLn (a.add b) := by intro c h; expr_inj at h
theorem notLn_sub : NotLn (a.sub b) := by intro c h; expr_inj at h
theorem notLn_mul : NotLn (a.mul b) := by intro c h; expr_inj at h
theorem notLn_div : NotLn (a.div b) := by intro c h; expr_inj at h
theorem notLn_pow : NotLn (a.pow b) := by intro c h; expr_inj at h
theorem not_notLn : ¬ NotLn a.ln := fun h => h a rfl
end

theorem Agg.noLn [FloatOps F] {m : Mode} {e e' : Expr F} (h : Agg m e e') (hs : Everywhere NotLn e) :
    Everywhere NotLn e' := by
  induction h with
  | exp_ln h1 ih => exact (everywhere_ln.1 (ih (everywhere_exp.1 hs).2)).2
  | pow_ln h1 _ i j => exact (everywhere_ln.1 (i (everywhere_pow.1 hs).2.1)).2
  | _ =>
   simp_all only [everywhere_ofNum, everywhere_ofVar, everywhere_neg, everywhere_add, everywhere_sub, everywhere_mul,
    everywhere_div, everywhere_sin, everywhere_cos, everywhere_exp, everywhere_ln, everywhere_pow, ofI64, Expr.e,
    notLn_ofNum, notLn_ofVar, notLn_neg, notLn_sin, notLn_cos, notLn_exp, notLn_add, notLn_sub, notLn_mul, notLn_div,
    notLn_pow, not_notLn, true_and, and_self, false_and, and_true]

section
variable (ν : SmartNum F → Option ℝ) (E : Set Env) (a b : Expr F) (n : SmartNum F) (v : Variable)
local macro "safe" : tactic =>
  `(tactic| constructor <;> · intro x; intros; rename_i h; expr_inj at h)
theorem safeAt_ofNum : SafeAt ν E (ofNum n) := by safe
theorem safeAt_ofVar : SafeAt ν E (ofVar v) := by safe
theorem safeAt_neg : SafeAt ν E a.neg := by safe
theorem safeAt_sin : SafeAt ν E a.sin := by safe
theorem safeAt_exp : SafeAt ν E a.exp := by safe
theorem safeAt_ln : SafeAt ν E a.ln := by safe
theorem safeAt_add : SafeAt ν E (a.add b) := by safe
theorem safeAt_sub : SafeAt ν E (a.sub b) := by safe
theorem safeAt_mul : SafeAt ν E (a.mul b) := by safe
theorem safeAt_div : SafeAt ν E (a.div b) := by safe
theorem safeAt_cos : SafeAt ν E a.cos ↔ Avoids ν E a Real.pi := by
  constructor
  · intro h; exact h.cos _ rfl
  · intro h
    constructor
    · intro c hc; expr_inj at hc; subst hc; exact h
    all_goals (intro c d hc; expr_inj at hc)
theorem safeAt_pow : SafeAt ν E (a.pow b) ↔ Avoids ν E a 0 ∧ Avoids ν E a 1 ∧ Everywhere NotLn a := by
  rw [← noLn_iff]
  constructor
  · intro h; exact ⟨h.pow_zero _ _ rfl, h.pow_one _ _ rfl, h.pow_ln _ _ rfl⟩
  · intro h
    constructor
    · intro c hc; expr_inj at hc
    all_goals (intro c d hc; expr_inj at hc; obtain ⟨rfl, rfl⟩ := hc)
    exacts [h.1, h.2.1, h.2.2]
end

section
variable {ν : SmartNum F → Option ℝ} {E : Set Env} {a b : Expr F}

theorem safe_ofNum (n : SmartNum F) : Safe ν E (ofNum n) := everywhere_ofNum.2 (safeAt_ofNum ..)
theorem safe_ofVar (v : Variable) : Safe ν E (ofVar v) := everywhere_ofVar.2 (safeAt_ofVar ..)
theorem safe_neg : Safe ν E a.neg ↔ Safe ν E a := by simp [Safe, everywhere_neg, safeAt_neg]
theorem safe_sin : Safe ν E a.sin ↔ Safe ν E a := by simp [Safe, everywhere_sin, safeAt_sin]
theorem safe_exp : Safe ν E a.exp ↔ Safe ν E a := by simp [Safe, everywhere_exp, safeAt_exp]
theorem safe_ln : Safe ν E a.ln ↔ Safe ν E a := by simp [Safe, everywhere_ln, safeAt_ln]
theorem safe_add : Safe ν E (a.add b) ↔ Safe ν E a ∧ Safe ν E b := by simp [Safe, everywhere_add, safeAt_add]
theorem safe_sub : Safe ν E (a.sub b) ↔ Safe ν E a ∧ Safe ν E b := by simp [Safe, everywhere_sub, safeAt_sub]
theorem safe_mul : Safe ν E (a.mul b) ↔ Safe ν E a ∧ Safe ν E b := by simp [Safe, everywhere_mul, safeAt_mul]
theorem safe_div : Safe ν E (a.div b) ↔ Safe ν E a ∧ Safe ν E b := by simp [Safe, everywhere_div, safeAt_div]
theorem safe_cos : Safe ν E a.cos ↔ Avoids ν E a Real.pi ∧ Safe ν E a := by
  simp [Safe, everywhere_cos, safeAt_cos]
theorem safe_pow : Safe ν E (a.pow b) ↔ (Avoids ν E a 0 ∧ Avoids ν E a 1 ∧ Everywhere NotLn a) ∧
    Safe ν E a ∧ Safe ν E b := by
  simp [Safe, everywhere_pow, safeAt_pow]

theorem Avoids.mono {E' : Set Env} (h : E ⊆ E') {c : ℝ} (ha : Avoids ν E a c) : Avoids ν E' a c := by
  obtain ⟨env, he, r, hr, hc⟩ := ha
  exact ⟨env, h he, r, hr, hc⟩

theorem Safe.mono {E' : Set Env} (h : E ⊆ E') {e : Expr F} (he : Safe ν E e) : Safe ν E' e :=
  Everywhere.mono (fun _ hs => ⟨fun a ha => (hs.cos a ha).mono h, fun a b ha => (hs.pow_zero a b ha).mono h,
    fun a b ha => (hs.pow_one a b ha).mono h, hs.pow_ln⟩) he
end

variable [ExactFloat F]

theorem Avoids.sound {E : Set Env} {a a' : Expr F} {c : ℝ} (hs : Sound a a') (h : Avoids SmartNum.value? E a c) :
    Avoids SmartNum.value? E a' c := by
  obtain ⟨env, he, r, hr, hc⟩ := h
  exact ⟨env, he, r, hs env r hr, hc⟩

theorem not_avoids_num {E : Set Env} {n : SmartNum F} {c : ℝ} (hn : n.value? = some c) :
    ¬ Avoids SmartNum.value? E (ofNum n) c := by
  rintro ⟨env, -, r, hr, hc⟩
  rw [denote_ofNum, hn] at hr
  cases hr; exact hc rfl

section
variable (m : Mode) (a b : Expr F) (n : SmartNum F) (v : Variable)
local macro "rsafe" : tactic =>
  `(tactic| constructor <;> · intros; rename_i h _; expr_inj at h)
theorem ruleSafeAt_ofNum : RuleSafeAt m (ofNum n) := by rsafe
theorem ruleSafeAt_ofVar : RuleSafeAt m (ofVar v : Expr F) := by rsafe
theorem ruleSafeAt_neg : RuleSafeAt m a.neg := by rsafe
theorem ruleSafeAt_sin : RuleSafeAt m a.sin := by rsafe
theorem ruleSafeAt_exp : RuleSafeAt m a.exp := by rsafe
theorem ruleSafeAt_ln : RuleSafeAt m a.ln := by rsafe
theorem ruleSafeAt_add : RuleSafeAt m (a.add b) := by rsafe
theorem ruleSafeAt_sub : RuleSafeAt m (a.sub b) := by rsafe
theorem ruleSafeAt_mul : RuleSafeAt m (a.mul b) := by rsafe
theorem ruleSafeAt_div : RuleSafeAt m (a.div b) := by rsafe
end

theorem Safe.ruleSafe {E : Set Env} {e : Expr F} (he : WF SmartNum.Valid e) (hs : Safe SmartNum.value? E e) :
    RuleSafe .strict e := by
  have NC := numClosed_valid (F := F) .strict
  induction he with
  | num n _ => exact everywhere_ofNum.2 (ruleSafeAt_ofNum ..)
  | var v => exact everywhere_ofVar.2 (ruleSafeAt_ofVar ..)
  | neg a h i => exact everywhere_neg.2 ⟨ruleSafeAt_neg .., i (safe_neg.1 hs)⟩
  | sin a h i => exact everywhere_sin.2 ⟨ruleSafeAt_sin .., i (safe_sin.1 hs)⟩
  | exp a h i => exact everywhere_exp.2 ⟨ruleSafeAt_exp .., i (safe_exp.1 hs)⟩
  | ln a h i => exact everywhere_ln.2 ⟨ruleSafeAt_ln .., i (safe_ln.1 hs)⟩
  | add a b h h' i j => exact everywhere_add.2 ⟨ruleSafeAt_add .., i (safe_add.1 hs).1, j (safe_add.1 hs).2⟩
  | sub a b h h' i j => exact everywhere_sub.2 ⟨ruleSafeAt_sub .., i (safe_sub.1 hs).1, j (safe_sub.1 hs).2⟩
  | mul a b h h' i j => exact everywhere_mul.2 ⟨ruleSafeAt_mul .., i (safe_mul.1 hs).1, j (safe_mul.1 hs).2⟩
  | div a b h h' i j => exact everywhere_div.2 ⟨ruleSafeAt_div .., i (safe_div.1 hs).1, j (safe_div.1 hs).2⟩
  | cos a h i =>
    obtain ⟨h1, h2⟩ := safe_cos.1 hs
    refine everywhere_cos.2 ⟨⟨?_, ?_⟩, i h2⟩
    · intro c c' hc hn
      expr_inj at hc
      subst hc
      have hag := agg_of_numAggregate h.tree hn
      by_contra hp
      have hp : c'.isPi = true := by simpa using hp
      have hw := hag.wf NC h
      have hnum : c'.isNum = true := by
        cases hw <;> first | rfl | cases hp
      obtain ⟨n, hv, rfl⟩ := hw.num_of_isNum hnum
      exact not_avoids_num (hv.value_pi hp) (h1.sound (agg_sound hag h (i h2)))
    · intro c d c' hc; expr_inj at hc
  | pow a b h h' i j =>
    obtain ⟨⟨h0, h1, h2⟩, h3, h4⟩ := safe_pow.1 hs
    refine everywhere_pow.2 ⟨⟨?_, ?_⟩, i h3, j h4⟩
    · intro c c' hc; expr_inj at hc
    · intro c d c' hc hn
      expr_inj at hc
      obtain ⟨rfl, rfl⟩ := hc
      have hag := agg_of_numAggregate h.tree hn
      have hw := hag.wf NC h
      have hsd := agg_sound hag h (i h3)
      refine ⟨?_, ?_, ?_⟩
      · by_contra hp
        have hp : c'.isZero = true := by simpa using hp
        obtain ⟨n, hv, rfl⟩ := hw.num_of_isNum (isZero_isNum hp)
        exact not_avoids_num (hv.value_zero hp) (h0.sound hsd)
      · by_contra hp
        have hp : c'.isOne = true := by simpa using hp
        obtain ⟨n, hv, rfl⟩ := hw.num_of_isNum (isOne_isNum hp)
        exact not_avoids_num (hv.value_one hp) (h1.sound hsd)
      · exact (hag.noLn h2).root

/-- Soundness under the semantic restriction. -/
theorem agg_sound' {E : Set Env} {e e' : Expr F} (h : Agg .strict e e') (he : WF SmartNum.Valid e)
    (hs : Safe SmartNum.value? E e) : Sound e e' := agg_sound h he (hs.ruleSafe he)

theorem Agg.safe {E : Set Env} {e e' : Expr F} (h : Agg .strict e e') (he : WF SmartNum.Valid e)
    (hs : Safe SmartNum.value? E e) : Safe SmartNum.value? E e' := by
  induction h with
  | cos h1 _ _ ih =>
    have hw := WF.cos_iff.1 he
    obtain ⟨h2, h3⟩ := safe_cos.1 hs
    exact safe_cos.2 ⟨h2.sound (agg_sound' h1 hw h3), ih hw h3⟩
  | pow h1 h2 _ _ _ i j =>
    have hw := WF.pow_iff.1 he
    obtain ⟨⟨k0, k1, k2⟩, k3, k4⟩ := safe_pow.1 hs
    have hsd := agg_sound' h1 hw.1 k3
    exact safe_pow.2 ⟨⟨k0.sound hsd, k1.sound hsd, h1.noLn k2⟩, i hw.1 k3, j hw.2 k4⟩
  | _ =>
    simp_all [WF.neg_iff, WF.add_iff, WF.sub_iff, WF.mul_iff, WF.div_iff, WF.sin_iff, WF.cos_iff, WF.exp_iff,
      WF.ln_iff, WF.pow_iff, safe_ofNum, safe_ofVar, safe_neg, safe_add, safe_sub, safe_mul, safe_div, safe_sin,
      safe_exp, safe_ln, safe_pow, safe_cos, ofI64, Expr.e]

/-- no `sin` argument is constantly π -/
def SinAt (ν : SmartNum F → Option ℝ) (E : Set Env) (s : Expr F) : Prop :=
  ∀ a : Expr F, s = a.sin → Avoids ν E a Real.pi

end SymRust
