import Verif.Proofs.EncloseTaylor
import Verif.Proofs.RoundArith
/-! # Enclosures from error bounds; arithmetic expressions -/

namespace SymRust
variable {F : Type} [FloatOps F] {R : Rounding F} {a b e e' : Expr F} {x : Variable} {V : Ranges} {S : Set ℝ}
open Expr

/-! ### enclosures from error bounds -/

namespace Rounding

/-- The ranges that contain just the values of `env`. -/
def point (env : Env) : Ranges := fun v => {env v}

theorem mem_point (env : Env) : env ∈ (point env).envs := fun _ => rfl

theorem blur_ball {w r D : ℝ} (h : |w - r| ≤ D) : R.blur w ⊆ {z | |z - r| ≤ R.widen r D} := by
  intro z hz
  have hz : |z - w| ≤ 8 * R.u * |w| + 4 * R.η := hz
  have h1 : |w| ≤ |r| + D := by
    have := abs_add_le (w - r) r
    simp only [sub_add_cancel] at this
    linarith
  have h2 : |z - r| ≤ |z - w| + |w - r| := by
    have := abs_add_le (z - w) (w - r)
    simpa using this
  have h3 : 8 * R.u * |w| ≤ 8 * R.u * (|r| + D) := mul_le_mul_of_nonneg_left h1 (by linarith [R.u_nonneg])
  show |z - r| ≤ D + (8 * R.u * (|r| + D) + 4 * R.η)
  linarith

/-- An error bound is an enclosure. -/
theorem Within.encloses {env : Env} {r E : ℝ} (h : R.Within env e r E) :
    R.Encloses (point env) e {z | |z - r| ≤ E} := by
  induction h with
  | num n r h => exact .num n r _ h (blur_ball (by simp))
  | var v => exact .var v _ (by rintro _ rfl; simp)
  | unary op a r₁ E₁ r D _ _ h i =>
    refine .unary op a _ _ i fun y hy => ?_
    obtain ⟨w, h1, h2⟩ := h y hy
    exact ⟨w, h1, blur_ball h2⟩
  | binary op a b r₁ E₁ r₂ E₂ r D _ _ _ h i j =>
    refine .binary op a b _ _ _ i j fun y hy z hz => ?_
    obtain ⟨w, h1, h2, h3⟩ := h y z hy hz
    exact ⟨w, h1, blur_ball h2, h3⟩

theorem Within.denote {env : Env} {r E : ℝ} (h : R.Within env e r E) : denote R.real? env e = some r := by
  induction h with
  | num n r h => rw [denote_ofNum]; exact h
  | var v => simp
  | unary op a r₁ E₁ r D _ h _ i => simp [Expr.denote, denoteList, i, h]
  | binary op a b r₁ E₁ r₂ E₂ r D _ _ h _ i j => simp [Expr.denote, denoteList, i, j, h]

/-! ### undoing a substitution -/

theorem Encloses.num_inv {n : SmartNum F} (h : R.Encloses V (ofNum n) S) : ∃ r, R.real? n = some r ∧ R.blur r ⊆ S := by
  generalize he : ofNum n = e at h
  cases h with
  | num n' r _ h1 h2 =>
    simp only [ofNum, Expr.mk.injEq, AstNode.operand.injEq, AstOperand.num.injEq, and_true] at he; subst he; exact ⟨r, h1, h2⟩
  | var => simp [ofNum, ofVar, newVariable] at he
  | unary => simp [ofNum] at he
  | binary => simp [ofNum] at he

theorem Encloses.var_inv {v : Variable} (h : R.Encloses V (ofVar v) S) : V v ⊆ S := by
  generalize he : ofVar v = e at h
  cases h with
  | num => simp [ofNum, ofVar, newVariable] at he
  | var v' _ h =>
    simp only [ofVar, newVariable, Expr.mk.injEq, AstNode.operand.injEq, AstOperand.var.injEq, and_true] at he
    cases v; cases v'; simp only [Variable.mk.injEq] at he; subst he; exact h
  | unary => simp [ofVar, newVariable] at he
  | binary => simp [ofVar, newVariable] at he

theorem Encloses.unary_inv {op : AstOperator} (h : R.Encloses V (.mk (.operator op) [a]) S) :
    ∃ S₁, R.Encloses V a S₁ ∧ ∀ x ∈ S₁, ∃ w, opValue op.descriptor [some x] = some w ∧ R.blur w ⊆ S := by
  generalize he : Expr.mk (.operator op) [a] = e at h
  cases h with
  | num n => simp [ofNum] at he
  | var v => simp [ofVar, newVariable] at he
  | unary op' a' S₁ _ h1 h2 => simp at he; obtain ⟨rfl, rfl⟩ := he; exact ⟨S₁, h1, h2⟩
  | binary => simp at he

theorem Encloses.binary_inv {op : AstOperator} (h : R.Encloses V (.mk (.operator op) [a, b]) S) :
    ∃ S₁ S₂, R.Encloses V a S₁ ∧ R.Encloses V b S₂ ∧
      ∀ x ∈ S₁, ∀ y ∈ S₂, ∃ w, opValue op.descriptor [some x, some y] = some w ∧ R.blur w ⊆ S ∧
        (Computed op.descriptor → |w| ≤ R.big) := by
  generalize he : Expr.mk (.operator op) [a, b] = e at h
  cases h with
  | num n => simp [ofNum] at he
  | var v => simp [ofVar, newVariable] at he
  | unary => simp at he
  | binary op' a' b' S₁ S₂ _ h1 h2 h3 => simp at he; obtain ⟨rfl, rfl, rfl⟩ := he; exact ⟨S₁, S₂, h1, h2, h3⟩

theorem Encloses.unreplace (he : Tree e) {n : SmartNum F} {p : ℝ} (hp : R.real? n = some p)
    (h : R.Encloses V (e.replace x (ofNum n)) S) : R.Encloses (V.set x (R.blur p)) e S := by
  have un : ∀ {op : AstOperator} {a a' : Expr F} {S : Set ℝ},
      (∀ {S}, R.Encloses V a' S → R.Encloses (V.set x (R.blur p)) a S) →
      R.Encloses V (.mk (.operator op) [a']) S → R.Encloses (V.set x (R.blur p)) (.mk (.operator op) [a]) S := by
    intro op a a' S i h
    obtain ⟨S₁, h1, h2⟩ := h.unary_inv
    exact .unary _ _ _ _ (i h1) h2
  have bi : ∀ {op : AstOperator} {a a' b b' : Expr F} {S : Set ℝ},
      (∀ {S}, R.Encloses V a' S → R.Encloses (V.set x (R.blur p)) a S) →
      (∀ {S}, R.Encloses V b' S → R.Encloses (V.set x (R.blur p)) b S) →
      R.Encloses V (.mk (.operator op) [a', b']) S → R.Encloses (V.set x (R.blur p)) (.mk (.operator op) [a, b]) S := by
    intro op a a' b b' S i j h
    obtain ⟨S₁, S₂, h1, h2, h3⟩ := h.binary_inv
    exact .binary _ _ _ _ _ _ (i h1) (j h2) h3
  induction he generalizing S with
  | num n' _ =>
    rw [replace_ofNum] at h
    obtain ⟨r, h1, h2⟩ := h.num_inv
    exact .num _ _ _ h1 h2
  | var y =>
    rw [replace_ofVar] at h
    by_cases hy : y = x
    · subst hy
      simp only [if_true] at h
      obtain ⟨r, h1, h2⟩ := h.num_inv
      rw [hp] at h1; cases h1
      exact .var _ _ (by rw [ranges_set_same]; exact h2)
    · simp only [hy, if_false] at h
      exact .var _ _ (by rw [ranges_set_ne hy]; exact h.var_inv)
  | neg a _ i => rw [replace_neg] at h; exact un i h
  | sin a _ i => rw [replace_sin] at h; exact un i h
  | cos a _ i => rw [replace_cos] at h; exact un i h
  | exp a _ i => rw [replace_exp] at h; exact un i h
  | ln a _ i => rw [replace_ln] at h; exact un i h
  | add a b _ _ i j => rw [replace_add] at h; exact bi i j h
  | sub a b _ _ i j => rw [replace_sub] at h; exact bi i j h
  | mul a b _ _ i j => rw [replace_mul] at h; exact bi i j h
  | div a b _ _ i j => rw [replace_div] at h; exact bi i j h
  | pow a b _ _ i j => rw [replace_pow] at h; exact bi i j h

end Rounding

/-! ### arithmetic expressions -/

/-- No function or power at the root. -/
structure ArithAt (s : Expr F) : Prop where
  sin : ∀ a : Expr F, s ≠ a.sin
  cos : ∀ a : Expr F, s ≠ a.cos
  exp : ∀ a : Expr F, s ≠ a.exp
  ln : ∀ a : Expr F, s ≠ a.ln
  pow : ∀ a b : Expr F, s ≠ a.pow b

def NoFn (e : Expr F) : Prop := Everywhere ArithAt e

section
omit [FloatOps F]
local macro "cl" : tactic => `(tactic| constructor <;> · intros; intro h; expr_inj at h)
theorem noFn_ofNum (n : SmartNum F) : NoFn (ofNum n) := everywhere_ofNum.2 (by cl)
theorem noFn_ofVar (v : Variable) : NoFn (ofVar v : Expr F) := everywhere_ofVar.2 (by cl)
theorem noFn_neg : NoFn a.neg ↔ NoFn a := everywhere_neg.trans ⟨fun h => h.2, fun h => ⟨by cl, h⟩⟩
theorem noFn_add : NoFn (a.add b) ↔ NoFn a ∧ NoFn b := everywhere_add.trans ⟨fun h => h.2, fun h => ⟨by cl, h⟩⟩
theorem noFn_sub : NoFn (a.sub b) ↔ NoFn a ∧ NoFn b := everywhere_sub.trans ⟨fun h => h.2, fun h => ⟨by cl, h⟩⟩
theorem noFn_mul : NoFn (a.mul b) ↔ NoFn a ∧ NoFn b := everywhere_mul.trans ⟨fun h => h.2, fun h => ⟨by cl, h⟩⟩
theorem noFn_div : NoFn (a.div b) ↔ NoFn a ∧ NoFn b := everywhere_div.trans ⟨fun h => h.2, fun h => ⟨by cl, h⟩⟩
theorem noFn_sin : NoFn a.sin ↔ False := ⟨fun h => (everywhere_sin.1 h).1.sin _ rfl, False.elim⟩
theorem noFn_cos : NoFn a.cos ↔ False := ⟨fun h => (everywhere_cos.1 h).1.cos _ rfl, False.elim⟩
theorem noFn_exp : NoFn a.exp ↔ False := ⟨fun h => (everywhere_exp.1 h).1.exp _ rfl, False.elim⟩
theorem noFn_ln : NoFn a.ln ↔ False := ⟨fun h => (everywhere_ln.1 h).1.ln _ rfl, False.elim⟩
theorem noFn_pow : NoFn (a.pow b) ↔ False := ⟨fun h => (everywhere_pow.1 h).1.pow _ _ rfl, False.elim⟩
end

theorem Agg.noFn {m : Mode} (h : Agg m e e') (hs : NoFn e) : NoFn e' := by
  induction h with
  | _ =>
    simp_all [noFn_ofNum, noFn_ofVar, noFn_neg, noFn_add, noFn_sub, noFn_mul, noFn_div, noFn_sin, noFn_cos, noFn_exp,
      noFn_ln, noFn_pow, ofI64]

theorem Der.noFn {m : Mode} {y : Variable} (h : Der m y e e') (hs : NoFn e) : NoFn e' := by
  induction h with
  | num n => exact noFn_ofNum _
  | var => exact noFn_ofNum _
  | var_ne y h => exact noFn_ofNum _
  | neg h1 hg i => exact hg.noFn (noFn_neg.2 (i (noFn_neg.1 hs)))
  | add h1 h2 hg i j => have hs := noFn_add.1 hs; exact hg.noFn (noFn_add.2 ⟨i hs.1, j hs.2⟩)
  | sub h1 h2 hg i j => have hs := noFn_sub.1 hs; exact hg.noFn (noFn_sub.2 ⟨i hs.1, j hs.2⟩)
  | mul h1 h2 hg i j =>
    have hs := noFn_mul.1 hs
    exact hg.noFn (noFn_add.2 ⟨noFn_mul.2 ⟨i hs.1, hs.2⟩, noFn_mul.2 ⟨hs.1, j hs.2⟩⟩)
  | div h1 h2 hg i j =>
    have hs := noFn_div.1 hs
    exact hg.noFn (noFn_div.2 ⟨noFn_sub.2 ⟨noFn_mul.2 ⟨i hs.1, hs.2⟩, noFn_mul.2 ⟨hs.1, j hs.2⟩⟩, noFn_mul.2 ⟨hs.2, hs.2⟩⟩)
  | sin h1 hg i => exact (noFn_sin.1 hs).elim
  | cos h1 hg i => exact (noFn_cos.1 hs).elim
  | exp h1 hg i => exact (noFn_exp.1 hs).elim
  | ln h1 hg i => exact (noFn_ln.1 hs).elim
  | pow h1 h2 hg i j => exact (noFn_pow.1 hs).elim

theorem nthDerivative_noFn {m : Mode} {d : Expr F} (he : Tree e) (hs : NoFn e) (hx : ∀ y, Occurs y e → y = x) (k : Nat)
    (h : nthDerivative m e x k = .ok d) : Tree d ∧ NoFn d ∧ ∀ y, Occurs y d → y = x := by
  induction k generalizing d with
  | zero => cases h; exact ⟨he, hs, hx⟩
  | succ k i =>
    obtain ⟨d', h1, h2⟩ := Out.bind_eq_ok.1 h
    obtain ⟨w, l, o⟩ := i h1
    have hd := der_of_derivative w h2
    exact ⟨hd.wf (numClosed_true m) w, hd.noFn l, fun y hy => o y (hd.occurs hy)⟩

/-- An arithmetic expression without variables folds to a number. -/
theorem Agg.number {m : Mode} (h : Agg m e e') (hs : NoFn e) (hx : ∀ y, ¬ Occurs y e) : ∃ n, e' = ofNum n := by
  induction h with
  | num n => exact ⟨n, rfl⟩
  | var v => exact absurd ((occurs_ofVar _ _).2 rfl) (hx v)
  | neg_num | add_num | sub_num | mul_num | div_num => exact ⟨_, rfl⟩
  | mul_zero_l | mul_zero_r | div_zero_l => exact ⟨_, rfl⟩
  | neg_neg h i =>
    obtain ⟨n, hn⟩ := i (noFn_neg.1 hs) fun y hy => hx y ((occurs_neg _ _).2 hy)
    expr_inj at hn
  | neg h h1 _ i =>
    obtain ⟨n, rfl⟩ := i (noFn_neg.1 hs) fun y hy => hx y ((occurs_neg _ _).2 hy)
    simp at h1
  | add_zero_l _ _ _ _ _ j => exact j (noFn_add.1 hs).2 fun y hy => hx y ((occurs_add _ _ _).2 (.inr hy))
  | add_zero_r _ _ _ _ i _ => exact i (noFn_add.1 hs).1 fun y hy => hx y ((occurs_add _ _ _).2 (.inl hy))
  | add _ _ h1 _ _ i j =>
    obtain ⟨n, rfl⟩ := i (noFn_add.1 hs).1 fun y hy => hx y ((occurs_add _ _ _).2 (.inl hy))
    obtain ⟨k, rfl⟩ := j (noFn_add.1 hs).2 fun y hy => hx y ((occurs_add _ _ _).2 (.inr hy))
    simp at h1
  | sub_zero_l _ _ _ h1 _ j =>
    obtain ⟨k, rfl⟩ := j (noFn_sub.1 hs).2 fun y hy => hx y ((occurs_sub _ _ _).2 (.inr hy))
    simp at h1
  | sub_zero_r _ _ _ _ i _ => exact i (noFn_sub.1 hs).1 fun y hy => hx y ((occurs_sub _ _ _).2 (.inl hy))
  | sub _ _ h1 _ _ i j =>
    obtain ⟨n, rfl⟩ := i (noFn_sub.1 hs).1 fun y hy => hx y ((occurs_sub _ _ _).2 (.inl hy))
    obtain ⟨k, rfl⟩ := j (noFn_sub.1 hs).2 fun y hy => hx y ((occurs_sub _ _ _).2 (.inr hy))
    simp at h1
  | mul_one_l _ _ _ _ _ j => exact j (noFn_mul.1 hs).2 fun y hy => hx y ((occurs_mul _ _ _).2 (.inr hy))
  | mul_one_r _ _ _ _ i _ => exact i (noFn_mul.1 hs).1 fun y hy => hx y ((occurs_mul _ _ _).2 (.inl hy))
  | mul _ _ h1 _ _ _ _ i j =>
    obtain ⟨n, rfl⟩ := i (noFn_mul.1 hs).1 fun y hy => hx y ((occurs_mul _ _ _).2 (.inl hy))
    obtain ⟨k, rfl⟩ := j (noFn_mul.1 hs).2 fun y hy => hx y ((occurs_mul _ _ _).2 (.inr hy))
    simp at h1
  | div _ _ h1 _ i j =>
    obtain ⟨n, rfl⟩ := i (noFn_div.1 hs).1 fun y hy => hx y ((occurs_div _ _ _).2 (.inl hy))
    obtain ⟨k, rfl⟩ := j (noFn_div.1 hs).2 fun y hy => hx y ((occurs_div _ _ _).2 (.inr hy))
    simp at h1
  | sin_num | sin => exact (noFn_sin.1 hs).elim
  | cos_num | cos => exact (noFn_cos.1 hs).elim
  | exp_zero | exp_one | exp_ln | exp => exact (noFn_exp.1 hs).elim
  | ln_e | ln_one | ln_exp | ln => exact (noFn_ln.1 hs).elim
  | pow_zero | pow_one | pow_ln | pow => exact (noFn_pow.1 hs).elim

theorem NoFn.replace (he : Tree e) (hs : NoFn e) (n : SmartNum F) : NoFn (e.replace x (ofNum n)) := by
  induction he with
  | num n _ => simpa using noFn_ofNum n
  | var y => rw [replace_ofVar]; split; exacts [noFn_ofNum _, noFn_ofVar _]
  | neg a _ i => rw [replace_neg]; exact noFn_neg.2 (i (noFn_neg.1 hs))
  | add a b _ _ i j => rw [replace_add]; exact noFn_add.2 ⟨i (noFn_add.1 hs).1, j (noFn_add.1 hs).2⟩
  | sub a b _ _ i j => rw [replace_sub]; exact noFn_sub.2 ⟨i (noFn_sub.1 hs).1, j (noFn_sub.1 hs).2⟩
  | mul a b _ _ i j => rw [replace_mul]; exact noFn_mul.2 ⟨i (noFn_mul.1 hs).1, j (noFn_mul.1 hs).2⟩
  | div a b _ _ i j => rw [replace_div]; exact noFn_div.2 ⟨i (noFn_div.1 hs).1, j (noFn_div.1 hs).2⟩
  | sin | cos | exp | ln | pow => simp [noFn_sin, noFn_cos, noFn_exp, noFn_ln, noFn_pow] at hs

omit [FloatOps F] in
theorem Arithmetic.facts (h : Arithmetic x e) : Tree e ∧ NoFn e ∧ ∀ y, Occurs y e → y = x := by
  induction h with
  | num n => exact ⟨.num _ trivial, noFn_ofNum n, fun y hy => by simp at hy⟩
  | var => exact ⟨.var _, noFn_ofVar _, fun y hy => ((occurs_ofVar _ _).1 hy).symm⟩
  | neg _ i => exact ⟨.neg _ i.1, noFn_neg.2 i.2.1, fun y hy => i.2.2 y ((occurs_neg _ _).1 hy)⟩
  | add _ _ i j => exact ⟨.add _ _ i.1 j.1, noFn_add.2 ⟨i.2.1, j.2.1⟩, fun y hy =>
      ((occurs_add _ _ _).1 hy).elim (i.2.2 y) (j.2.2 y)⟩
  | sub _ _ i j => exact ⟨.sub _ _ i.1 j.1, noFn_sub.2 ⟨i.2.1, j.2.1⟩, fun y hy =>
      ((occurs_sub _ _ _).1 hy).elim (i.2.2 y) (j.2.2 y)⟩
  | mul _ _ i j => exact ⟨.mul _ _ i.1 j.1, noFn_mul.2 ⟨i.2.1, j.2.1⟩, fun y hy =>
      ((occurs_mul _ _ _).1 hy).elim (i.2.2 y) (j.2.2 y)⟩
  | div _ _ i j => exact ⟨.div _ _ i.1 j.1, noFn_div.2 ⟨i.2.1, j.2.1⟩, fun y hy =>
      ((occurs_div _ _ _).1 hy).elim (i.2.2 y) (j.2.2 y)⟩

theorem NoFn.clear (R : Rounding F) (𝒱 : Set Ranges) (h : NoFn e) : R.Clear 𝒱 e := fun s hs =>
  ⟨fun a ha => absurd ha ((h s hs).cos a), fun a ha => absurd ha ((h s hs).sin a),
    fun a b ha => absurd ha ((h s hs).pow a b), fun a b ha => absurd ha ((h s hs).pow a b),
    fun a b ha => absurd ha ((h s hs).pow a b)⟩

end SymRust
