import Verif.Proofs.Agg
import Verif.Proofs.NumberOps
import Verif.Spec.Normal
/-! Inductions over `Agg`: variables, size, depth, normal forms, fixed points. -/
set_option linter.unusedSimpArgs false

namespace SymRust
variable {F : Type} [FloatOps F]
open Expr

theorem numClosed_valid (m : Mode) : NumClosed (F := F) m SmartNum.Valid where
  ofI64 := SmartNum.valid_ofI64
  e := SmartNum.valid_e
  neg _ _ h h' := SmartNum.valid_neg h h'
  add _ _ _ h1 h2 h := SmartNum.valid_add h1 h2 h
  sub _ _ _ h1 h2 h := SmartNum.valid_sub h1 h2 h
  mul _ _ _ h1 h2 h := SmartNum.valid_mul h1 h2 h
  div _ _ _ h1 h2 h := SmartNum.valid_div h1 h2 h

@[simp] theorem occurs_e (x : Variable) : Occurs x (Expr.e : Expr F) ↔ False := occurs_ofNum x _
@[simp] theorem size_e : size (Expr.e : Expr F) = 1 := size_ofNum _
@[simp] theorem depth_e : depth (Expr.e : Expr F) = 1 := depth_ofNum _

theorem Agg.occurs {m : Mode} {e e' : Expr F} (h : Agg m e e') {x : Variable} (hx : Occurs x e') :
    Occurs x e := by
  induction h <;> simp_all
  all_goals tauto

theorem Agg.size_le {m : Mode} {e e' : Expr F} (h : Agg m e e') : size e' = size e ∧ e' = e ∨
    size e' < size e := by
  induction h with
  | neg _ _ _ ih | sin _ _ _ ih | cos _ _ _ ih | exp _ _ _ _ ih | ln _ _ _ _ ih =>
    rcases ih with ⟨i, rfl⟩ | i
    · exact .inl ⟨rfl, rfl⟩
    · right; simp; omega
  | add _ _ _ _ _ i j | sub _ _ _ _ _ i j | mul _ _ _ _ _ _ _ i j | div _ _ _ _ i j
  | pow _ _ _ _ _ i j =>
    rcases i with ⟨i, rfl⟩ | i <;> rcases j with ⟨j, rfl⟩ | j
    · exact .inl ⟨rfl, rfl⟩
    all_goals right; simp; omega
  | num | var => exact .inl ⟨rfl, rfl⟩
  | _ =>
    right
    simp_all only [size_ofNum, size_ofI64, size_neg, size_add, size_sub, size_mul, size_div,
      size_pow, size_sin, size_cos, size_exp, size_ln, size_e]
    omega

theorem Agg.size_le' {m : Mode} {e e' : Expr F} (h : Agg m e e') : size e' ≤ size e := by
  rcases h.size_le with ⟨h, -⟩ | h <;> omega

theorem Agg.depth_le {m : Mode} {e e' : Expr F} (h : Agg m e e') : depth e' ≤ depth e := by
  induction h <;> simp_all only [depth_ofNum, depth_ofI64, depth_ofVar, depth_neg, depth_add, depth_sub,
      depth_mul, depth_div,
      depth_pow, depth_sin, depth_cos, depth_exp, depth_ln, depth_e] <;> omega

/-! ### subterms -/

omit [FloatOps F] in
theorem subterm_mk {s : Expr F} {r : AstNode F} {c : List (Expr F)} :
    Subterm s (.mk r c) ↔ s = .mk r c ∨ ∃ a ∈ c, Subterm s a := by
  constructor
  · intro h
    generalize he : Expr.mk r c = e at h
    cases h with
    | refl => exact .inl rfl
    | child r' c' a ha h =>
      simp only [Expr.mk.injEq] at he
      obtain ⟨rfl, rfl⟩ := he
      exact .inr ⟨a, ha, h⟩
  · rintro (rfl | ⟨a, ha, h⟩)
    · exact .refl
    · exact .child _ _ a ha h

omit [FloatOps F] in
theorem Subterm.trans {a b c : Expr F} (h : Subterm a b) (h' : Subterm b c) : Subterm a c := by
  induction h' with
  | refl => exact h
  | child r c d hd _ ih => exact .child r c d hd ih

section
variable {P : Expr F → Prop}

omit [FloatOps F] in
theorem everywhere_ofNum {n : SmartNum F} : Everywhere P (ofNum n) ↔ P (ofNum n) := by
  simp [Everywhere, ofNum, subterm_mk]
omit [FloatOps F] in
theorem everywhere_ofVar {v : Variable} : Everywhere P (ofVar v) ↔ P (ofVar v) := by
  simp [Everywhere, ofVar, newVariable, subterm_mk]
omit [FloatOps F] in
theorem everywhere_neg {a : Expr F} : Everywhere P a.neg ↔ P a.neg ∧ Everywhere P a := by
  simp [Everywhere, Expr.neg, subterm_mk]
omit [FloatOps F] in
theorem everywhere_sin {a : Expr F} : Everywhere P a.sin ↔ P a.sin ∧ Everywhere P a := by
  simp [Everywhere, Expr.sin, subterm_mk]
omit [FloatOps F] in
theorem everywhere_cos {a : Expr F} : Everywhere P a.cos ↔ P a.cos ∧ Everywhere P a := by
  simp [Everywhere, Expr.cos, subterm_mk]
omit [FloatOps F] in
theorem everywhere_exp {a : Expr F} : Everywhere P a.exp ↔ P a.exp ∧ Everywhere P a := by
  simp [Everywhere, Expr.exp, subterm_mk]
omit [FloatOps F] in
theorem everywhere_ln {a : Expr F} : Everywhere P a.ln ↔ P a.ln ∧ Everywhere P a := by
  simp [Everywhere, Expr.ln, subterm_mk]
omit [FloatOps F] in
theorem everywhere_add {a b : Expr F} :
    Everywhere P (a.add b) ↔ P (a.add b) ∧ Everywhere P a ∧ Everywhere P b := by
  simp [Everywhere, Expr.add, subterm_mk, or_imp, forall_and]
omit [FloatOps F] in
theorem everywhere_sub {a b : Expr F} :
    Everywhere P (a.sub b) ↔ P (a.sub b) ∧ Everywhere P a ∧ Everywhere P b := by
  simp [Everywhere, Expr.sub, subterm_mk, or_imp, forall_and]
omit [FloatOps F] in
theorem everywhere_mul {a b : Expr F} :
    Everywhere P (a.mul b) ↔ P (a.mul b) ∧ Everywhere P a ∧ Everywhere P b := by
  simp [Everywhere, Expr.mul, subterm_mk, or_imp, forall_and]
omit [FloatOps F] in
theorem everywhere_div {a b : Expr F} :
    Everywhere P (a.div b) ↔ P (a.div b) ∧ Everywhere P a ∧ Everywhere P b := by
  simp [Everywhere, Expr.div, subterm_mk, or_imp, forall_and]
omit [FloatOps F] in
theorem everywhere_pow {a b : Expr F} :
    Everywhere P (a.pow b) ↔ P (a.pow b) ∧ Everywhere P a ∧ Everywhere P b := by
  simp [Everywhere, Expr.pow, subterm_mk, or_imp, forall_and]
end

omit [FloatOps F] in
theorem Everywhere.root {P : Expr F → Prop} {e : Expr F} (h : Everywhere P e) : P e := h e .refl

/-! ### local normality -/

omit [FloatOps F] in
theorem normalAt_ofNum (n : SmartNum F) : NormalAt (ofNum n) := by
  constructor <;> intros <;> rename_i h <;> expr_inj at h
omit [FloatOps F] in
theorem normalAt_ofVar (v : Variable) : NormalAt (ofVar v : Expr F) := by
  constructor <;> intros <;> rename_i h <;> expr_inj at h
omit [FloatOps F] in
theorem normalAt_neg {a : Expr F} : NormalAt a.neg ↔
    a.isNum = false := by
  refine ⟨fun h => h.neg _ rfl, fun hc => ?_⟩
  constructor <;> intros <;> rename_i h <;> expr_inj at h
  subst h; exact hc
omit [FloatOps F] in
theorem normalAt_sin {a : Expr F} : NormalAt a.sin ↔
    a.isZero = false ∧ a.isPi = false := by
  refine ⟨fun h => h.sin _ rfl, fun hc => ?_⟩
  constructor <;> intros <;> rename_i h <;> expr_inj at h
  subst h; exact hc
omit [FloatOps F] in
theorem normalAt_cos {a : Expr F} : NormalAt a.cos ↔
    a.isZero = false ∧ a.isPi = false := by
  refine ⟨fun h => h.cos _ rfl, fun hc => ?_⟩
  constructor <;> intros <;> rename_i h <;> expr_inj at h
  subst h; exact hc
omit [FloatOps F] in
theorem normalAt_exp {a : Expr F} : NormalAt a.exp ↔
    a.isZero = false ∧ a.isOne = false ∧ ∀ c : Expr F, a ≠ c.ln := by
  refine ⟨fun h => h.exp _ rfl, fun hc => ?_⟩
  constructor <;> intros <;> rename_i h <;> expr_inj at h
  subst h; exact hc
omit [FloatOps F] in
theorem normalAt_ln {a : Expr F} : NormalAt a.ln ↔
    a.isE = false ∧ a.isOne = false ∧ ∀ c : Expr F, a ≠ c.exp := by
  refine ⟨fun h => h.ln _ rfl, fun hc => ?_⟩
  constructor <;> intros <;> rename_i h <;> expr_inj at h
  subst h; exact hc
omit [FloatOps F] in
theorem normalAt_add {a b : Expr F} : NormalAt (a.add b) ↔
    (a.isNum && b.isNum) = false ∧ a.isZero = false ∧ b.isZero = false := by
  refine ⟨fun h => h.add _ _ rfl, fun hc => ?_⟩
  constructor <;> intros <;> rename_i h <;> expr_inj at h
  obtain ⟨rfl, rfl⟩ := h; exact hc
omit [FloatOps F] in
theorem normalAt_sub {a b : Expr F} : NormalAt (a.sub b) ↔
    (a.isNum && b.isNum) = false ∧ a.isZero = false ∧ b.isZero = false := by
  refine ⟨fun h => h.sub _ _ rfl, fun hc => ?_⟩
  constructor <;> intros <;> rename_i h <;> expr_inj at h
  obtain ⟨rfl, rfl⟩ := h; exact hc
omit [FloatOps F] in
theorem normalAt_mul {a b : Expr F} : NormalAt (a.mul b) ↔
    (a.isNum && b.isNum) = false ∧ a.isZero = false ∧
    b.isZero = false ∧ a.isOne = false ∧ b.isOne = false := by
  refine ⟨fun h => h.mul _ _ rfl, fun hc => ?_⟩
  constructor <;> intros <;> rename_i h <;> expr_inj at h
  obtain ⟨rfl, rfl⟩ := h; exact hc
omit [FloatOps F] in
theorem normalAt_div {a b : Expr F} : NormalAt (a.div b) ↔
    (a.isNum && b.isNum) = false ∧ a.isZero = false := by
  refine ⟨fun h => h.div _ _ rfl, fun hc => ?_⟩
  constructor <;> intros <;> rename_i h <;> expr_inj at h
  obtain ⟨rfl, rfl⟩ := h; exact hc
omit [FloatOps F] in
theorem normalAt_pow {a b : Expr F} : NormalAt (a.pow b) ↔
    a.isZero = false ∧ a.isOne = false ∧ ∀ c : Expr F, a ≠ c.ln := by
  refine ⟨fun h => h.pow _ _ rfl, fun hc => ?_⟩
  constructor <;> intros <;> rename_i h <;> expr_inj at h
  obtain ⟨rfl, rfl⟩ := h; exact hc

/-- C26 core: the result of a pass is normal everywhere. -/
theorem Agg.normal {m : Mode} {e e' : Expr F} (h : Agg m e e') : Everywhere NormalAt e' := by
  have hn : ∀ n : SmartNum F, Everywhere NormalAt (ofNum n) := fun n =>
    everywhere_ofNum.mpr (normalAt_ofNum n)
  induction h with
  | num n => exact hn _
  | var v => exact everywhere_ofVar.mpr (normalAt_ofVar v)
  | neg_num | add_num | sub_num | mul_num | mul_zero_l | mul_zero_r | div_num | div_zero_l | sin_num
  | cos_num | exp_zero | exp_one | ln_e | ln_one | pow_zero => exact hn _
  | neg_neg _ ih => exact (everywhere_neg.mp ih).2
  | neg _ h1 h2 ih => exact everywhere_neg.mpr ⟨normalAt_neg.mpr h1, ih⟩
  | add_zero_l _ _ _ _ i j => exact j
  | add_zero_r _ _ _ _ i j => exact i
  | add _ _ h1 h2 h3 i j => exact everywhere_add.mpr ⟨normalAt_add.mpr ⟨h1, h2, h3⟩, i, j⟩
  | sub_zero_l _ _ _ h i j => exact everywhere_neg.mpr ⟨normalAt_neg.mpr h, j⟩
  | sub_zero_r _ _ _ _ i j => exact i
  | sub _ _ h1 h2 h3 i j => exact everywhere_sub.mpr ⟨normalAt_sub.mpr ⟨h1, h2, h3⟩, i, j⟩
  | mul_one_l _ _ _ _ i j => exact j
  | mul_one_r _ _ _ _ i j => exact i
  | mul _ _ h1 h2 h3 h4 h5 i j =>
    exact everywhere_mul.mpr ⟨normalAt_mul.mpr ⟨h1, h2, h3, h4, h5⟩, i, j⟩
  | div _ _ h1 h2 i j => exact everywhere_div.mpr ⟨normalAt_div.mpr ⟨h1, h2⟩, i, j⟩
  | sin _ h1 h2 ih => exact everywhere_sin.mpr ⟨normalAt_sin.mpr ⟨h1, h2⟩, ih⟩
  | cos _ h1 h2 ih => exact everywhere_cos.mpr ⟨normalAt_cos.mpr ⟨h1, h2⟩, ih⟩
  | exp_ln _ ih => exact (everywhere_ln.mp ih).2
  | exp _ h1 h2 h3 ih => exact everywhere_exp.mpr ⟨normalAt_exp.mpr ⟨h1, h2, h3⟩, ih⟩
  | ln_exp _ ih => exact (everywhere_exp.mp ih).2
  | ln _ h1 h2 h3 ih => exact everywhere_ln.mpr ⟨normalAt_ln.mpr ⟨h1, h2, h3⟩, ih⟩
  | pow_one _ _ _ i j => exact j
  | pow_ln _ _ i j => exact (everywhere_ln.mp i).2
  | pow _ _ h1 h2 h3 i j => exact everywhere_pow.mpr ⟨normalAt_pow.mpr ⟨h1, h2, h3⟩, i, j⟩

/-! ### double negation and subtraction -/

omit [FloatOps F] in
theorem noDoubleNegAt_ofNum (n : SmartNum F) : NoDoubleNegAt (ofNum n) := by
  intro c h; expr_inj at h
omit [FloatOps F] in
theorem noDoubleNegAt_ofVar (v : Variable) : NoDoubleNegAt (ofVar v : Expr F) := by
  intro c h; expr_inj at h
omit [FloatOps F] in
theorem noDoubleNegAt_neg {a : Expr F} : NoDoubleNegAt a.neg ↔ ∀ c : Expr F, a ≠ c.neg := by
  constructor
  · rintro h c rfl; exact h c rfl
  · intro h c hc; expr_inj at hc; exact h c (by rw [hc]; rfl)
omit [FloatOps F] in
theorem noDoubleNegAt_sin (a : Expr F) : NoDoubleNegAt a.sin := by
  intro c h; expr_inj at h
omit [FloatOps F] in
theorem noDoubleNegAt_cos (a : Expr F) : NoDoubleNegAt a.cos := by
  intro c h; expr_inj at h
omit [FloatOps F] in
theorem noDoubleNegAt_exp (a : Expr F) : NoDoubleNegAt a.exp := by
  intro c h; expr_inj at h
omit [FloatOps F] in
theorem noDoubleNegAt_ln (a : Expr F) : NoDoubleNegAt a.ln := by
  intro c h; expr_inj at h
omit [FloatOps F] in
theorem noDoubleNegAt_add (a b : Expr F) : NoDoubleNegAt (a.add b) := by
  intro c h; expr_inj at h
omit [FloatOps F] in
theorem noDoubleNegAt_sub (a b : Expr F) : NoDoubleNegAt (a.sub b) := by
  intro c h; expr_inj at h
omit [FloatOps F] in
theorem noDoubleNegAt_mul (a b : Expr F) : NoDoubleNegAt (a.mul b) := by
  intro c h; expr_inj at h
omit [FloatOps F] in
theorem noDoubleNegAt_div (a b : Expr F) : NoDoubleNegAt (a.div b) := by
  intro c h; expr_inj at h
omit [FloatOps F] in
theorem noDoubleNegAt_pow (a b : Expr F) : NoDoubleNegAt (a.pow b) := by
  intro c h; expr_inj at h

omit [FloatOps F] in
theorem noSubAt_ofNum (n : SmartNum F) : NoSubAt (ofNum n) := by
  intro c d h; expr_inj at h
omit [FloatOps F] in
theorem not_noSubAt_sub (a b : Expr F) : ¬ NoSubAt (a.sub b) := fun h => h a b rfl

/-- On subtraction-free input a pass leaves no double negation. -/
theorem Agg.noDoubleNeg {m : Mode} {e e' : Expr F} (h : Agg m e e') (hs : Everywhere NoSubAt e) :
    Everywhere NoDoubleNegAt e' := by
  have hn : ∀ n : SmartNum F, Everywhere NoDoubleNegAt (ofNum n) := fun n =>
    everywhere_ofNum.mpr (noDoubleNegAt_ofNum n)
  induction h with
  | num n => exact hn _
  | var v => exact everywhere_ofVar.mpr (noDoubleNegAt_ofVar v)
  | neg_num | add_num | sub_num | mul_num | mul_zero_l | mul_zero_r | div_num | div_zero_l | sin_num
  | cos_num | exp_zero | exp_one | ln_e | ln_one | pow_zero => exact hn _
  | sub_zero_l | sub_zero_r | sub => exact absurd (everywhere_sub.mp hs).1 (not_noSubAt_sub _ _)
  | neg_neg _ ih => exact (everywhere_neg.mp (ih (everywhere_neg.mp hs).2)).2
  | neg _ h1 h2 ih => exact everywhere_neg.mpr ⟨noDoubleNegAt_neg.mpr h2, ih (everywhere_neg.mp hs).2⟩
  | add_zero_l _ _ _ _ i j => exact j (everywhere_add.mp hs).2.2
  | add_zero_r _ _ _ _ i j => exact i (everywhere_add.mp hs).2.1
  | add _ _ h1 h2 h3 i j =>
    have := (everywhere_add.mp hs).2
    exact everywhere_add.mpr ⟨noDoubleNegAt_add _ _, i this.1, j this.2⟩
  | mul_one_l _ _ _ _ i j => exact j (everywhere_mul.mp hs).2.2
  | mul_one_r _ _ _ _ i j => exact i (everywhere_mul.mp hs).2.1
  | mul _ _ h1 h2 h3 h4 h5 i j =>
    have := (everywhere_mul.mp hs).2
    exact everywhere_mul.mpr ⟨noDoubleNegAt_mul _ _, i this.1, j this.2⟩
  | div _ _ h1 h2 i j =>
    have := (everywhere_div.mp hs).2
    exact everywhere_div.mpr ⟨noDoubleNegAt_div _ _, i this.1, j this.2⟩
  | sin _ h1 h2 ih => exact everywhere_sin.mpr ⟨noDoubleNegAt_sin _, ih (everywhere_sin.mp hs).2⟩
  | cos _ h1 h2 ih => exact everywhere_cos.mpr ⟨noDoubleNegAt_cos _, ih (everywhere_cos.mp hs).2⟩
  | exp_ln _ ih => exact (everywhere_ln.mp (ih (everywhere_exp.mp hs).2)).2
  | exp _ h1 h2 h3 ih => exact everywhere_exp.mpr ⟨noDoubleNegAt_exp _, ih (everywhere_exp.mp hs).2⟩
  | ln_exp _ ih => exact (everywhere_exp.mp (ih (everywhere_ln.mp hs).2)).2
  | ln _ h1 h2 h3 ih => exact everywhere_ln.mpr ⟨noDoubleNegAt_ln _, ih (everywhere_ln.mp hs).2⟩
  | pow_one _ _ _ i j => exact j (everywhere_pow.mp hs).2.2
  | pow_ln _ _ i j => exact (everywhere_ln.mp (i (everywhere_pow.mp hs).2.1)).2
  | pow _ _ h1 h2 h3 i j =>
    have := (everywhere_pow.mp hs).2
    exact everywhere_pow.mpr ⟨noDoubleNegAt_pow _ _, i this.1, j this.2⟩

/-! ### fixed points -/

/-- A pass that changes nothing found no double negation. -/
theorem Agg.noDoubleNeg_of_fixed {m : Mode} {e e' : Expr F} (h : Agg m e e') (hs : e' = e) :
    Everywhere NoDoubleNegAt e := by
  have hsz : size e' = size e := by rw [hs]
  clear hs
  induction h with
  | num n => exact everywhere_ofNum.mpr (noDoubleNegAt_ofNum n)
  | var v => exact everywhere_ofVar.mpr (noDoubleNegAt_ofVar v)
  | neg h h1 h2 ih =>
    simp only [size_neg] at hsz
    rcases h.size_le with ⟨h3, rfl⟩ | h3
    · exact everywhere_neg.mpr ⟨noDoubleNegAt_neg.mpr h2, ih rfl⟩
    · omega
  | sin h h1 h2 ih =>
    simp only [size_sin] at hsz
    rcases h.size_le with ⟨h4, rfl⟩ | h4
    · exact everywhere_sin.mpr ⟨noDoubleNegAt_sin _, ih rfl⟩
    · omega
  | cos h h1 h2 ih =>
    simp only [size_cos] at hsz
    rcases h.size_le with ⟨h4, rfl⟩ | h4
    · exact everywhere_cos.mpr ⟨noDoubleNegAt_cos _, ih rfl⟩
    · omega
  | exp h h1 h2 h3 ih =>
    simp only [size_exp] at hsz
    rcases h.size_le with ⟨h4, rfl⟩ | h4
    · exact everywhere_exp.mpr ⟨noDoubleNegAt_exp _, ih rfl⟩
    · omega
  | ln h h1 h2 h3 ih =>
    simp only [size_ln] at hsz
    rcases h.size_le with ⟨h4, rfl⟩ | h4
    · exact everywhere_ln.mpr ⟨noDoubleNegAt_ln _, ih rfl⟩
    · omega
  | add h h' _ _ _ i j =>
    simp only [size_add] at hsz
    rcases h.size_le with ⟨h4, rfl⟩ | h4 <;> rcases h'.size_le with ⟨h5, rfl⟩ | h5
    · exact everywhere_add.mpr ⟨noDoubleNegAt_add _ _, i rfl, j rfl⟩
    all_goals omega
  | sub h h' _ _ _ i j =>
    simp only [size_sub] at hsz
    rcases h.size_le with ⟨h4, rfl⟩ | h4 <;> rcases h'.size_le with ⟨h5, rfl⟩ | h5
    · exact everywhere_sub.mpr ⟨noDoubleNegAt_sub _ _, i rfl, j rfl⟩
    all_goals omega
  | mul h h' _ _ _ _ _ i j =>
    simp only [size_mul] at hsz
    rcases h.size_le with ⟨h4, rfl⟩ | h4 <;> rcases h'.size_le with ⟨h5, rfl⟩ | h5
    · exact everywhere_mul.mpr ⟨noDoubleNegAt_mul _ _, i rfl, j rfl⟩
    all_goals omega
  | div h h' _ _ i j =>
    simp only [size_div] at hsz
    rcases h.size_le with ⟨h4, rfl⟩ | h4 <;> rcases h'.size_le with ⟨h5, rfl⟩ | h5
    · exact everywhere_div.mpr ⟨noDoubleNegAt_div _ _, i rfl, j rfl⟩
    all_goals omega
  | pow h h' _ _ _ i j =>
    simp only [size_pow] at hsz
    rcases h.size_le with ⟨h4, rfl⟩ | h4 <;> rcases h'.size_le with ⟨h5, rfl⟩ | h5
    · exact everywhere_pow.mpr ⟨noDoubleNegAt_pow _ _, i rfl, j rfl⟩
    all_goals omega
  | add_num h h' | sub_num h h' | mul_num h h' | div_num h h' | add_zero_l h h' | add_zero_r h h' | sub_zero_l h h' | sub_zero_r h h' | mul_zero_l h h' | mul_zero_r h h' | mul_one_l h h' | mul_one_r h h' | div_zero_l h h' | pow_zero h h' | pow_one h h' | pow_ln h h' =>
    have h1 := h.size_le'
    have h2 := h'.size_le'
    simp only [size_ofNum, size_ofI64, size_neg, size_add, size_sub, size_mul, size_div,
      size_pow, size_sin, size_cos, size_exp, size_ln, size_e] at *
    omega
  | neg_num h | neg_neg h | sin_num h | cos_num h | exp_zero h | exp_one h | exp_ln h | ln_e h | ln_one h | ln_exp h =>
    have h1 := h.size_le'
    simp only [size_ofNum, size_ofI64, size_neg, size_add, size_sub, size_mul, size_div,
      size_pow, size_sin, size_cos, size_exp, size_ln, size_e] at *
    omega

/-! the rules do nothing on normal arguments -/

theorem negEvalRule_fixed {m : Mode} {a : Expr F} (ha : Tree a) (h : a.isNum = false)
    (h' : ∀ c : Expr F, a ≠ c.neg) : negEvalRule m [.ok a] = .ok a.neg := by
  cases ha with
  | num n _ => cases h
  | neg c _ => exact absurd rfl (h' c)
  | _ => rfl
theorem addEvalRule_fixed {m : Mode} {a b : Expr F}
    (h : (a.isNum && b.isNum) = false ∧ a.isZero = false ∧ b.isZero = false) :
    addEvalRule m [.ok a, .ok b] = .ok (a.add b) := by
  unfold addEvalRule; simp only [pop_one, pop_two, Res.ok_bind, h]; rfl
theorem subEvalRule_fixed {m : Mode} {a b : Expr F}
    (h : (a.isNum && b.isNum) = false ∧ a.isZero = false ∧ b.isZero = false) :
    subEvalRule m [.ok a, .ok b] = .ok (a.sub b) := by
  unfold subEvalRule; simp only [pop_one, pop_two, Res.ok_bind, h]; rfl
theorem mulEvalRule_fixed {m : Mode} {a b : Expr F}
    (h : (a.isNum && b.isNum) = false ∧ a.isZero = false ∧
    b.isZero = false ∧ a.isOne = false ∧ b.isOne = false) :
    mulEvalRule m [.ok a, .ok b] = .ok (a.mul b) := by
  unfold mulEvalRule; simp only [pop_one, pop_two, Res.ok_bind, h]; rfl
theorem divEvalRule_fixed {m : Mode} {a b : Expr F} (h : (a.isNum && b.isNum) = false ∧ a.isZero = false) :
    divEvalRule m [.ok a, .ok b] = .ok (a.div b) := by
  unfold divEvalRule; simp only [pop_one, pop_two, Res.ok_bind, h]; rfl
omit [FloatOps F] in
theorem sinEvalRule_fixed {a : Expr F} (ha : Tree a) (h : a.isZero = false ∧ a.isPi = false) :
    sinEvalRule [.ok a] = .ok a.sin := by
  cases ha with
  | num n _ =>
    have h0 : (n.isZero || n.isPi) = false := by rw [Bool.or_eq_false_iff]; exact h
    unfold sinEvalRule
    simp only [pop_one, Res.ok_bind, ofNum, root]
    erw [if_neg (show ¬ (n.isZero || n.isPi) = true by rw [h0]; simp)]; rfl
  | _ => rfl
omit [FloatOps F] in
theorem cosEvalRule_fixed {a : Expr F} (ha : Tree a) (h : a.isZero = false ∧ a.isPi = false) :
    cosEvalRule [.ok a] = .ok a.cos := by
  cases ha with
  | num n _ =>
    have h0 : (n.isZero || n.isPi) = false := by rw [Bool.or_eq_false_iff]; exact h
    unfold cosEvalRule
    simp only [pop_one, Res.ok_bind, ofNum, root]
    erw [if_neg (show ¬ (n.isZero || n.isPi) = true by rw [h0]; simp)]; rfl
  | _ => rfl
theorem expEvalRule_fixed {a : Expr F} (ha : Tree a)
    (h : a.isZero = false ∧ a.isOne = false ∧ ∀ c : Expr F, a ≠ c.ln) :
    expEvalRule [.ok a] = .ok a.exp := by
  cases ha with
  | num n _ =>
    have h0 : n.isZero = false := h.1
    have h1 : n.isOne = false := h.2.1
    unfold expEvalRule
    simp only [pop_one, Res.ok_bind, ofNum, root, h0, h1]; rfl
  | ln c _ => exact absurd rfl (h.2.2 c)
  | _ => rfl
omit [FloatOps F] in
theorem lnEvalRule_fixed {a : Expr F} (ha : Tree a)
    (h : a.isE = false ∧ a.isOne = false ∧ ∀ c : Expr F, a ≠ c.exp) :
    lnEvalRule [.ok a] = .ok a.ln := by
  cases ha with
  | num n _ =>
    have h0 : n.isE = false := h.1
    have h1 : n.isOne = false := h.2.1
    unfold lnEvalRule
    simp only [pop_one, Res.ok_bind, ofNum, root, h0, h1]; rfl
  | exp c _ => exact absurd rfl (h.2.2 c)
  | _ => rfl
omit [FloatOps F] in
theorem powEvalRule_fixed {a b : Expr F} (ha : Tree a)
    (h : a.isZero = false ∧ a.isOne = false ∧ ∀ c : Expr F, a ≠ c.ln) :
    powEvalRule [.ok a, .ok b] = .ok (a.pow b) := by
  cases ha with
  | num n _ =>
    have h0 : n.isZero = false := h.1
    have h1 : n.isOne = false := h.2.1
    unfold powEvalRule
    simp only [pop_one, pop_two, Res.ok_bind, ofNum, root, h0, h1]; rfl
  | ln c _ => exact absurd rfl (h.2.2 c)
  | _ => rfl

/-- Fixed points of a pass on well-formed trees: normal everywhere and no double negation. -/
theorem fixed_of_normal (m : Mode) {e : Expr F} (ht : Tree e) (hn : Everywhere NormalAt e)
    (hd : Everywhere NoDoubleNegAt e) : e.numAggregate m = .ok e := by
  induction ht with
  | num n _ => exact numAggregate_ofNum m n
  | var v => exact numAggregate_ofVar m v
  | neg a ha ih =>
    obtain ⟨n1, n2⟩ := everywhere_neg.mp hn
    obtain ⟨d1, d2⟩ := everywhere_neg.mp hd
    rw [numAggregate_neg, ih n2 d2]
    exact negEvalRule_fixed ha (normalAt_neg.mp n1) (noDoubleNegAt_neg.mp d1)
  | sin a ha ih =>
    obtain ⟨n1, n2⟩ := everywhere_sin.mp hn
    obtain ⟨d1, d2⟩ := everywhere_sin.mp hd
    rw [numAggregate_sin, ih n2 d2]
    exact sinEvalRule_fixed ha (normalAt_sin.mp n1)
  | cos a ha ih =>
    obtain ⟨n1, n2⟩ := everywhere_cos.mp hn
    obtain ⟨d1, d2⟩ := everywhere_cos.mp hd
    rw [numAggregate_cos, ih n2 d2]
    exact cosEvalRule_fixed ha (normalAt_cos.mp n1)
  | exp a ha ih =>
    obtain ⟨n1, n2⟩ := everywhere_exp.mp hn
    obtain ⟨d1, d2⟩ := everywhere_exp.mp hd
    rw [numAggregate_exp, ih n2 d2]
    exact expEvalRule_fixed ha (normalAt_exp.mp n1)
  | ln a ha ih =>
    obtain ⟨n1, n2⟩ := everywhere_ln.mp hn
    obtain ⟨d1, d2⟩ := everywhere_ln.mp hd
    rw [numAggregate_ln, ih n2 d2]
    exact lnEvalRule_fixed ha (normalAt_ln.mp n1)
  | add a b ha hb iha ihb =>
    obtain ⟨n1, n2, n3⟩ := everywhere_add.mp hn
    obtain ⟨d1, d2, d3⟩ := everywhere_add.mp hd
    rw [numAggregate_add, iha n2 d2, ihb n3 d3]
    exact addEvalRule_fixed (normalAt_add.mp n1)
  | sub a b ha hb iha ihb =>
    obtain ⟨n1, n2, n3⟩ := everywhere_sub.mp hn
    obtain ⟨d1, d2, d3⟩ := everywhere_sub.mp hd
    rw [numAggregate_sub, iha n2 d2, ihb n3 d3]
    exact subEvalRule_fixed (normalAt_sub.mp n1)
  | mul a b ha hb iha ihb =>
    obtain ⟨n1, n2, n3⟩ := everywhere_mul.mp hn
    obtain ⟨d1, d2, d3⟩ := everywhere_mul.mp hd
    rw [numAggregate_mul, iha n2 d2, ihb n3 d3]
    exact mulEvalRule_fixed (normalAt_mul.mp n1)
  | div a b ha hb iha ihb =>
    obtain ⟨n1, n2, n3⟩ := everywhere_div.mp hn
    obtain ⟨d1, d2, d3⟩ := everywhere_div.mp hd
    rw [numAggregate_div, iha n2 d2, ihb n3 d3]
    exact divEvalRule_fixed (normalAt_div.mp n1)
  | pow a b ha hb iha ihb =>
    obtain ⟨n1, n2, n3⟩ := everywhere_pow.mp hn
    obtain ⟨d1, d2, d3⟩ := everywhere_pow.mp hd
    rw [numAggregate_pow, iha n2 d2, ihb n3 d3]
    exact powEvalRule_fixed ha (normalAt_pow.mp n1)

end SymRust
