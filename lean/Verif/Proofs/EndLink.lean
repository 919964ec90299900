import Verif.Proofs.EndFine
import Verif.Proofs.Deriv
import Verif.Props.LimitShape
/-! # Termination of `limit`, part 3: expressions as trees -/

namespace SymRust.End
open Expr

set_option linter.unusedSectionVars false

variable {F : Type} [FloatOps F]

/-! ### the numbers, with the wrapping operations -/

/-- The numbers of the library. -/
abbrev VNum (F : Type) [FloatOps F] : Type := {x : SmartNum F // x.Valid}

theorem neg_release (x : VNum F) : ∃ z : VNum F, x.1.neg .release = .ok z.1 := by
  obtain ⟨-, -, -, -, z, hz⟩ := SmartNum.release_total x.1 x.1
  exact ⟨⟨z, SmartNum.valid_neg x.2 hz⟩, hz⟩
theorem add_release (x y : VNum F) : ∃ z : VNum F, x.1.add .release y.1 = .ok z.1 := by
  obtain ⟨⟨z, hz⟩, -, -, -, -⟩ := SmartNum.release_total x.1 y.1
  exact ⟨⟨z, SmartNum.valid_add x.2 y.2 hz⟩, hz⟩
theorem sub_release (x y : VNum F) : ∃ z : VNum F, x.1.sub .release y.1 = .ok z.1 := by
  obtain ⟨-, ⟨z, hz⟩, -, -, -⟩ := SmartNum.release_total x.1 y.1
  exact ⟨⟨z, SmartNum.valid_sub x.2 y.2 hz⟩, hz⟩
theorem mul_release (x y : VNum F) : ∃ z : VNum F, x.1.mul .release y.1 = .ok z.1 := by
  obtain ⟨-, -, ⟨z, hz⟩, -, -⟩ := SmartNum.release_total x.1 y.1
  exact ⟨⟨z, SmartNum.valid_mul x.2 y.2 hz⟩, hz⟩
theorem div_release (x y : VNum F) : ∃ z : VNum F, x.1.div .release y.1 = .ok z.1 := by
  obtain ⟨-, -, -, ⟨z, hz⟩, -⟩ := SmartNum.release_total x.1 y.1
  exact ⟨⟨z, SmartNum.valid_div x.2 y.2 hz⟩, hz⟩

theorem VNum.eq_of {a z : VNum F} {r : Res (SmartNum F)} (h : r = .ok z.1) (h' : r = .ok a.1) : z = a :=
  Subtype.ext (Res.ok.inj (h.symm.trans h'))

theorem val_isZero {x : SmartNum F} (hx : x.Valid) : x.value.isZero = true ↔ x.isZero = true := by
  rw [SmartNumVal.isZero_iff hx.ok, hx.zero_iff]; rfl

theorem neg_isZero {m : Mode} {x z : SmartNum F} (hx : x.Valid) (h0 : x.isZero = true) (h : x.neg m = .ok z) :
    z.isZero = true := by
  rw [← val_isZero hx] at h0
  unfold SmartNum.neg at h
  simp only [Res.bind_eq_ok, Res.pure_eq, Res.ok.injEq] at h
  obtain ⟨v, h, rfl⟩ := h
  have : v.isZero = true := by
    unfold SmartNumVal.neg at h
    cases hv : x.value with
    | integer i =>
      rw [hv] at h h0
      simp only [Res.bind_eq_ok, Res.pure_eq, Res.ok.injEq] at h
      obtain ⟨k, hk, rfl⟩ := h
      simp only [SmartNumVal.isZero, beq_iff_eq] at h0 ⊢
      subst h0
      cases m <;> cases hk <;> rfl
    | rational r =>
      rw [hv] at h h0
      simp only [Res.bind_eq_ok, Res.pure_eq, Res.ok.injEq] at h
      obtain ⟨k, hk, rfl⟩ := h
      unfold RationalNum.neg at hk
      simp only [Res.bind_eq_ok, Res.pure_eq, Res.ok.injEq] at hk
      obtain ⟨s, -, rfl⟩ := hk
      exact h0
    | real f => rw [hv] at h0; cases h0
  unfold SmartNum.wrapVal
  rw [if_pos this]; rfl

noncomputable instance : NumAlg (VNum F) where
  zero := ⟨SmartNum.zero, SmartNum.valid_zero⟩
  one := ⟨SmartNum.one, SmartNum.valid_one⟩
  e := ⟨SmartNum.e, SmartNum.valid_e⟩
  isZ v := v.1.isZero = true
  isO v := v.1.isOne = true
  isPi v := v.1.isPi = true
  isE v := v.1.isE = true
  neg v := (neg_release v).choose
  add u v := (add_release u v).choose
  sub u v := (sub_release u v).choose
  mul u v := (mul_release u v).choose
  div u v := (div_release u v).choose
  isZ_zero := rfl
  isO_one := rfl
  not_isZ v h h' := by
    simp only [SmartNum.isOne, SmartNum.isZero, beq_iff_eq] at h h'
    rw [h] at h'; cases h'
  not_isE v h h' := by
    simp only [SmartNum.isOne, SmartNum.isE, beq_iff_eq] at h h'
    rw [h] at h'; cases h'
  add_Z u v hu hv := by
    have h := (add_release u v).choose_spec
    generalize (add_release u v).choose = w at *
    unfold SmartNum.add at h
    rw [if_pos hu] at h
    rw [← Res.ok.inj h]; exact hv
  sub_Z u v hu hv := by
    have h := (sub_release u v).choose_spec
    generalize (sub_release u v).choose = w at *
    unfold SmartNum.sub at h
    rw [if_pos hu] at h
    exact neg_isZero v.2 hv h
  mul_Z u v huv := by
    have h := (mul_release u v).choose_spec
    generalize (mul_release u v).choose = w at *
    have hn : ∀ x : SmartNum F, x.isOne = true → ¬ x.isZero = true := by
      intro x h h'
      simp only [SmartNum.isOne, SmartNum.isZero, beq_iff_eq] at h h'
      rw [h] at h'; cases h'
    unfold SmartNum.mul at h
    split_ifs at h with h1 h2
    · rw [← Res.ok.inj h]; exact huv.resolve_left (hn _ h1)
    · rw [← Res.ok.inj h]; exact huv.resolve_right (hn _ h2)
    · rw [← val_isZero u.2, ← val_isZero v.2] at huv
      unfold SmartNumVal.mul at h
      rw [if_pos (by rw [Bool.or_eq_true]; exact huv)] at h
      rw [← Res.ok.inj h]; rfl
  div_Z u v hu := by
    have h := (div_release u v).choose_spec
    generalize (div_release u v).choose = w at *
    rw [← val_isZero u.2] at hu
    unfold SmartNum.div SmartNumVal.div at h
    rw [if_pos hu] at h
    rw [← Res.ok.inj h]; rfl

section
variable {m : Mode} {x y z : SmartNum F}
theorem num_neg (hx : x.Valid) (h : x.neg m = .ok z) : ∃ hz : z.Valid, NumAlg.neg (⟨x, hx⟩ : VNum F) = ⟨z, hz⟩ :=
  ⟨SmartNum.valid_neg hx h, VNum.eq_of (neg_release _).choose_spec (SmartNum.neg_mono (Mode.le_release m) x _ h)⟩
theorem num_add (hx : x.Valid) (hy : y.Valid) (h : x.add m y = .ok z) :
    ∃ hz : z.Valid, NumAlg.add (⟨x, hx⟩ : VNum F) ⟨y, hy⟩ = ⟨z, hz⟩ :=
  ⟨SmartNum.valid_add hx hy h, VNum.eq_of (add_release _ _).choose_spec (SmartNum.add_mono (Mode.le_release m) x y _ h)⟩
theorem num_sub (hx : x.Valid) (hy : y.Valid) (h : x.sub m y = .ok z) :
    ∃ hz : z.Valid, NumAlg.sub (⟨x, hx⟩ : VNum F) ⟨y, hy⟩ = ⟨z, hz⟩ :=
  ⟨SmartNum.valid_sub hx hy h, VNum.eq_of (sub_release _ _).choose_spec (SmartNum.sub_mono (Mode.le_release m) x y _ h)⟩
theorem num_mul (hx : x.Valid) (hy : y.Valid) (h : x.mul m y = .ok z) :
    ∃ hz : z.Valid, NumAlg.mul (⟨x, hx⟩ : VNum F) ⟨y, hy⟩ = ⟨z, hz⟩ :=
  ⟨SmartNum.valid_mul hx hy h, VNum.eq_of (mul_release _ _).choose_spec (SmartNum.mul_mono (Mode.le_release m) x y _ h)⟩
theorem num_div (hx : x.Valid) (hy : y.Valid) (h : x.div m y = .ok z) :
    ∃ hz : z.Valid, NumAlg.div (⟨x, hx⟩ : VNum F) ⟨y, hy⟩ = ⟨z, hz⟩ :=
  ⟨SmartNum.valid_div hx hy h, VNum.eq_of (div_release _ _).choose_spec (SmartNum.div_mono (Mode.le_release m) x y _ h)⟩
end

/-- The tree of an expression. -/
inductive R : Expr F → Tm (VNum F) → Prop
  | num (v : VNum F) : R (ofNum v.1) (.num v)
  | var (y : Variable) : R (ofVar y) (.var y)
  | neg {a : Expr F} {s : Tm (VNum F)} : R a s → R a.neg s.neg
  | sin {a : Expr F} {s : Tm (VNum F)} : R a s → R a.sin s.sin
  | cos {a : Expr F} {s : Tm (VNum F)} : R a s → R a.cos s.cos
  | exp {a : Expr F} {s : Tm (VNum F)} : R a s → R a.exp s.exp
  | ln {a : Expr F} {s : Tm (VNum F)} : R a s → R a.ln s.ln
  | add {a b : Expr F} {s t : Tm (VNum F)} : R a s → R b t → R (a.add b) (s.add t)
  | sub {a b : Expr F} {s t : Tm (VNum F)} : R a s → R b t → R (a.sub b) (s.sub t)
  | mul {a b : Expr F} {s t : Tm (VNum F)} : R a s → R b t → R (a.mul b) (s.mul t)
  | div {a b : Expr F} {s t : Tm (VNum F)} : R a s → R b t → R (a.div b) (s.div t)
  | pow {a b : Expr F} {s t : Tm (VNum F)} : R a s → R b t → R (a.pow b) (s.pow t)

section
variable {a b : Expr F} {t : Tm (VNum F)}

theorem R.of_wf {e : Expr F} (h : WF SmartNum.Valid e) : ∃ t, R e t := by
  induction h with
  | num n hn => exact ⟨_, .num ⟨n, hn⟩⟩
  | var y => exact ⟨_, .var y⟩
  | neg _ _ i => obtain ⟨t, h⟩ := i; exact ⟨_, .neg h⟩
  | sin _ _ i => obtain ⟨t, h⟩ := i; exact ⟨_, .sin h⟩
  | cos _ _ i => obtain ⟨t, h⟩ := i; exact ⟨_, .cos h⟩
  | exp _ _ i => obtain ⟨t, h⟩ := i; exact ⟨_, .exp h⟩
  | ln _ _ i => obtain ⟨t, h⟩ := i; exact ⟨_, .ln h⟩
  | add _ _ _ _ i j => obtain ⟨t, h⟩ := i; obtain ⟨u, h'⟩ := j; exact ⟨_, .add h h'⟩
  | sub _ _ _ _ i j => obtain ⟨t, h⟩ := i; obtain ⟨u, h'⟩ := j; exact ⟨_, .sub h h'⟩
  | mul _ _ _ _ i j => obtain ⟨t, h⟩ := i; obtain ⟨u, h'⟩ := j; exact ⟨_, .mul h h'⟩
  | div _ _ _ _ i j => obtain ⟨t, h⟩ := i; obtain ⟨u, h'⟩ := j; exact ⟨_, .div h h'⟩
  | pow _ _ _ _ i j => obtain ⟨t, h⟩ := i; obtain ⟨u, h'⟩ := j; exact ⟨_, .pow h h'⟩

theorem R.tree (h : R a t) : Tree a := by
  induction h with
  | num n => exact .num _ trivial
  | var y => exact .var y
  | neg _ i => exact .neg _ i
  | sin _ i => exact .sin _ i
  | cos _ i => exact .cos _ i
  | exp _ i => exact .exp _ i
  | ln _ i => exact .ln _ i
  | add _ _ i j => exact .add _ _ i j
  | sub _ _ i j => exact .sub _ _ i j
  | mul _ _ i j => exact .mul _ _ i j
  | div _ _ i j => exact .div _ _ i j
  | pow _ _ i j => exact .pow _ _ i j

theorem R.inv_num {n : SmartNum F} (h : R (ofNum n) t) : ∃ hn : n.Valid, t = .num ⟨n, hn⟩ := by
  generalize he : Expr.ofNum n = e at h
  cases h <;> expr_inj at he
  subst he; exact ⟨Subtype.property _, rfl⟩
theorem R.inv_var {y : Variable} (h : R (ofVar y) t) : t = .var y := by
  generalize he : (Expr.ofVar y : Expr F) = e at h
  cases h <;> expr_inj at he
  rw [Variable.name_eq.1 he]
theorem R.inv_neg (h : R a.neg t) : ∃ s, t = .neg s ∧ R a s := by
  generalize he : a.neg = e at h
  cases h <;> expr_inj at he
  subst he; exact ⟨_, rfl, ‹_›⟩
theorem R.inv_sin (h : R a.sin t) : ∃ s, t = .sin s ∧ R a s := by
  generalize he : a.sin = e at h
  cases h <;> expr_inj at he
  subst he; exact ⟨_, rfl, ‹_›⟩
theorem R.inv_cos (h : R a.cos t) : ∃ s, t = .cos s ∧ R a s := by
  generalize he : a.cos = e at h
  cases h <;> expr_inj at he
  subst he; exact ⟨_, rfl, ‹_›⟩
theorem R.inv_exp (h : R a.exp t) : ∃ s, t = .exp s ∧ R a s := by
  generalize he : a.exp = e at h
  cases h <;> expr_inj at he
  subst he; exact ⟨_, rfl, ‹_›⟩
theorem R.inv_ln (h : R a.ln t) : ∃ s, t = .ln s ∧ R a s := by
  generalize he : a.ln = e at h
  cases h <;> expr_inj at he
  subst he; exact ⟨_, rfl, ‹_›⟩
theorem R.inv_add (h : R (a.add b) t) : ∃ s u, t = .add s u ∧ R a s ∧ R b u := by
  generalize he : a.add b = e at h
  cases h <;> expr_inj at he
  obtain ⟨rfl, rfl⟩ := he; exact ⟨_, _, rfl, ‹_›, ‹_›⟩
theorem R.inv_sub (h : R (a.sub b) t) : ∃ s u, t = .sub s u ∧ R a s ∧ R b u := by
  generalize he : a.sub b = e at h
  cases h <;> expr_inj at he
  obtain ⟨rfl, rfl⟩ := he; exact ⟨_, _, rfl, ‹_›, ‹_›⟩
theorem R.inv_mul (h : R (a.mul b) t) : ∃ s u, t = .mul s u ∧ R a s ∧ R b u := by
  generalize he : a.mul b = e at h
  cases h <;> expr_inj at he
  obtain ⟨rfl, rfl⟩ := he; exact ⟨_, _, rfl, ‹_›, ‹_›⟩
theorem R.inv_div (h : R (a.div b) t) : ∃ s u, t = .div s u ∧ R a s ∧ R b u := by
  generalize he : a.div b = e at h
  cases h <;> expr_inj at he
  obtain ⟨rfl, rfl⟩ := he; exact ⟨_, _, rfl, ‹_›, ‹_›⟩
theorem R.inv_pow (h : R (a.pow b) t) : ∃ s u, t = .pow s u ∧ R a s ∧ R b u := by
  generalize he : a.pow b = e at h
  cases h <;> expr_inj at he
  obtain ⟨rfl, rfl⟩ := he; exact ⟨_, _, rfl, ‹_›, ‹_›⟩

theorem R.isNum (h : R a t) : a.isNum = true ↔ t.isNum := by
  cases h <;> simp [Expr.isNum, ofNum, ofVar, newVariable, Expr.neg, Expr.add, Expr.sub, Expr.mul, Expr.div, Expr.sin,
    Expr.cos, Expr.exp, Expr.ln, Expr.pow, genOpNeg, genOpAdd, genOpSub, genOpMul, genOpDiv, genOpSin, genOpCos, genOpExp,
    genOpLn, genOpPow, AstOperand.isNum, Expr.root]
theorem R.isZero (h : R a t) : a.isZero = true ↔ t.Z := by
  cases h with
  | num n => exact Iff.rfl
  | _ => simp [Tm.Z, Expr.isZero, ofVar, newVariable, Expr.neg, Expr.add, Expr.sub, Expr.mul, Expr.div, Expr.sin,
    Expr.cos, Expr.exp, Expr.ln, Expr.pow, genOpNeg, genOpAdd, genOpSub, genOpMul, genOpDiv, genOpSin, genOpCos, genOpExp,
    genOpLn, genOpPow, AstOperand.isZero, Expr.root]
theorem R.isOne (h : R a t) : a.isOne = true ↔ t.O := by
  cases h with
  | num n => exact Iff.rfl
  | _ => simp [Tm.O, Expr.isOne, ofVar, newVariable, Expr.neg, Expr.add, Expr.sub, Expr.mul, Expr.div, Expr.sin,
    Expr.cos, Expr.exp, Expr.ln, Expr.pow, genOpNeg, genOpAdd, genOpSub, genOpMul, genOpDiv, genOpSin, genOpCos, genOpExp,
    genOpLn, genOpPow, AstOperand.isOne, Expr.root]

theorem R.unique (h : R a t) (h' : R b t) : a = b := by
  induction h generalizing b with
  | num n => cases h'; rfl
  | var y => cases h'; rfl
  | neg _ i => cases h' with | neg h => rw [i h]
  | sin _ i => cases h' with | sin h => rw [i h]
  | cos _ i => cases h' with | cos h => rw [i h]
  | exp _ i => cases h' with | exp h => rw [i h]
  | ln _ i => cases h' with | ln h => rw [i h]
  | add _ _ i j => cases h' with | add h h' => rw [i h, j h']
  | sub _ _ i j => cases h' with | sub h h' => rw [i h, j h']
  | mul _ _ i j => cases h' with | mul h h' => rw [i h, j h']
  | div _ _ i j => cases h' with | div h h' => rw [i h, j h']
  | pow _ _ i j => cases h' with | pow h h' => rw [i h, j h']

theorem R.zero : R (Expr.ofI64 0 : Expr F) (.num NumAlg.zero) := R.num ⟨SmartNum.zero, SmartNum.valid_zero⟩
theorem R.one : R (Expr.ofI64 1 : Expr F) (.num NumAlg.one) := R.num ⟨SmartNum.one, SmartNum.valid_one⟩
theorem R.e : R (Expr.e : Expr F) (.num NumAlg.e) := R.num ⟨SmartNum.e, SmartNum.valid_e⟩

open Tm in
theorem R.agg {m : Mode} {e d : Expr F} (hg : Agg m e d) {t : Tm (VNum F)} (h : R e t) : R d t.agg := by
  induction hg generalizing t with
  | num n => obtain ⟨hp, rfl⟩ := h.inv_num; exact .num ⟨n, hp⟩
  | var v => obtain rfl := h.inv_var; exact .var v
  | neg_num _ hk i =>
    obtain ⟨s, rfl, h'⟩ := h.inv_neg
    obtain ⟨hp, e⟩ := (i h').inv_num
    obtain ⟨hz, e'⟩ := num_neg hp hk
    rw [Tm.agg, e, negR, e']; exact .num ⟨_, hz⟩
  | neg_neg _ i =>
    obtain ⟨s, rfl, h'⟩ := h.inv_neg
    obtain ⟨c, e, h⟩ := (i h').inv_neg
    rw [Tm.agg, e, negR]; exact h
  | neg _ hn hc i =>
    obtain ⟨s, rfl, h'⟩ := h.inv_neg
    have i := i h'
    have e : negR s.agg = s.agg.neg := by
      rcases negR_cases s.agg with ⟨h, -⟩ | ⟨c, h, -⟩ | ⟨-, -, h⟩
      · rw [← i.isNum, hn] at h; cases h
      · rw [h] at i
        cases i with
        | neg _ => exact absurd rfl (hc _)
      · exact h
    rw [Tm.agg, e]; exact .neg i
  | add_num _ _ hk i j =>
    obtain ⟨s, u, rfl, h1, h2⟩ := h.inv_add
    obtain ⟨p1, e1⟩ := (i h1).inv_num
    obtain ⟨p2, e2⟩ := (j h2).inv_num
    obtain ⟨hz, e'⟩ := num_add p1 p2 hk
    rw [Tm.agg, e1, e2, addR, e']; exact .num ⟨_, hz⟩
  | add_zero_l _ _ h0 hn i j =>
    obtain ⟨s, u, rfl, h1, h2⟩ := h.inv_add
    have z : s.agg.Z := (i h1).isZero.1 h0
    have nn : ¬ u.agg.isNum := by rw [← (j h2).isNum, hn]; simp
    have e : addR s.agg u.agg = u.agg := by
      rcases addR_cases s.agg u.agg with ⟨-, h, -⟩ | ⟨-, -, h⟩ | ⟨-, h, -⟩ | ⟨-, h, -⟩
      · exact absurd h nn
      · exact h
      · exact absurd z.isNum h
      · exact absurd z h
    rw [Tm.agg, e]; exact j h2
  | add_zero_r _ _ h0 hn i j =>
    obtain ⟨s, u, rfl, h1, h2⟩ := h.inv_add
    have z : u.agg.Z := (j h2).isZero.1 h0
    have nn : ¬ s.agg.isNum := by rw [← (i h1).isNum, hn]; simp
    have e : addR s.agg u.agg = s.agg := by
      rcases addR_cases s.agg u.agg with ⟨h, -⟩ | ⟨h, -⟩ | ⟨-, -, h⟩ | ⟨-, -, h, -⟩
      · exact absurd h nn
      · exact absurd h.isNum nn
      · exact h
      · exact absurd z h
    rw [Tm.agg, e]; exact i h1
  | add _ _ hn h1 h2 i j =>
    obtain ⟨s, u, rfl, i', j'⟩ := h.inv_add
    have i := i i'
    have j := j j'
    have e : addR s.agg u.agg = s.agg.add u.agg := by
      rcases addR_cases s.agg u.agg with ⟨h, h', -⟩ | ⟨h, -⟩ | ⟨h, -⟩ | ⟨-, -, -, h⟩
      · rw [← i.isNum] at h; rw [← j.isNum] at h'; rw [h, h'] at hn; cases hn
      · rw [← i.isZero, h1] at h; cases h
      · rw [← j.isZero, h2] at h; cases h
      · exact h
    rw [Tm.agg, e]; exact .add i j
  | sub_num _ _ hk i j =>
    obtain ⟨s, u, rfl, h1, h2⟩ := h.inv_sub
    obtain ⟨p1, e1⟩ := (i h1).inv_num
    obtain ⟨p2, e2⟩ := (j h2).inv_num
    obtain ⟨hz, e'⟩ := num_sub p1 p2 hk
    rw [Tm.agg, e1, e2, subR, e']; exact .num ⟨_, hz⟩
  | sub_zero_l _ _ h0 hn i j =>
    obtain ⟨s, u, rfl, h1, h2⟩ := h.inv_sub
    have z : s.agg.Z := (i h1).isZero.1 h0
    have nn : ¬ u.agg.isNum := by rw [← (j h2).isNum, hn]; simp
    have e : subR s.agg u.agg = u.agg.neg := subR_Z_left z nn
    rw [Tm.agg, e]; exact .neg (j h2)
  | sub_zero_r _ _ h0 hn i j =>
    obtain ⟨s, u, rfl, h1, h2⟩ := h.inv_sub
    have z : u.agg.Z := (j h2).isZero.1 h0
    have nn : ¬ s.agg.isNum := by rw [← (i h1).isNum, hn]; simp
    have e : subR s.agg u.agg = s.agg := by
      rcases subR_cases s.agg u.agg with ⟨h, -⟩ | ⟨h, -⟩ | ⟨-, -, h⟩ | ⟨-, -, h, -⟩
      · exact absurd h nn
      · exact absurd h.isNum nn
      · exact h
      · exact absurd z h
    rw [Tm.agg, e]; exact i h1
  | sub _ _ hn h1 h2 i j =>
    obtain ⟨s, u, rfl, i', j'⟩ := h.inv_sub
    have i := i i'
    have j := j j'
    have e : subR s.agg u.agg = s.agg.sub u.agg := by
      rcases subR_cases s.agg u.agg with ⟨h, h', -⟩ | ⟨h, -⟩ | ⟨h, -⟩ | ⟨-, -, -, h⟩
      · rw [← i.isNum] at h; rw [← j.isNum] at h'; rw [h, h'] at hn; cases hn
      · rw [← i.isZero, h1] at h; cases h
      · rw [← j.isZero, h2] at h; cases h
      · exact h
    rw [Tm.agg, e]; exact .sub i j
  | mul_num _ _ hk i j =>
    obtain ⟨s, u, rfl, h1, h2⟩ := h.inv_mul
    obtain ⟨p1, e1⟩ := (i h1).inv_num
    obtain ⟨p2, e2⟩ := (j h2).inv_num
    obtain ⟨hz, e'⟩ := num_mul p1 p2 hk
    rw [Tm.agg, e1, e2, mulR, e']; exact .num ⟨_, hz⟩
  | mul_zero_l _ _ h0 hn i j =>
    obtain ⟨s, u, rfl, h1, h2⟩ := h.inv_mul
    have z : s.agg.Z := (i h1).isZero.1 h0
    have nn : ¬ u.agg.isNum := by rw [← (j h2).isNum, hn]; simp
    have e : mulR s.agg u.agg = Tm.num NumAlg.zero := mulR_zero_l z nn
    rw [Tm.agg, e]; exact R.zero
  | mul_zero_r _ _ h0 hn i j =>
    obtain ⟨s, u, rfl, h1, h2⟩ := h.inv_mul
    have z : u.agg.Z := (j h2).isZero.1 h0
    have nn : ¬ s.agg.isNum := by rw [← (i h1).isNum, hn]; simp
    have e : mulR s.agg u.agg = Tm.num NumAlg.zero := mulR_zero_r z nn
    rw [Tm.agg, e]; exact R.zero
  | mul_one_l _ _ h0 hn i j =>
    obtain ⟨s, u, rfl, h1, h2⟩ := h.inv_mul
    have z : s.agg.O := (i h1).isOne.1 h0
    have nn : ¬ u.agg.isNum := by rw [← (j h2).isNum, hn]; simp
    rw [Tm.agg, mulR_one_l z nn]; exact j h2
  | mul_one_r _ _ h0 hn i j =>
    obtain ⟨s, u, rfl, h1, h2⟩ := h.inv_mul
    have z : u.agg.O := (j h2).isOne.1 h0
    have nn : ¬ s.agg.isNum := by rw [← (i h1).isNum, hn]; simp
    rw [Tm.agg, mulR_O_right nn z]; exact i h1
  | mul _ _ hn h1 h2 h3 h4 i j =>
    obtain ⟨s, u, rfl, i', j'⟩ := h.inv_mul
    have i := i i'
    have j := j j'
    have e : mulR s.agg u.agg = s.agg.mul u.agg := by
      rcases mulR_cases s.agg u.agg with ⟨h, h', -⟩ | ⟨h | h, -⟩ | ⟨h, -⟩ | ⟨h, -⟩ | ⟨-, -, -, -, -, h⟩
      · rw [← i.isNum] at h; rw [← j.isNum] at h'; rw [h, h'] at hn; cases hn
      · rw [← i.isZero, h1] at h; cases h
      · rw [← j.isZero, h2] at h; cases h
      · rw [← i.isOne, h3] at h; cases h
      · rw [← j.isOne, h4] at h; cases h
      · exact h
    rw [Tm.agg, e]; exact .mul i j
  | div_num _ _ hk i j =>
    obtain ⟨s, u, rfl, h1, h2⟩ := h.inv_div
    obtain ⟨p1, e1⟩ := (i h1).inv_num
    obtain ⟨p2, e2⟩ := (j h2).inv_num
    obtain ⟨hz, e'⟩ := num_div p1 p2 hk
    rw [Tm.agg, e1, e2, divR, e']; exact .num ⟨_, hz⟩
  | div_zero_l _ _ h0 hn i j =>
    obtain ⟨s, u, rfl, h1, h2⟩ := h.inv_div
    have z : s.agg.Z := (i h1).isZero.1 h0
    have nn : ¬ u.agg.isNum := by rw [← (j h2).isNum, hn]; simp
    have e : divR s.agg u.agg = Tm.num NumAlg.zero := by
      rcases divR_cases s.agg u.agg with ⟨-, h, -⟩ | ⟨-, -, h⟩ | ⟨-, h, -⟩
      · exact absurd h nn
      · exact h
      · exact absurd z h
    rw [Tm.agg, e]; exact R.zero
  | div _ _ hn h1 i j =>
    obtain ⟨s, u, rfl, i', j'⟩ := h.inv_div
    have i := i i'
    have j := j j'
    have e : divR s.agg u.agg = s.agg.div u.agg := by
      rcases divR_cases s.agg u.agg with ⟨h, h', -⟩ | ⟨h, -⟩ | ⟨-, -, h⟩
      · rw [← i.isNum] at h; rw [← j.isNum] at h'; rw [h, h'] at hn; cases hn
      · rw [← i.isZero, h1] at h; cases h
      · exact h
    rw [Tm.agg, e]; exact .div i j
  | sin_num _ hk i =>
    obtain ⟨s, rfl, h'⟩ := h.inv_sin
    obtain ⟨hp, e⟩ := (i h').inv_num
    rw [Tm.agg, e, sinR, if_pos (by rw [Bool.or_eq_true] at hk; exact hk)]; exact R.zero
  | sin _ h0 hp i =>
    obtain ⟨s, rfl, h'⟩ := h.inv_sin
    have i := i h'
    have e : sinR s.agg = s.agg.sin := by
      cases hs : s.agg with
      | num v =>
        rw [hs] at i
        cases i
        rw [sinR, if_neg]
        rintro (h | h)
        · exact Bool.noConfusion (h.symm.trans h0)
        · exact Bool.noConfusion (h.symm.trans hp)
      | _ => rfl
    rw [Tm.agg, e]; exact .sin i
  | cos_num _ hk i =>
    obtain ⟨s, rfl, h'⟩ := h.inv_cos
    obtain ⟨hp, e⟩ := (i h').inv_num
    rw [Tm.agg, e, cosR, if_pos (by rw [Bool.or_eq_true] at hk; exact hk)]; exact R.one
  | cos _ h0 hp i =>
    obtain ⟨s, rfl, h'⟩ := h.inv_cos
    have i := i h'
    have e : cosR s.agg = s.agg.cos := by
      cases hs : s.agg with
      | num v =>
        rw [hs] at i
        cases i
        rw [cosR, if_neg]
        rintro (h | h)
        · exact Bool.noConfusion (h.symm.trans h0)
        · exact Bool.noConfusion (h.symm.trans hp)
      | _ => rfl
    rw [Tm.agg, e]; exact .cos i
  | exp_zero _ h0 i =>
    obtain ⟨s, rfl, h'⟩ := h.inv_exp
    obtain ⟨hp, e⟩ := (i h').inv_num
    rw [Tm.agg, e, expR, if_pos (show NumAlg.isZ (⟨_, hp⟩ : VNum F) from h0)]; exact R.one
  | exp_one _ h0 i =>
    obtain ⟨s, rfl, h'⟩ := h.inv_exp
    obtain ⟨hp, e⟩ := (i h').inv_num
    have ho : NumAlg.isO (⟨_, hp⟩ : VNum F) := h0
    rw [Tm.agg, e, expR, if_neg (NumAlg.not_isZ _ ho), if_pos ho]; exact R.e
  | exp_ln _ i =>
    obtain ⟨s, rfl, h'⟩ := h.inv_exp
    obtain ⟨c, e, h⟩ := (i h').inv_ln
    rw [Tm.agg, e, expR]; exact h
  | exp _ h0 h1 hc i =>
    obtain ⟨s, rfl, h'⟩ := h.inv_exp
    have i := i h'
    have e : expR s.agg = s.agg.exp := by
      cases hs : s.agg with
      | num v =>
        rw [hs] at i
        cases i
        rw [expR, if_neg fun h => Bool.noConfusion (h.symm.trans h0), if_neg fun h => Bool.noConfusion (h.symm.trans h1)]
      | ln c =>
        rw [hs] at i
        cases i with
        | ln _ => exact absurd rfl (hc _)
      | _ => rfl
    rw [Tm.agg, e]; exact .exp i
  | ln_e _ h0 i =>
    obtain ⟨s, rfl, h'⟩ := h.inv_ln
    obtain ⟨hp, e⟩ := (i h').inv_num
    rw [Tm.agg, e, lnR, if_pos (show NumAlg.isE (⟨_, hp⟩ : VNum F) from h0)]; exact R.one
  | ln_one _ h0 i =>
    obtain ⟨s, rfl, h'⟩ := h.inv_ln
    obtain ⟨hp, e⟩ := (i h').inv_num
    have ho : NumAlg.isO (⟨_, hp⟩ : VNum F) := h0
    rw [Tm.agg, e, lnR, if_neg (NumAlg.not_isE _ ho), if_pos ho]; exact R.zero
  | ln_exp _ i =>
    obtain ⟨s, rfl, h'⟩ := h.inv_ln
    obtain ⟨c, e, h⟩ := (i h').inv_exp
    rw [Tm.agg, e, lnR]; exact h
  | ln _ h0 h1 hc i =>
    obtain ⟨s, rfl, h'⟩ := h.inv_ln
    have i := i h'
    have e : lnR s.agg = s.agg.ln := by
      cases hs : s.agg with
      | num v =>
        rw [hs] at i
        cases i
        rw [lnR, if_neg fun h => Bool.noConfusion (h.symm.trans h0), if_neg fun h => Bool.noConfusion (h.symm.trans h1)]
      | exp c =>
        rw [hs] at i
        cases i with
        | exp _ => exact absurd rfl (hc _)
      | _ => rfl
    rw [Tm.agg, e]; exact .ln i
  | pow_zero _ _ h0 i j =>
    obtain ⟨s, u, rfl, h1, h2⟩ := h.inv_pow
    obtain ⟨hp, e⟩ := (i h1).inv_num
    rw [Tm.agg, e, powR, if_pos (show NumAlg.isZ (⟨_, hp⟩ : VNum F) from h0)]; exact R.one
  | pow_one _ _ h0 i j =>
    obtain ⟨s, u, rfl, h1, h2⟩ := h.inv_pow
    obtain ⟨hp, e⟩ := (i h1).inv_num
    have ho : NumAlg.isO (⟨_, hp⟩ : VNum F) := h0
    rw [Tm.agg, e, powR, if_neg (NumAlg.not_isZ _ ho), if_pos ho]; exact j h2
  | pow_ln _ _ i j =>
    obtain ⟨s, u, rfl, h1, h2⟩ := h.inv_pow
    obtain ⟨c, e, h⟩ := (i h1).inv_ln
    rw [Tm.agg, e, powR]; exact h
  | pow _ _ h0 h1 hc i j =>
    obtain ⟨s, u, rfl, i', j'⟩ := h.inv_pow
    have i := i i'
    have j := j j'
    have e : powR s.agg u.agg = s.agg.pow u.agg := by
      cases hs : s.agg with
      | num v =>
        rw [hs] at i
        cases i
        rw [powR, if_neg fun h => Bool.noConfusion (h.symm.trans h0), if_neg fun h => Bool.noConfusion (h.symm.trans h1)]
      | ln c =>
        rw [hs] at i
        cases i with
        | ln _ => exact absurd rfl (hc _)
      | _ => rfl
    rw [Tm.agg, e]; exact .pow i j

theorem R.der {m : Mode} {x : Variable} {e d : Expr F} (hg : Der m x e d) {t : Tm (VNum F)} (h : R e t) : R d (t.der x) := by
  induction hg generalizing t with
  | num n => obtain ⟨hp, rfl⟩ := h.inv_num; exact R.zero
  | var => obtain rfl := h.inv_var; rw [Tm.der, if_pos rfl]; exact R.one
  | var_ne y hy => obtain rfl := h.inv_var; rw [Tm.der, if_neg hy]; exact R.zero
  | neg _ hg i =>
    obtain ⟨s, rfl, h'⟩ := h.inv_neg
    exact R.agg hg (.neg (i h'))
  | add _ _ hg i j =>
    obtain ⟨s, u, rfl, h1, h2⟩ := h.inv_add
    exact R.agg hg (.add (i h1) (j h2))
  | sub _ _ hg i j =>
    obtain ⟨s, u, rfl, h1, h2⟩ := h.inv_sub
    exact R.agg hg (.sub (i h1) (j h2))
  | mul _ _ hg i j =>
    obtain ⟨s, u, rfl, h1, h2⟩ := h.inv_mul
    exact R.agg hg (.add (.mul (i h1) h2) (.mul h1 (j h2)))
  | div _ _ hg i j =>
    obtain ⟨s, u, rfl, h1, h2⟩ := h.inv_div
    exact R.agg hg (.div (.sub (.mul (i h1) h2) (.mul h1 (j h2))) (.mul h2 h2))
  | sin _ hg i =>
    obtain ⟨s, rfl, h'⟩ := h.inv_sin
    exact R.agg hg (.mul (.cos h') (i h'))
  | cos _ hg i =>
    obtain ⟨s, rfl, h'⟩ := h.inv_cos
    exact R.agg hg (.mul (.neg (.sin h')) (i h'))
  | exp _ hg i =>
    obtain ⟨s, rfl, h'⟩ := h.inv_exp
    exact R.agg hg (.mul (i h') (.exp h'))
  | ln _ hg i =>
    obtain ⟨s, rfl, h'⟩ := h.inv_ln
    exact R.agg hg (.div (i h') h')
  | pow _ _ hg i j =>
    obtain ⟨s, u, rfl, h1, h2⟩ := h.inv_pow
    exact R.agg hg (.mul (.pow h1 h2) (.add (.mul (j h2) (.ln h1)) (.div (.mul h2 (i h1)) h1)))

end

/-! ### `limit` on described expressions -/

section
variable {m : Mode} {x : Variable} {pt : Expr F} {k : UInt64}

/-- The recursion of `limit` on `e` ends. -/
def Ends (m : Mode) (x : Variable) (pt : Expr F) (k : UInt64) (e : Expr F) : Prop := ∃ n, limit m x pt k n e ≠ .fuel

theorem ends_common (hp : Tree pt) {a b : Expr F} (ha : Tree a) (hb : Tree b) (h1 : Ends m x pt k a) (h2 : Ends m x pt k b) :
    ∃ N, ∀ n, N ≤ n → limit m x pt k n a ≠ .fuel ∧ limit m x pt k n b ≠ .fuel := by
  obtain ⟨n, h1⟩ := h1
  obtain ⟨n', h2⟩ := h2
  refine ⟨max n n', fun j hj => ?_⟩
  rw [limit_fuel hp ha h1 (by omega), limit_fuel hp hb h2 (by omega)]
  exact ⟨h1, h2⟩

theorem finish_ne_fuel (a : LimitExpression F) : finish m a ≠ .fuel := by
  cases a with
  | normal e => simp only [finish]; cases e.numAggregate m <;> simp
  | _ => simp [finish]
theorem substLimit_ne_fuel (e : Expr F) : substLimit m e x pt ≠ .fuel := by
  rw [substLimit_eq]
  cases (e.replace x pt).numAggregate m with
  | panic => simp
  | ok z => simp only [LOut.ofRes_ok, LOut.ok_bind]; split_ifs <;> simp

theorem ends_neg (a : Expr F) : Ends m x pt k a.neg := ⟨1, by rw [limit_neg]; simp⟩
theorem ends_sub (a b : Expr F) : Ends m x pt k (a.sub b) := ⟨3, by rw [limit_sub_panic]; simp⟩
theorem ends_num (v : SmartNum F) : Ends m x pt k (ofNum v) := ⟨1, by rw [limit_ofNum]; simp⟩
theorem ends_var (y : Variable) : Ends m x pt k (ofVar y) :=
  ⟨1, by rw [limit_ofVar]; exact LOut.bind_ne_fuel (by split_ifs <;> simp) fun a _ => finish_ne_fuel a⟩
theorem ends_sin (a : Expr F) : Ends m x pt k a.sin :=
  ⟨1, by rw [limit_sin]; exact LOut.bind_ne_fuel (by split_ifs; simp; exact substLimit_ne_fuel _) fun a _ => finish_ne_fuel a⟩
theorem ends_cos (a : Expr F) : Ends m x pt k a.cos :=
  ⟨1, by rw [limit_cos]; exact LOut.bind_ne_fuel (substLimit_ne_fuel _) fun a _ => finish_ne_fuel a⟩

theorem limit_neg_ok (a : Expr F) (n : ℕ) (z : LimitExpression F) : limit m x pt k n a.neg ≠ .ok z := by
  cases n with
  | zero => simp [limit]
  | succ n => rw [limit_neg]; simp
theorem limit_sub_ok (a b : Expr F) (n : ℕ) (z : LimitExpression F) : limit m x pt k n (a.sub b) ≠ .ok z := by
  match n with
  | 0 => simp [limit]
  | 1 => rw [limit_sub]; simp [limit]
  | 2 => rw [limit_sub, limit_add, addBody]; simp [limit]
  | n + 3 => rw [limit_sub_panic]; simp

/-- Only clean trees are answered. -/
theorem R.clean {e : Expr F} {t : Tm (VNum F)} (h : R e t) {n : ℕ} {z : LimitExpression F}
    (hz : limit m x pt k n e = .ok z) : t.Clean := by
  induction h generalizing n z with
  | num | var | sin | cos => trivial
  | neg _ _ => exact absurd hz (limit_neg_ok _ _ _)
  | exp =>
    cases n with
    | zero => simp [limit] at hz
    | succ n => rw [limit_exp] at hz; cases hz
  | ln =>
    cases n with
    | zero => simp [limit] at hz
    | succ n => rw [limit_ln] at hz; cases hz
  | pow =>
    cases n with
    | zero => simp [limit] at hz
    | succ n => rw [limit_pow] at hz; cases hz
  | sub _ _ _ _ => exact absurd hz (limit_sub_ok _ _ _ _)
  | add _ _ i j =>
    cases n with
    | zero => simp [limit] at hz
    | succ n =>
      rw [limit_add] at hz
      simp only [addBody, LOut.bind_eq_ok] at hz
      obtain ⟨w, ⟨r, hr, l, hl, -⟩, -⟩ := hz
      exact ⟨i hl, j hr⟩
  | mul _ _ i j =>
    cases n with
    | zero => simp [limit] at hz
    | succ n =>
      rw [limit_mul] at hz
      simp only [mulBody, LOut.bind_eq_ok] at hz
      obtain ⟨w, ⟨r, hr, l, hl, -⟩, -⟩ := hz
      exact ⟨i hl, j hr⟩
  | div _ _ i j =>
    cases n with
    | zero => simp [limit] at hz
    | succ n =>
      rw [limit_div] at hz
      simp only [divLoop, LOut.bind_eq_ok] at hz
      obtain ⟨w, ⟨l, hl, r, hr, -⟩, -⟩ := hz
      exact ⟨i hl, j hr⟩

theorem not_bf {e : Expr F} (he : Tree e) {n : ℕ} {z : LimitExpression F} (hz : limit m x pt k n e = .ok z) :
    z ≠ .boundedFluctuation := limit_not_bf n e z he hz

variable (hp : Tree pt)
include hp

theorem divLoop_ends (j : ℕ) : ∀ {l r : Expr F} {s u : Tm (VNum F)}, R l s → R r u →
    CT x (fun t : Tm (VNum F) => ∀ e, R e t → Ends m x pt k e) j s →
    CT x (fun t : Tm (VNum F) => ∀ e, R e t → Ends m x pt k e) j u →
    ∃ N, ∀ n, N ≤ n → divLoop m (limit m x pt k n) x j l r ≠ .fuel := by
  induction j with
  | zero => intro l r s u _ _ _ _; exact ⟨0, fun n _ => by simp [divLoop]⟩
  | succ j ih =>
    intro l r s u hl hr cl cr
    obtain ⟨N, hN⟩ := ends_common hp hl.tree hr.tree (cl.1 l hl) (cr.1 r hr)
    by_cases hc : s.Clean ∧ u.Clean ∧ ∃ dl dr, l.derivative m x = .ok dl ∧ r.derivative m x = .ok dr
    · obtain ⟨hs, hu, dl, dr, el, er⟩ := hc
      obtain ⟨N', hN'⟩ := ih (R.der (der_of_derivative hl.tree el) hl) (R.der (der_of_derivative hr.tree er) hr)
        (cl.2 hs) (cr.2 hu)
      refine ⟨max N N', fun n hn => ?_⟩
      obtain ⟨h1, h2⟩ := hN n (by omega)
      simp only [divLoop]
      refine LOut.bind_ne_fuel h1 fun a ha => LOut.bind_ne_fuel h2 fun b hb => ?_
      cases a.div b with
      | some z => simp
      | none => simp only [el, er, LOut.ofOut_ok, LOut.ok_bind]; exact hN' n (by omega)
    · refine ⟨N, fun n hn => ?_⟩
      obtain ⟨h1, h2⟩ := hN n hn
      simp only [divLoop]
      refine LOut.bind_ne_fuel h1 fun a ha => LOut.bind_ne_fuel h2 fun b hb => ?_
      cases a.div b with
      | some z => simp
      | none =>
        dsimp only
        cases el : l.derivative m x with
        | panic => simp
        | err e => simp
        | ok dl =>
          cases er : r.derivative m x with
          | panic => simp
          | err e => simp
          | ok dr => exact absurd ⟨hl.clean ha, hr.clean hb, dl, dr, el, er⟩ hc

theorem tsys : TSys x (fun t : Tm (VNum F) => ∀ e, R e t → Ends m x pt k e) where
  num v e h := by cases h; exact ends_num _
  var y e h := by cases h; exact ends_var _
  neg a e h := by cases h; exact ends_neg _
  sub a b e h := by cases h; exact ends_sub _ _
  sin a e h := by cases h; exact ends_sin _
  cos a e h := by cases h; exact ends_cos _
  exp a e h := by cases h; exact ⟨1, by rw [limit_exp]; simp⟩
  ln a e h := by cases h; exact ⟨1, by rw [limit_ln]; simp⟩
  pow a b e h := by cases h; exact ⟨1, by rw [limit_pow]; simp⟩
  add l r tl tr tn e h := by
    cases h with
    | @add a b _ _ ha hb =>
    obtain ⟨N, hN⟩ := ends_common hp ha.tree hb.tree (tl a ha) (tr b hb)
    by_cases hc : l.Clean ∧ r.Clean
    · have hd : R (((a.div b).add Expr.one).div (Expr.one.div b)) _ :=
        .div (.add (.div ha hb) (R.one)) (.div (R.one) hb)
      obtain ⟨N', hN'⟩ := ends_common hp hd.tree hd.tree (tn hc.1 hc.2 _ hd) (tn hc.1 hc.2 _ hd)
      refine ⟨max N N' + 1, ?_⟩
      rw [limit_add]
      obtain ⟨h1, h2⟩ := hN (max N N') (by omega)
      have h3 := (hN' (max N N') (by omega)).1
      refine LOut.bind_ne_fuel ?_ fun a _ => finish_ne_fuel a
      refine LOut.bind_ne_fuel h2 fun a ha => LOut.bind_ne_fuel h1 fun b hb => ?_
      cases b.add a with
      | some z => simp
      | none => exact h3
    · refine ⟨N + 1, ?_⟩
      rw [limit_add]
      obtain ⟨h1, h2⟩ := hN N le_rfl
      refine LOut.bind_ne_fuel ?_ fun a _ => finish_ne_fuel a
      refine LOut.bind_ne_fuel h2 fun a ha' => LOut.bind_ne_fuel h1 fun b hb' => ?_
      exact absurd ⟨ha.clean hb', hb.clean ha'⟩ hc
  addNum l v tl e h := by
    cases h with
    | @add a b _ _ ha hb =>
    cases hb with
    | num v =>
    obtain ⟨N, hN⟩ := ends_common hp ha.tree ha.tree (tl a ha) (tl a ha)
    refine ⟨N + 2, ?_⟩
    rw [limit_add]
    refine LOut.bind_ne_fuel ?_ fun a _ => finish_ne_fuel a
    rw [addBody, limit_ofNum]
    refine LOut.bind_ne_fuel (by simp) fun r hr => LOut.bind_ne_fuel (hN (N + 1) (by omega)).1 fun b hb => ?_
    simp only [LOut.ok.injEq] at hr
    subst hr
    cases b <;> simp [LimitExpression.add]
  mul l r tl tr tn e h := by
    cases h with
    | @mul a b _ _ ha hb =>
    obtain ⟨N, hN⟩ := ends_common hp ha.tree hb.tree (tl a ha) (tr b hb)
    by_cases hc : l.Clean ∧ r.Clean
    · have hd : R (b.div (Expr.one.div a)) _ := .div hb (.div (R.one) ha)
      have hd' : R (a.div (Expr.one.div b)) _ := .div ha (.div (R.one) hb)
      have tn := tn hc.1 hc.2
      obtain ⟨N', hN'⟩ := ends_common hp hd.tree hd'.tree (tn.1 _ hd) (tn.2 _ hd')
      refine ⟨max N N' + 1, ?_⟩
      rw [limit_mul]
      obtain ⟨h1, h2⟩ := hN (max N N') (by omega)
      obtain ⟨h3, h4⟩ := hN' (max N N') (by omega)
      refine LOut.bind_ne_fuel ?_ fun a _ => finish_ne_fuel a
      refine LOut.bind_ne_fuel h2 fun a ha => LOut.bind_ne_fuel h1 fun b hb => ?_
      cases b.mul a with
      | some z => simp
      | none => dsimp only; split_ifs <;> assumption
    · refine ⟨N + 1, ?_⟩
      rw [limit_mul]
      obtain ⟨h1, h2⟩ := hN N le_rfl
      refine LOut.bind_ne_fuel ?_ fun a _ => finish_ne_fuel a
      refine LOut.bind_ne_fuel h2 fun a ha' => LOut.bind_ne_fuel h1 fun b hb' => ?_
      exact absurd ⟨ha.clean hb', hb.clean ha'⟩ hc
  mulSelf r tr e h := by
    cases h with
    | @mul a b _ _ ha hb =>
    obtain rfl := ha.unique hb
    obtain ⟨N, hN⟩ := ends_common hp ha.tree ha.tree (tr a ha) (tr a ha)
    refine ⟨N + 1, ?_⟩
    rw [limit_mul]
    obtain ⟨h1, -⟩ := hN N le_rfl
    refine LOut.bind_ne_fuel ?_ fun a _ => finish_ne_fuel a
    refine LOut.bind_ne_fuel h1 fun z hz => LOut.bind_ne_fuel h1 fun w hw => ?_
    rw [hz] at hw
    cases hw
    cases z <;> simp [LimitExpression.mul]
  numDiv v r hv tr e h := by
    cases h with
    | @div a b _ _ ha hb =>
    cases ha with
    | num w =>
    obtain ⟨N, hN⟩ := ends_common hp hb.tree hb.tree (tr b hb) (tr b hb)
    refine ⟨N + 2, ?_⟩
    rw [limit_div]
    refine LOut.bind_ne_fuel ?_ fun a _ => finish_ne_fuel a
    rw [divLoop, limit_ofNum]
    refine LOut.bind_ne_fuel (by simp) fun r hr => LOut.bind_ne_fuel (hN (N + 1) (by omega)).1 fun b hb' => ?_
    simp only [LOut.ok.injEq] at hr
    subst hr
    have h0 : (ofNum v.1).isZero = false := by
      by_contra h
      exact hv (show v.1.isZero = true by simpa using h)
    have := not_bf hb.tree hb'
    cases b <;> simp_all [LimitExpression.div]
  div l r cl cr e h := by
    cases h with
    | @div a b _ _ ha hb =>
    obtain ⟨N, hN⟩ := divLoop_ends hp (k := k) (k.toNat + 1) ha hb (cl _) (cr _)
    refine ⟨N + 1, ?_⟩
    rw [limit_div]
    exact LOut.bind_ne_fuel (hN N le_rfl) fun a _ => finish_ne_fuel a
  negDiv a r e h := by
    cases h with
    | @div a b _ _ ha hb =>
    cases ha with
    | neg ha => exact ⟨2, by rw [limit_div, divLoop, limit_neg]; simp⟩
  subDiv a b r e h := by
    cases h with
    | @div a b _ _ ha hb =>
    cases ha with
    | sub ha hb => exact ⟨4, by rw [limit_div, divLoop, limit_sub_panic]; simp⟩

/-- `limit` ends. -/
theorem ends {e : Expr F} (he : WF SmartNum.Valid e) : Ends m x pt k e := by
  obtain ⟨t, h⟩ := R.of_wf he
  exact holds_all (tsys (k := k) (x := x) hp) t e h

end

end SymRust.End
