import Verif.Spec.Expr
/-! Basic lemmas about expressions. -/

namespace SymRust
variable {F : Type}

theorem WF.mono {P Q : SmartNum F → Prop} (h : ∀ n, P n → Q n) {e : Expr F} (he : WF P e) : WF Q e := by
  induction he with
  | num n hn => exact .num n (h n hn)
  | var v => exact .var v
  | neg _ _ i => exact .neg _ i
  | add _ _ _ _ i j => exact .add _ _ i j
  | sub _ _ _ _ i j => exact .sub _ _ i j
  | mul _ _ _ _ i j => exact .mul _ _ i j
  | div _ _ _ _ i j => exact .div _ _ i j
  | sin _ _ i => exact .sin _ i
  | cos _ _ i => exact .cos _ i
  | exp _ _ i => exact .exp _ i
  | ln _ _ i => exact .ln _ i
  | pow _ _ _ _ i j => exact .pow _ _ i j

theorem WF.tree {P : SmartNum F → Prop} {e : Expr F} (he : WF P e) : Tree e := he.mono fun _ _ => trivial

/-- simplify equations between API-built trees -/
macro "expr_inj" "at" h:ident : tactic =>
  `(tactic| simp [Expr.ofNum, Expr.ofI64, Expr.ofVar, Expr.newVariable, Expr.neg, Expr.add, Expr.sub, Expr.mul,
      Expr.div, Expr.sin, Expr.cos, Expr.exp, Expr.ln, Expr.pow, Expr.genOpNeg, Expr.genOpAdd,
      Expr.genOpSub, Expr.genOpMul, Expr.genOpDiv, Expr.genOpSin, Expr.genOpCos, Expr.genOpExp,
      Expr.genOpLn, Expr.genOpPow] at $h:ident)

section
variable {P : SmartNum F → Prop} {a b : Expr F}

theorem WF.num_iff {n : SmartNum F} : WF P (.ofNum n) ↔ P n :=
  ⟨fun h => by
    generalize he : Expr.ofNum n = e at h
    cases h <;> expr_inj at he
    subst he; assumption, .num n⟩
theorem WF.neg_iff : WF P a.neg ↔ WF P a :=
  ⟨fun h => by
    generalize he : a.neg = e at h
    cases h <;> expr_inj at he
    subst he; assumption, .neg a⟩
theorem WF.sin_iff : WF P a.sin ↔ WF P a :=
  ⟨fun h => by
    generalize he : a.sin = e at h
    cases h <;> expr_inj at he
    subst he; assumption, .sin a⟩
theorem WF.cos_iff : WF P a.cos ↔ WF P a :=
  ⟨fun h => by
    generalize he : a.cos = e at h
    cases h <;> expr_inj at he
    subst he; assumption, .cos a⟩
theorem WF.exp_iff : WF P a.exp ↔ WF P a :=
  ⟨fun h => by
    generalize he : a.exp = e at h
    cases h <;> expr_inj at he
    subst he; assumption, .exp a⟩
theorem WF.ln_iff : WF P a.ln ↔ WF P a :=
  ⟨fun h => by
    generalize he : a.ln = e at h
    cases h <;> expr_inj at he
    subst he; assumption, .ln a⟩
theorem WF.add_iff : WF P (a.add b) ↔ WF P a ∧ WF P b :=
  ⟨fun h => by
    generalize he : a.add b = e at h
    cases h <;> expr_inj at he
    obtain ⟨rfl, rfl⟩ := he; exact ⟨‹_›, ‹_›⟩, fun h => .add a b h.1 h.2⟩
theorem WF.sub_iff : WF P (a.sub b) ↔ WF P a ∧ WF P b :=
  ⟨fun h => by
    generalize he : a.sub b = e at h
    cases h <;> expr_inj at he
    obtain ⟨rfl, rfl⟩ := he; exact ⟨‹_›, ‹_›⟩, fun h => .sub a b h.1 h.2⟩
theorem WF.mul_iff : WF P (a.mul b) ↔ WF P a ∧ WF P b :=
  ⟨fun h => by
    generalize he : a.mul b = e at h
    cases h <;> expr_inj at he
    obtain ⟨rfl, rfl⟩ := he; exact ⟨‹_›, ‹_›⟩, fun h => .mul a b h.1 h.2⟩
theorem WF.div_iff : WF P (a.div b) ↔ WF P a ∧ WF P b :=
  ⟨fun h => by
    generalize he : a.div b = e at h
    cases h <;> expr_inj at he
    obtain ⟨rfl, rfl⟩ := he; exact ⟨‹_›, ‹_›⟩, fun h => .div a b h.1 h.2⟩
theorem WF.pow_iff : WF P (a.pow b) ↔ WF P a ∧ WF P b :=
  ⟨fun h => by
    generalize he : a.pow b = e at h
    cases h <;> expr_inj at he
    obtain ⟨rfl, rfl⟩ := he; exact ⟨‹_›, ‹_›⟩, fun h => .pow a b h.1 h.2⟩
end

/-! ### shapes -/

theorem WF.num_of_isNum {P : SmartNum F → Prop} {e : Expr F} (h : WF P e) (hn : e.isNum = true) :
    ∃ n, P n ∧ e = .ofNum n := by
  cases h with
  | num n hP => exact ⟨n, hP, rfl⟩
  | _ => cases hn

namespace Expr

@[simp] theorem isNum_ofNum (n : SmartNum F) : (ofNum n).isNum = true := rfl
@[simp] theorem isZero_ofNum (n : SmartNum F) : (ofNum n).isZero = n.isZero := rfl
@[simp] theorem isOne_ofNum (n : SmartNum F) : (ofNum n).isOne = n.isOne := rfl
@[simp] theorem isPi_ofNum (n : SmartNum F) : (ofNum n).isPi = n.isPi := rfl
@[simp] theorem isE_ofNum (n : SmartNum F) : (ofNum n).isE = n.isE := rfl

theorem isZero_isNum {e : Expr F} (h : e.isZero = true) : e.isNum = true := by
  unfold isZero at h; unfold isNum
  cases hr : e.root with
  | operator op => rw [hr] at h; cases h
  | operand o => rw [hr] at h; cases o <;> simp_all [AstOperand.isZero, AstOperand.isNum]
theorem isOne_isNum {e : Expr F} (h : e.isOne = true) : e.isNum = true := by
  unfold isOne at h; unfold isNum
  cases hr : e.root with
  | operator op => rw [hr] at h; cases h
  | operand o => rw [hr] at h; cases o <;> simp_all [AstOperand.isOne, AstOperand.isNum]

theorem ofNum_inj {a b : SmartNum F} : ofNum a = ofNum b ↔ a = b := by
  constructor
  · intro h; cases h; rfl
  · intro h; rw [h]

/-! ### occurrence, size, depth -/
variable (x : Variable) (a b : Expr F)

@[simp] theorem occurs_ofNum (n : SmartNum F) : Occurs x (ofNum n) ↔ False := by simp [ofNum, Occurs]
@[simp] theorem occurs_ofI64 (v : Int64) : Occurs x (ofI64 v : Expr F) ↔ False := occurs_ofNum x _
@[simp] theorem occurs_ofVar (y : Variable) : Occurs x (ofVar y : Expr F) ↔ y = x := by
  simp [ofVar, newVariable, Occurs]
@[simp] theorem occurs_neg : Occurs x a.neg ↔ Occurs x a := by simp [neg, Occurs, OccursList]
@[simp] theorem occurs_add : Occurs x (a.add b) ↔ Occurs x a ∨ Occurs x b := by simp [add, Occurs, OccursList]
@[simp] theorem occurs_sub : Occurs x (a.sub b) ↔ Occurs x a ∨ Occurs x b := by simp [sub, Occurs, OccursList]
@[simp] theorem occurs_mul : Occurs x (a.mul b) ↔ Occurs x a ∨ Occurs x b := by simp [mul, Occurs, OccursList]
@[simp] theorem occurs_div : Occurs x (a.div b) ↔ Occurs x a ∨ Occurs x b := by simp [div, Occurs, OccursList]
@[simp] theorem occurs_pow : Occurs x (a.pow b) ↔ Occurs x a ∨ Occurs x b := by simp [pow, Occurs, OccursList]
@[simp] theorem occurs_sin : Occurs x a.sin ↔ Occurs x a := by simp [sin, Occurs, OccursList]
@[simp] theorem occurs_cos : Occurs x a.cos ↔ Occurs x a := by simp [cos, Occurs, OccursList]
@[simp] theorem occurs_exp : Occurs x a.exp ↔ Occurs x a := by simp [exp, Occurs, OccursList]
@[simp] theorem occurs_ln : Occurs x a.ln ↔ Occurs x a := by simp [ln, Occurs, OccursList]

@[simp] theorem size_ofNum (n : SmartNum F) : size (ofNum n) = 1 := by simp [ofNum, size, sizeList]
@[simp] theorem size_ofI64 (v : Int64) : size (ofI64 v : Expr F) = 1 := size_ofNum _
@[simp] theorem size_ofVar (y : Variable) : size (ofVar y : Expr F) = 1 := by
  simp [ofVar, newVariable, size, sizeList]
@[simp] theorem size_neg : size a.neg = 1 + size a := by simp [neg, size, sizeList]
@[simp] theorem size_add : size (a.add b) = 1 + (size a + size b) := by simp [add, size, sizeList]
@[simp] theorem size_sub : size (a.sub b) = 1 + (size a + size b) := by simp [sub, size, sizeList]
@[simp] theorem size_mul : size (a.mul b) = 1 + (size a + size b) := by simp [mul, size, sizeList]
@[simp] theorem size_div : size (a.div b) = 1 + (size a + size b) := by simp [div, size, sizeList]
@[simp] theorem size_pow : size (a.pow b) = 1 + (size a + size b) := by simp [pow, size, sizeList]
@[simp] theorem size_sin : size a.sin = 1 + size a := by simp [sin, size, sizeList]
@[simp] theorem size_cos : size a.cos = 1 + size a := by simp [cos, size, sizeList]
@[simp] theorem size_exp : size a.exp = 1 + size a := by simp [exp, size, sizeList]
@[simp] theorem size_ln : size a.ln = 1 + size a := by simp [ln, size, sizeList]

theorem size_pos : 0 < size a := by cases a; simp only [size]; omega

@[simp] theorem depth_ofNum (n : SmartNum F) : depth (ofNum n) = 1 := by simp [ofNum, depth, depthList]
@[simp] theorem depth_ofI64 (v : Int64) : depth (ofI64 v : Expr F) = 1 := depth_ofNum _
@[simp] theorem depth_ofVar (y : Variable) : depth (ofVar y : Expr F) = 1 := by
  simp [ofVar, newVariable, depth, depthList]
@[simp] theorem depth_neg : depth a.neg = 1 + depth a := by simp [neg, depth, depthList]
@[simp] theorem depth_add : depth (a.add b) = 1 + max (depth a) (depth b) := by simp [add, depth, depthList]
@[simp] theorem depth_sub : depth (a.sub b) = 1 + max (depth a) (depth b) := by simp [sub, depth, depthList]
@[simp] theorem depth_mul : depth (a.mul b) = 1 + max (depth a) (depth b) := by simp [mul, depth, depthList]
@[simp] theorem depth_div : depth (a.div b) = 1 + max (depth a) (depth b) := by simp [div, depth, depthList]
@[simp] theorem depth_pow : depth (a.pow b) = 1 + max (depth a) (depth b) := by simp [pow, depth, depthList]
@[simp] theorem depth_sin : depth a.sin = 1 + depth a := by simp [sin, depth, depthList]
@[simp] theorem depth_cos : depth a.cos = 1 + depth a := by simp [cos, depth, depthList]
@[simp] theorem depth_exp : depth a.exp = 1 + depth a := by simp [exp, depth, depthList]
@[simp] theorem depth_ln : depth a.ln = 1 + depth a := by simp [ln, depth, depthList]

theorem depth_pos : 0 < depth a := by cases a; simp only [depth]; omega

end Expr
end SymRust
