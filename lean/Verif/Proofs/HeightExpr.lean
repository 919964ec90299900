import Verif.Proofs.Height
import Verif.Proofs.Modes
import Verif.Proofs.Subst
import Verif.Spec.Taylor
/-! Expressions whose fractions stay small can be simplified and differentiated without overflow. -/

namespace SymRust
variable {F : Type} [FloatOps F]
open Expr
open SmartNumVal (Fits Within)

section eqs
omit [FloatOps F]
variable (a b : Expr F) (x : Variable)

theorem height_ofNum (n : SmartNum F) : (ofNum n).height = n.value.height := by simp [ofNum, height]
theorem height_ofVar (v : Variable) : (ofVar v : Expr F).height = (1, 1) := by simp [ofVar, newVariable, height]
theorem height_neg : a.neg.height = a.height := by simp [Expr.neg, height, heightList, genOpNeg, opHeight]
theorem height_exp : a.exp.height = a.height := by simp [Expr.exp, height, heightList, genOpExp, opHeight]
theorem height_ln : a.ln.height = a.height := by simp [Expr.ln, height, heightList, genOpLn, opHeight]
theorem height_sin : a.sin.height = (1, 1) := by simp [Expr.sin, height, heightList, genOpSin, opHeight]
theorem height_cos : a.cos.height = (1, 1) := by simp [Expr.cos, height, heightList, genOpCos, opHeight]
theorem height_add : (a.add b).height = opHeight .add [a.height, b.height] := by
  simp [Expr.add, height, heightList, genOpAdd]
theorem height_sub : (a.sub b).height = opHeight .sub [a.height, b.height] := by
  simp [Expr.sub, height, heightList, genOpSub]
theorem height_mul : (a.mul b).height = opHeight .mul [a.height, b.height] := by
  simp [Expr.mul, height, heightList, genOpMul]
theorem height_div : (a.div b).height = opHeight .div [a.height, b.height] := by
  simp [Expr.div, height, heightList, genOpDiv]
theorem height_pow : (a.pow b).height = opHeight .pow [a.height, b.height] := by
  simp [Expr.pow, height, heightList, genOpPow]

theorem rawDer_ofNum (n : SmartNum F) : (ofNum n).rawDer x = ofI64 0 := by simp [ofNum, rawDer]
theorem rawDer_ofVar (v : Variable) : (ofVar v : Expr F).rawDer x = if x = v then ofI64 1 else ofI64 0 := by
  cases x; cases v; simp [ofVar, newVariable, rawDer]
theorem rawDer_neg : a.neg.rawDer x = (a.rawDer x).neg := by simp [Expr.neg, rawDer, rawDerList, genOpNeg]
theorem rawDer_sin : a.sin.rawDer x = a.cos.mul (a.rawDer x) := by simp [Expr.sin, rawDer, rawDerList, genOpSin]
theorem rawDer_cos : a.cos.rawDer x = a.sin.neg.mul (a.rawDer x) := by simp [Expr.cos, rawDer, rawDerList, genOpCos]
theorem rawDer_exp : a.exp.rawDer x = (a.rawDer x).mul a.exp := by simp [Expr.exp, rawDer, rawDerList, genOpExp]
theorem rawDer_ln : a.ln.rawDer x = (a.rawDer x).div a := by simp [Expr.ln, rawDer, rawDerList, genOpLn]
theorem rawDer_add : (a.add b).rawDer x = (a.rawDer x).add (b.rawDer x) := by
  simp [Expr.add, rawDer, rawDerList, genOpAdd]
theorem rawDer_sub : (a.sub b).rawDer x = (a.rawDer x).sub (b.rawDer x) := by
  simp [Expr.sub, rawDer, rawDerList, genOpSub]
theorem rawDer_mul : (a.mul b).rawDer x = ((a.rawDer x).mul b).add (a.mul (b.rawDer x)) := by
  simp [Expr.mul, rawDer, rawDerList, genOpMul]
theorem rawDer_div : (a.div b).rawDer x =
    (((a.rawDer x).mul b).sub (a.mul (b.rawDer x))).div (b.mul b) := by
  simp [Expr.div, rawDer, rawDerList, genOpDiv]
theorem rawDer_pow : (a.pow b).rawDer x =
    (a.pow b).mul (((b.rawDer x).mul a.ln).add ((b.mul (a.rawDer x)).div a)) := by
  simp [Expr.pow, rawDer, rawDerList, genOpPow]
end eqs

section
omit [FloatOps F]

mutual
theorem height_pos : (e : Expr F) → 1 ≤ e.height.1 ∧ 1 ≤ e.height.2
  | .mk (.operand (.num n)) _ => SmartNumVal.one_le_height n.value
  | .mk (.operand (.var _)) _ => ⟨le_rfl, le_rfl⟩
  | .mk (.operator op) child => SmartNumVal.opHeight_pos (heightList_pos child)
theorem heightList_pos : (l : List (Expr F)) → ∀ k ∈ heightList l, 1 ≤ k.1 ∧ 1 ≤ k.2
  | [], k, h => by cases h
  | e :: es, k, h => by
    rw [heightList, List.mem_cons] at h
    rcases h with rfl | h
    · exact height_pos e
    · exact heightList_pos es k h
end

/-- componentwise -/
def HLe (a b : ℕ × ℕ) : Prop := a.1 ≤ b.1 ∧ a.2 ≤ b.2

theorem HLe.refl (a : ℕ × ℕ) : HLe a a := ⟨le_rfl, le_rfl⟩
theorem HLe.trans {a b c : ℕ × ℕ} (h : HLe a b) (g : HLe b c) : HLe a c := ⟨h.1.trans g.1, h.2.trans g.2⟩

theorem one_hle (e : Expr F) : HLe (1, 1) e.height := height_pos e

theorem HLe.op {op : OperatorType} {a b c d : ℕ × ℕ} (h : HLe a c) (g : HLe b d) :
    HLe (opHeight op [a, b]) (opHeight op [c, d]) := by
  cases op
  case add => exact ⟨Nat.add_le_add (Nat.mul_le_mul h.1 g.2) (Nat.mul_le_mul g.1 h.2), Nat.mul_le_mul h.2 g.2⟩
  case sub => exact ⟨Nat.add_le_add (Nat.mul_le_mul h.1 g.2) (Nat.mul_le_mul g.1 h.2), Nat.mul_le_mul h.2 g.2⟩
  case mul => exact ⟨Nat.mul_le_mul h.1 g.1, Nat.mul_le_mul h.2 g.2⟩
  case div => exact ⟨Nat.mul_le_mul h.1 g.2, Nat.mul_le_mul h.2 g.1⟩
  case pow => exact ⟨max_le_max h.1 g.1, max_le_max h.2 g.2⟩
  all_goals exact HLe.refl _

theorem hle_left (op : OperatorType) (ho : op = .add ∨ op = .sub ∨ op = .mul ∨ op = .div ∨ op = .pow) (a b : Expr F) :
    HLe a.height (opHeight op [a.height, b.height]) := by
  obtain ⟨b1, b2⟩ := height_pos b
  rcases ho with rfl | rfl | rfl | rfl | rfl
  · exact ⟨(Nat.le_mul_of_pos_right _ b2).trans (Nat.le_add_right _ _), Nat.le_mul_of_pos_right _ b2⟩
  · exact ⟨(Nat.le_mul_of_pos_right _ b2).trans (Nat.le_add_right _ _), Nat.le_mul_of_pos_right _ b2⟩
  · exact ⟨Nat.le_mul_of_pos_right _ b1, Nat.le_mul_of_pos_right _ b2⟩
  · exact ⟨Nat.le_mul_of_pos_right _ b2, Nat.le_mul_of_pos_right _ b1⟩
  · exact ⟨le_max_left _ _, le_max_left _ _⟩

theorem hle_right (op : OperatorType) (ho : op = .add ∨ op = .sub ∨ op = .mul ∨ op = .pow) (a b : Expr F) :
    HLe b.height (opHeight op [a.height, b.height]) := by
  obtain ⟨a1, a2⟩ := height_pos a
  rcases ho with rfl | rfl | rfl | rfl
  · exact ⟨(Nat.le_mul_of_pos_right _ a2).trans (Nat.le_add_left _ _), Nat.le_mul_of_pos_left _ a2⟩
  · exact ⟨(Nat.le_mul_of_pos_right _ a2).trans (Nat.le_add_left _ _), Nat.le_mul_of_pos_left _ a2⟩
  · exact ⟨Nat.le_mul_of_pos_left _ a1, Nat.le_mul_of_pos_left _ a2⟩
  · exact ⟨le_max_right _ _, le_max_right _ _⟩

/-- What simplification can turn an expression (right) into (left), as far as the size of numbers goes. -/
inductive Below : Expr F → Expr F → Prop
  | refl (a : Expr F) : Below a a
  | trans {a b c : Expr F} : Below a b → Below b c → Below a c
  | num {n : SmartNum F} {e : Expr F} : Tree e → HLe n.value.height e.height → Below (ofNum n) e
  | neg {a a' : Expr F} : Below a a' → Below a.neg a'.neg
  | sin {a a' : Expr F} : Below a a' → Below a.sin a'.sin
  | cos {a a' : Expr F} : Below a a' → Below a.cos a'.cos
  | exp {a a' : Expr F} : Below a a' → Below a.exp a'.exp
  | ln {a a' : Expr F} : Below a a' → Below a.ln a'.ln
  | add {a a' b b' : Expr F} : Below a a' → Below b b' → Below (a.add b) (a'.add b')
  | sub {a a' b b' : Expr F} : Below a a' → Below b b' → Below (a.sub b) (a'.sub b')
  | mul {a a' b b' : Expr F} : Below a a' → Below b b' → Below (a.mul b) (a'.mul b')
  | div {a a' b b' : Expr F} : Below a a' → Below b b' → Below (a.div b) (a'.div b')
  | pow {a a' b b' : Expr F} : Below a a' → Below b b' → Below (a.pow b) (a'.pow b')
  | add_l (a b : Expr F) : Below a (a.add b)
  | add_r (a b : Expr F) : Below b (a.add b)
  | sub_l (a b : Expr F) : Below a (a.sub b)
  | sub_r (a b : Expr F) : Below b.neg (a.sub b)
  | mul_l (a b : Expr F) : Below a (a.mul b)
  | mul_r (a b : Expr F) : Below b (a.mul b)
  | div_l (a b : Expr F) : Below a (a.div b)
  | neg_neg (a : Expr F) : Below a a.neg.neg
  | exp_ln (a : Expr F) : Below a a.ln.exp
  | ln_exp (a : Expr F) : Below a a.exp.ln
  | pow_r (a b : Expr F) : Below b (a.pow b)
  | pow_ln (a b : Expr F) : Below a (a.ln.pow b)

theorem Below.height {a b : Expr F} (h : Below a b) : HLe a.height b.height := by
  induction h with
  | refl a => exact HLe.refl _
  | trans _ _ i j => exact i.trans j
  | num _ h => rw [height_ofNum]; exact h
  | neg _ i => rw [height_neg, height_neg]; exact i
  | sin _ i => rw [height_sin, height_sin]; exact HLe.refl _
  | cos _ i => rw [height_cos, height_cos]; exact HLe.refl _
  | exp _ i => rw [height_exp, height_exp]; exact i
  | ln _ i => rw [height_ln, height_ln]; exact i
  | add _ _ i j => rw [height_add, height_add]; exact i.op j
  | sub _ _ i j => rw [height_sub, height_sub]; exact i.op j
  | mul _ _ i j => rw [height_mul, height_mul]; exact i.op j
  | div _ _ i j => rw [height_div, height_div]; exact i.op j
  | pow _ _ i j => rw [height_pow, height_pow]; exact i.op j
  | add_l a b => rw [height_add]; exact hle_left _ (by simp) a b
  | add_r a b => rw [height_add]; exact hle_right _ (by simp) a b
  | sub_l a b => rw [height_sub]; exact hle_left _ (by simp) a b
  | sub_r a b => rw [height_sub, height_neg]; exact hle_right _ (by simp) a b
  | mul_l a b => rw [height_mul]; exact hle_left _ (by simp) a b
  | mul_r a b => rw [height_mul]; exact hle_right _ (by simp) a b
  | div_l a b => rw [height_div]; exact hle_left _ (by simp) a b
  | neg_neg a => rw [height_neg, height_neg]; exact HLe.refl _
  | exp_ln a => rw [height_exp, height_ln]; exact HLe.refl _
  | ln_exp a => rw [height_ln, height_exp]; exact HLe.refl _
  | pow_r a b => rw [height_pow]; exact hle_right _ (by simp) a b
  | pow_ln a b => rw [height_pow]; have := hle_left .pow (by simp) a.ln b; rwa [height_ln] at this ⊢

theorem SmallAt.hle {a b : Expr F} (h : HLe a.height b.height) (hb : SmallAt b) : SmallAt a :=
  ⟨h.1.trans_lt hb.1, h.2.trans_lt hb.2⟩

theorem small_ofNum {n : SmartNum F} : Small (ofNum n) ↔ Fits n.value.height := by
  unfold Small; rw [everywhere_ofNum]; unfold SmallAt; rw [height_ofNum]; exact Iff.rfl
theorem small_ofVar (v : Variable) : Small (ofVar v : Expr F) :=
  everywhere_ofVar.2 ⟨by rw [height_ofVar]; decide, by rw [height_ofVar]; decide⟩

theorem Below.small {a b : Expr F} (h : Below a b) (hb : Small b) : Small a := by
  have at' : ∀ {a b : Expr F}, Below a b → SmallAt b → SmallAt a := fun h hb => hb.hle h.height
  induction h with
  | refl a => exact hb
  | trans _ _ i j => exact i (j hb)
  | @num n e _ h =>
    have := hb e .refl
    exact small_ofNum.2 ⟨h.1.trans_lt this.1, h.2.trans_lt this.2⟩
  | neg h i => have := everywhere_neg.1 hb; exact everywhere_neg.2 ⟨at' (.neg h) this.1, i this.2⟩
  | sin h i => have := everywhere_sin.1 hb; exact everywhere_sin.2 ⟨at' (.sin h) this.1, i this.2⟩
  | cos h i => have := everywhere_cos.1 hb; exact everywhere_cos.2 ⟨at' (.cos h) this.1, i this.2⟩
  | exp h i => have := everywhere_exp.1 hb; exact everywhere_exp.2 ⟨at' (.exp h) this.1, i this.2⟩
  | ln h i => have := everywhere_ln.1 hb; exact everywhere_ln.2 ⟨at' (.ln h) this.1, i this.2⟩
  | add h g i j =>
    have := everywhere_add.1 hb; exact everywhere_add.2 ⟨at' (.add h g) this.1, i this.2.1, j this.2.2⟩
  | sub h g i j =>
    have := everywhere_sub.1 hb; exact everywhere_sub.2 ⟨at' (.sub h g) this.1, i this.2.1, j this.2.2⟩
  | mul h g i j =>
    have := everywhere_mul.1 hb; exact everywhere_mul.2 ⟨at' (.mul h g) this.1, i this.2.1, j this.2.2⟩
  | div h g i j =>
    have := everywhere_div.1 hb; exact everywhere_div.2 ⟨at' (.div h g) this.1, i this.2.1, j this.2.2⟩
  | pow h g i j =>
    have := everywhere_pow.1 hb; exact everywhere_pow.2 ⟨at' (.pow h g) this.1, i this.2.1, j this.2.2⟩
  | add_l a b => exact (everywhere_add.1 hb).2.1
  | add_r a b => exact (everywhere_add.1 hb).2.2
  | sub_l a b => exact (everywhere_sub.1 hb).2.1
  | sub_r a b => have := everywhere_sub.1 hb; exact everywhere_neg.2 ⟨at' (.sub_r a b) this.1, this.2.2⟩
  | mul_l a b => exact (everywhere_mul.1 hb).2.1
  | mul_r a b => exact (everywhere_mul.1 hb).2.2
  | div_l a b => exact (everywhere_div.1 hb).2.1
  | neg_neg a => exact (everywhere_neg.1 (everywhere_neg.1 hb).2).2
  | exp_ln a => exact (everywhere_ln.1 (everywhere_exp.1 hb).2).2
  | ln_exp a => exact (everywhere_exp.1 (everywhere_ln.1 hb).2).2
  | pow_r a b => exact (everywhere_pow.1 hb).2.2
  | pow_ln a b => exact (everywhere_ln.1 (everywhere_pow.1 hb).2.1).2

theorem tree_rawDer {e : Expr F} (he : Tree e) (x : Variable) : Tree (e.rawDer x) := by
  induction he with
  | num n => rw [rawDer_ofNum]; exact .num _ trivial
  | var v => rw [rawDer_ofVar]; split_ifs <;> exact .num _ trivial
  | neg a _ i => rw [rawDer_neg]; exact .neg _ i
  | sin a h i => rw [rawDer_sin]; exact .mul _ _ (.cos _ h) i
  | cos a h i => rw [rawDer_cos]; exact .mul _ _ (.neg _ (.sin _ h)) i
  | exp a h i => rw [rawDer_exp]; exact .mul _ _ i (.exp _ h)
  | ln a h i => rw [rawDer_ln]; exact .div _ _ i h
  | add a b _ _ i j => rw [rawDer_add]; exact .add _ _ i j
  | sub a b _ _ i j => rw [rawDer_sub]; exact .sub _ _ i j
  | mul a b h g i j => rw [rawDer_mul]; exact .add _ _ (.mul _ _ i g) (.mul _ _ h j)
  | div a b h g i j => rw [rawDer_div]; exact .div _ _ (.sub _ _ (.mul _ _ i g) (.mul _ _ h j)) (.mul _ _ g g)
  | pow a b h g i j =>
    rw [rawDer_pow]
    exact .mul _ _ (.pow _ _ h g) (.add _ _ (.mul _ _ j (.ln _ h)) (.div _ _ (.mul _ _ g i) h))

theorem zero_below {e : Expr F} (he : Tree e) : Below (ofI64 0) e := .num he (one_hle e)
theorem one_below {e : Expr F} (he : Tree e) : Below (ofI64 1) e := .num he (one_hle e)

theorem Below.rawDer {a b : Expr F} (h : Below a b) (x : Variable) : Below (a.rawDer x) (b.rawDer x) := by
  induction h with
  | refl a => exact .refl _
  | trans _ _ i j => exact i.trans j
  | num he _ => rw [rawDer_ofNum]; exact zero_below (tree_rawDer he x)
  | neg _ i => rw [rawDer_neg, rawDer_neg]; exact .neg i
  | sin h i => rw [rawDer_sin, rawDer_sin]; exact .mul (.cos h) i
  | cos h i => rw [rawDer_cos, rawDer_cos]; exact .mul (.neg (.sin h)) i
  | exp h i => rw [rawDer_exp, rawDer_exp]; exact .mul i (.exp h)
  | ln h i => rw [rawDer_ln, rawDer_ln]; exact .div i h
  | add h g i j => rw [rawDer_add, rawDer_add]; exact .add i j
  | sub h g i j => rw [rawDer_sub, rawDer_sub]; exact .sub i j
  | mul h g i j => rw [rawDer_mul, rawDer_mul]; exact .add (.mul i g) (.mul h j)
  | div h g i j => rw [rawDer_div, rawDer_div]; exact .div (.sub (.mul i g) (.mul h j)) (.mul g g)
  | pow h g i j => rw [rawDer_pow, rawDer_pow]; exact .mul (.pow h g) (.add (.mul j (.ln h)) (.div (.mul g i) h))
  | add_l a b => rw [rawDer_add]; exact .add_l _ _
  | add_r a b => rw [rawDer_add]; exact .add_r _ _
  | sub_l a b => rw [rawDer_sub]; exact .sub_l _ _
  | sub_r a b => rw [rawDer_sub, rawDer_neg]; exact .sub_r _ _
  | mul_l a b => rw [rawDer_mul]; exact .trans (.mul_l _ _) (.add_l _ _)
  | mul_r a b => rw [rawDer_mul]; exact .trans (.mul_r _ _) (.add_r _ _)
  | div_l a b => rw [rawDer_div]; exact .trans (.mul_l _ _) (.trans (.sub_l _ _) (.div_l _ _))
  | neg_neg a => rw [rawDer_neg, rawDer_neg]; exact .neg_neg _
  | exp_ln a => rw [rawDer_exp, rawDer_ln]; exact .trans (.div_l _ _) (.mul_l _ _)
  | ln_exp a => rw [rawDer_ln, rawDer_exp]; exact .trans (.mul_l _ _) (.div_l _ _)
  | pow_r a b => rw [rawDer_pow]; exact .trans (.mul_l _ _) (.trans (.add_l _ _) (.mul_r _ _))
  | pow_ln a b =>
    rw [rawDer_pow, rawDer_ln]
    exact .trans (.div_l _ _) (.trans (.mul_r _ _) (.trans (.div_l _ _) (.trans (.add_r _ _) (.mul_r _ _))))

theorem height_replace {e : Expr F} (he : Tree e) (x : Variable) (v : Expr F) :
    HLe e.height (e.replace x v).height := by
  induction he with
  | num n => rw [replace_ofNum]; exact HLe.refl _
  | var y => rw [height_ofVar]; exact one_hle _
  | neg a _ i => rw [replace_neg, height_neg, height_neg]; exact i
  | sin a h i => rw [replace_sin, height_sin, height_sin]; exact HLe.refl _
  | cos a h i => rw [replace_cos, height_cos, height_cos]; exact HLe.refl _
  | exp a h i => rw [replace_exp, height_exp, height_exp]; exact i
  | ln a h i => rw [replace_ln, height_ln, height_ln]; exact i
  | add a b _ _ i j => rw [replace_add, height_add, height_add]; exact i.op j
  | sub a b _ _ i j => rw [replace_sub, height_sub, height_sub]; exact i.op j
  | mul a b _ _ i j => rw [replace_mul, height_mul, height_mul]; exact i.op j
  | div a b _ _ i j => rw [replace_div, height_div, height_div]; exact i.op j
  | pow a b _ _ i j => rw [replace_pow, height_pow, height_pow]; exact i.op j

theorem Below.replace {a b : Expr F} (h : Below a b) (x : Variable) {v : Expr F} (hv : Tree v) :
    Below (a.replace x v) (b.replace x v) := by
  induction h with
  | refl a => exact .refl _
  | trans _ _ i j => exact i.trans j
  | num he h => rw [replace_ofNum]; exact .num (he.replace hv x) (h.trans (height_replace he x v))
  | neg _ i => rw [replace_neg, replace_neg]; exact .neg i
  | sin h i => rw [replace_sin, replace_sin]; exact .sin i
  | cos h i => rw [replace_cos, replace_cos]; exact .cos i
  | exp h i => rw [replace_exp, replace_exp]; exact .exp i
  | ln h i => rw [replace_ln, replace_ln]; exact .ln i
  | add h g i j => rw [replace_add, replace_add]; exact .add i j
  | sub h g i j => rw [replace_sub, replace_sub]; exact .sub i j
  | mul h g i j => rw [replace_mul, replace_mul]; exact .mul i j
  | div h g i j => rw [replace_div, replace_div]; exact .div i j
  | pow h g i j => rw [replace_pow, replace_pow]; exact .pow i j
  | add_l a b => rw [replace_add]; exact .add_l _ _
  | add_r a b => rw [replace_add]; exact .add_r _ _
  | sub_l a b => rw [replace_sub]; exact .sub_l _ _
  | sub_r a b => rw [replace_sub, replace_neg]; exact .sub_r _ _
  | mul_l a b => rw [replace_mul]; exact .mul_l _ _
  | mul_r a b => rw [replace_mul]; exact .mul_r _ _
  | div_l a b => rw [replace_div]; exact .div_l _ _
  | neg_neg a => rw [replace_neg, replace_neg]; exact .neg_neg _
  | exp_ln a => rw [replace_exp, replace_ln]; exact .exp_ln _
  | ln_exp a => rw [replace_ln, replace_exp]; exact .ln_exp _
  | pow_r a b => rw [replace_pow]; exact .pow_r _ _
  | pow_ln a b => rw [replace_pow, replace_ln]; exact .pow_ln _ _

end

/-! ### `num_aggregate` -/

theorem Agg.belowHeight {e e' : Expr F} (h : Agg .strict e e') (he : WF SmartNum.Valid e) (hs : Small e) : Below e' e := by
  have NC := numClosed_valid (F := F) .strict
  have tr : ∀ {a : Expr F}, WF SmartNum.Valid a → Tree a := fun h => h.mono fun _ _ => trivial
  have hn : ∀ {n : SmartNum F} {a : Expr F}, Below (ofNum n) a → HLe n.value.height a.height := fun h => by
    have := h.height; rwa [height_ofNum] at this
  have ft : ∀ {a b : ℕ × ℕ}, HLe a b → Fits b → Fits a := fun h g => ⟨h.1.trans_lt g.1, h.2.trans_lt g.2⟩
  have vn : ∀ {a : Expr F} {n : SmartNum F}, Agg .strict a (ofNum n) → WF SmartNum.Valid a → n.Valid :=
    fun h ha => WF.num_iff.1 (h.wf NC ha)
  induction h with
  | num n => exact .refl _
  | var v => exact .refl _
  | @neg_num a n k h hk i =>
    have hs' := everywhere_neg.1 hs; have w := WF.neg_iff.1 he
    have hb := hn (i w hs'.2)
    obtain ⟨z, h1, h2⟩ := SmartNum.neg_fits (vn h w) (ft hb (hs'.2 a .refl))
    rw [hk] at h1; cases h1
    exact .num (tr he) (by rw [height_neg]; exact HLe.trans h2 hb)
  | neg_neg h i => exact .trans (.neg_neg _) (.neg (i (WF.neg_iff.1 he) (everywhere_neg.1 hs).2))
  | neg h _ _ i => exact .neg (i (WF.neg_iff.1 he) (everywhere_neg.1 hs).2)
  | @add_num a b x y z h1 h2 hz i j =>
    have hs' := everywhere_add.1 hs; have w := WF.add_iff.1 he
    have hb := (hn (i w.1 hs'.2.1)).op (op := .add) (hn (j w.2 hs'.2.2))
    rw [← height_add] at hb
    obtain ⟨_, g1, g2⟩ := SmartNum.add_fits (vn h1 w.1) (vn h2 w.2) (ft hb (hs _ .refl))
    rw [hz] at g1; cases g1
    exact .num (tr he) (HLe.trans g2 hb)
  | add_zero_l h1 h2 _ _ i j => exact .trans (j (WF.add_iff.1 he).2 (everywhere_add.1 hs).2.2) (.add_r _ _)
  | add_zero_r h1 h2 _ _ i j => exact .trans (i (WF.add_iff.1 he).1 (everywhere_add.1 hs).2.1) (.add_l _ _)
  | add h1 h2 _ _ _ i j =>
    have hs' := everywhere_add.1 hs; have w := WF.add_iff.1 he
    exact .add (i w.1 hs'.2.1) (j w.2 hs'.2.2)
  | @sub_num a b x y z h1 h2 hz i j =>
    have hs' := everywhere_sub.1 hs; have w := WF.sub_iff.1 he
    have hb := (hn (i w.1 hs'.2.1)).op (op := .sub) (hn (j w.2 hs'.2.2))
    rw [← height_sub] at hb
    obtain ⟨_, g1, g2⟩ := SmartNum.sub_fits (vn h1 w.1) (vn h2 w.2) (ft hb (hs _ .refl))
    rw [hz] at g1; cases g1
    exact .num (tr he) (HLe.trans g2 hb)
  | sub_zero_l h1 h2 _ _ i j => exact .trans (.neg (j (WF.sub_iff.1 he).2 (everywhere_sub.1 hs).2.2)) (.sub_r _ _)
  | sub_zero_r h1 h2 _ _ i j => exact .trans (i (WF.sub_iff.1 he).1 (everywhere_sub.1 hs).2.1) (.sub_l _ _)
  | sub h1 h2 _ _ _ i j =>
    have hs' := everywhere_sub.1 hs; have w := WF.sub_iff.1 he
    exact .sub (i w.1 hs'.2.1) (j w.2 hs'.2.2)
  | @mul_num a b x y z h1 h2 hz i j =>
    have hs' := everywhere_mul.1 hs; have w := WF.mul_iff.1 he
    have hb := (hn (i w.1 hs'.2.1)).op (op := .mul) (hn (j w.2 hs'.2.2))
    rw [← height_mul] at hb
    obtain ⟨_, g1, g2⟩ := SmartNum.mul_fits (vn h1 w.1) (vn h2 w.2) (ft hb (hs _ .refl))
    rw [hz] at g1; cases g1
    exact .num (tr he) (HLe.trans g2 hb)
  | mul_zero_l | mul_zero_r | div_zero_l | sin_num => exact zero_below (tr he)
  | ln_one => exact zero_below (tr he)
  | cos_num | exp_zero | ln_e | pow_zero => exact one_below (tr he)
  | exp_one => exact .num (tr he) (one_hle _)
  | mul_one_l h1 h2 _ _ i j => exact .trans (j (WF.mul_iff.1 he).2 (everywhere_mul.1 hs).2.2) (.mul_r _ _)
  | mul_one_r h1 h2 _ _ i j => exact .trans (i (WF.mul_iff.1 he).1 (everywhere_mul.1 hs).2.1) (.mul_l _ _)
  | mul h1 h2 _ _ _ _ _ i j =>
    have hs' := everywhere_mul.1 hs; have w := WF.mul_iff.1 he
    exact .mul (i w.1 hs'.2.1) (j w.2 hs'.2.2)
  | @div_num a b x y z h1 h2 hz i j =>
    have hs' := everywhere_div.1 hs; have w := WF.div_iff.1 he
    have hb := (hn (i w.1 hs'.2.1)).op (op := .div) (hn (j w.2 hs'.2.2))
    rw [← height_div] at hb
    obtain ⟨_, g1, g2⟩ := SmartNum.div_fits (vn h1 w.1) (vn h2 w.2) (ft hb (hs _ .refl))
    rw [hz] at g1; cases g1
    exact .num (tr he) (HLe.trans g2 hb)
  | div h1 h2 _ _ i j =>
    have hs' := everywhere_div.1 hs; have w := WF.div_iff.1 he
    exact .div (i w.1 hs'.2.1) (j w.2 hs'.2.2)
  | sin h _ _ i => exact .sin (i (WF.sin_iff.1 he) (everywhere_sin.1 hs).2)
  | cos h _ _ i => exact .cos (i (WF.cos_iff.1 he) (everywhere_cos.1 hs).2)
  | exp_ln h i => exact .trans (.exp_ln _) (.exp (i (WF.exp_iff.1 he) (everywhere_exp.1 hs).2))
  | exp h _ _ _ i => exact .exp (i (WF.exp_iff.1 he) (everywhere_exp.1 hs).2)
  | ln_exp h i => exact .trans (.ln_exp _) (.ln (i (WF.ln_iff.1 he) (everywhere_ln.1 hs).2))
  | ln h _ _ _ i => exact .ln (i (WF.ln_iff.1 he) (everywhere_ln.1 hs).2)
  | pow_one h1 h2 _ i j => exact .trans (j (WF.pow_iff.1 he).2 (everywhere_pow.1 hs).2.2) (.pow_r _ _)
  | pow_ln h1 h2 i j =>
    have hs' := everywhere_pow.1 hs; have w := WF.pow_iff.1 he
    exact .trans (.pow_ln _ _) (.pow (i w.1 hs'.2.1) (j w.2 hs'.2.2))
  | pow h1 h2 _ _ _ i j =>
    have hs' := everywhere_pow.1 hs; have w := WF.pow_iff.1 he
    exact .pow (i w.1 hs'.2.1) (j w.2 hs'.2.2)


theorem binRule_fits {rule : Mode → List (Res (Expr F)) → Res (Expr F)}
    (op : SmartNum F → SmartNum F → Res (SmartNum F))
    (h1 : ∀ x y, rule .strict [.ok (ofNum x), .ok (ofNum y)] = op x y >>= fun z => .ok (ofNum z))
    (h2 : ∀ a b, (a.isNum && b.isNum) = false → ∃ r, rule .strict [.ok a, .ok b] = .ok r)
    {a b : Expr F} (ha : Tree a) (hb : Tree b) (hop : ∀ x y, a = ofNum x → b = ofNum y → ∃ z, op x y = .ok z) :
    ∃ r, rule .strict [.ok a, .ok b] = .ok r := by
  cases hn : (a.isNum && b.isNum) with
  | false => exact h2 a b hn
  | true =>
    rw [Bool.and_eq_true] at hn
    obtain ⟨x, rfl⟩ := tree_num ha hn.1
    obtain ⟨y, rfl⟩ := tree_num hb hn.2
    obtain ⟨z, hz⟩ := hop x y rfl rfl
    exact ⟨ofNum z, by rw [h1, hz]; rfl⟩

theorem numAggregate_small {e : Expr F} (he : WF SmartNum.Valid e) (hs : Small e) :
    ∃ r, e.numAggregate .strict = .ok r ∧ Below r e ∧ WF SmartNum.Valid r := by
  have NC := numClosed_valid (F := F) .strict
  have tr : ∀ {a : Expr F}, WF SmartNum.Valid a → Tree a := fun h => h.mono fun _ _ => trivial
  suffices h : ∃ r, e.numAggregate .strict = .ok r by
    obtain ⟨r, hr⟩ := h
    have ha := agg_of_numAggregate (tr he) hr
    exact ⟨r, hr, ha.belowHeight he hs, ha.wf NC he⟩
  have key : ∀ {a r : Expr F}, WF SmartNum.Valid a → Small a → a.numAggregate .strict = .ok r →
      HLe r.height a.height ∧ WF SmartNum.Valid r := fun ha hs h => by
    have hg := agg_of_numAggregate (tr ha) h
    exact ⟨(hg.belowHeight ha hs).height, hg.wf NC ha⟩
  have ft : ∀ {a b : ℕ × ℕ}, HLe a b → Fits b → Fits a := fun h g => ⟨h.1.trans_lt g.1, h.2.trans_lt g.2⟩
  induction he with
  | num n _ => exact ⟨_, numAggregate_ofNum _ n⟩
  | var v => exact ⟨_, numAggregate_ofVar _ v⟩
  | neg a ha ih =>
    have hs' := everywhere_neg.1 hs
    obtain ⟨r, hr⟩ := ih hs'.2
    obtain ⟨hh, hw⟩ := key ha hs'.2 hr
    rw [numAggregate_neg, hr]
    cases hw with
    | num n hn =>
      rw [height_ofNum] at hh
      obtain ⟨k, hk, -⟩ := SmartNum.neg_fits hn (ft hh (hs'.2 a .refl))
      exact ⟨ofNum k, show (n.neg .strict >>= fun z => Res.ok (ofNum z)) = _ by rw [hk]; rfl⟩
    | _ => exact ⟨_, rfl⟩
  | sin a ha ih =>
    obtain ⟨r, hr⟩ := ih (everywhere_sin.1 hs).2
    rw [numAggregate_sin, hr]; exact sinEvalRule_total (tree_numAggregate (tr ha) hr)
  | cos a ha ih =>
    obtain ⟨r, hr⟩ := ih (everywhere_cos.1 hs).2
    rw [numAggregate_cos, hr]; exact cosEvalRule_total (tree_numAggregate (tr ha) hr)
  | exp a ha ih =>
    obtain ⟨r, hr⟩ := ih (everywhere_exp.1 hs).2
    rw [numAggregate_exp, hr]; exact expEvalRule_total (tree_numAggregate (tr ha) hr)
  | ln a ha ih =>
    obtain ⟨r, hr⟩ := ih (everywhere_ln.1 hs).2
    rw [numAggregate_ln, hr]; exact lnEvalRule_total (tree_numAggregate (tr ha) hr)
  | add a b ha hb i j =>
    obtain ⟨h0, hs1, hs2⟩ := everywhere_add.1 hs
    obtain ⟨r, hr⟩ := i hs1; obtain ⟨s, hs'⟩ := j hs2
    rw [numAggregate_add, hr, hs']
    obtain ⟨g1, w1⟩ := key ha hs1 hr
    obtain ⟨g2, w2⟩ := key hb hs2 hs'
    refine binRule_fits (rule := addEvalRule) (SmartNum.add .strict) (fun x y => rfl) (fun a b h => ?_) (tr w1) (tr w2) ?_
    · unfold addEvalRule; simp only [pop_one, pop_two, Res.ok_bind, h]
      rw [if_neg (by simp)]; split_ifs <;> exact ⟨_, rfl⟩
    · rintro x y rfl rfl
      rw [height_ofNum] at g1 g2
      have hb := g1.op (op := .add) g2
      rw [← height_add] at hb
      obtain ⟨z, hz, -⟩ := SmartNum.add_fits (WF.num_iff.1 w1) (WF.num_iff.1 w2) (ft hb h0)
      exact ⟨z, hz⟩
  | sub a b ha hb i j =>
    obtain ⟨h0, hs1, hs2⟩ := everywhere_sub.1 hs
    obtain ⟨r, hr⟩ := i hs1; obtain ⟨s, hs'⟩ := j hs2
    rw [numAggregate_sub, hr, hs']
    obtain ⟨g1, w1⟩ := key ha hs1 hr
    obtain ⟨g2, w2⟩ := key hb hs2 hs'
    refine binRule_fits (rule := subEvalRule) (SmartNum.sub .strict) (fun x y => rfl) (fun a b h => ?_) (tr w1) (tr w2) ?_
    · unfold subEvalRule; simp only [pop_one, pop_two, Res.ok_bind, h]
      rw [if_neg (by simp)]; split_ifs <;> exact ⟨_, rfl⟩
    · rintro x y rfl rfl
      rw [height_ofNum] at g1 g2
      have hb := g1.op (op := .sub) g2
      rw [← height_sub] at hb
      obtain ⟨z, hz, -⟩ := SmartNum.sub_fits (WF.num_iff.1 w1) (WF.num_iff.1 w2) (ft hb h0)
      exact ⟨z, hz⟩
  | mul a b ha hb i j =>
    obtain ⟨h0, hs1, hs2⟩ := everywhere_mul.1 hs
    obtain ⟨r, hr⟩ := i hs1; obtain ⟨s, hs'⟩ := j hs2
    rw [numAggregate_mul, hr, hs']
    obtain ⟨g1, w1⟩ := key ha hs1 hr
    obtain ⟨g2, w2⟩ := key hb hs2 hs'
    refine binRule_fits (rule := mulEvalRule) (SmartNum.mul .strict) (fun x y => rfl) (fun a b h => ?_) (tr w1) (tr w2) ?_
    · unfold mulEvalRule; simp only [pop_one, pop_two, Res.ok_bind, h]
      rw [if_neg (by simp)]; split_ifs <;> exact ⟨_, rfl⟩
    · rintro x y rfl rfl
      rw [height_ofNum] at g1 g2
      have hb := g1.op (op := .mul) g2
      rw [← height_mul] at hb
      obtain ⟨z, hz, -⟩ := SmartNum.mul_fits (WF.num_iff.1 w1) (WF.num_iff.1 w2) (ft hb h0)
      exact ⟨z, hz⟩
  | div a b ha hb i j =>
    obtain ⟨h0, hs1, hs2⟩ := everywhere_div.1 hs
    obtain ⟨r, hr⟩ := i hs1; obtain ⟨s, hs'⟩ := j hs2
    rw [numAggregate_div, hr, hs']
    obtain ⟨g1, w1⟩ := key ha hs1 hr
    obtain ⟨g2, w2⟩ := key hb hs2 hs'
    refine binRule_fits (rule := divEvalRule) (SmartNum.div .strict) (fun x y => rfl) (fun a b h => ?_) (tr w1) (tr w2) ?_
    · unfold divEvalRule; simp only [pop_one, pop_two, Res.ok_bind, h]
      rw [if_neg (by simp)]; split_ifs <;> exact ⟨_, rfl⟩
    · rintro x y rfl rfl
      rw [height_ofNum] at g1 g2
      have hb := g1.op (op := .div) g2
      rw [← height_div] at hb
      obtain ⟨z, hz, -⟩ := SmartNum.div_fits (WF.num_iff.1 w1) (WF.num_iff.1 w2) (ft hb h0)
      exact ⟨z, hz⟩
  | pow a b ha hb i j =>
    obtain ⟨h0, hs1, hs2⟩ := everywhere_pow.1 hs
    obtain ⟨r, hr⟩ := i hs1; obtain ⟨s, hs'⟩ := j hs2
    rw [numAggregate_pow, hr, hs']
    exact powEvalRule_total (tree_numAggregate (tr ha) hr)

/-! ### `derivative` -/

theorem derivative_small {e : Expr F} (he : WF SmartNum.Valid e) (x : Variable) (hs : Small (e.rawDer x)) :
    ∃ d, e.derivative .strict x = .ok d ∧ Below d (e.rawDer x) ∧ WF SmartNum.Valid d := by
  have fin : ∀ {r t : Expr F}, WF SmartNum.Valid r → Below r t → Small t →
      ∃ d, ((r.numAggregate .strict).lift (ε := DerivativeError F)) = .ok d ∧ Below d t ∧ WF SmartNum.Valid d := by
    intro r t hw hb hs
    obtain ⟨d, h1, h2, h3⟩ := numAggregate_small hw (hb.small hs)
    exact ⟨d, by rw [h1]; rfl, h2.trans hb, h3⟩
  induction he with
  | num n _ => exact ⟨_, derivative_ofNum _ x n, by rw [rawDer_ofNum]; exact .refl _, .num _ (SmartNum.valid_ofI64 0)⟩
  | var v =>
    refine ⟨_, derivative_ofVar _ x v, by rw [rawDer_ofVar]; exact .refl _, ?_⟩
    split_ifs <;> exact .num _ (SmartNum.valid_ofI64 _)
  | neg a ha ih =>
    rw [rawDer_neg] at hs ⊢
    obtain ⟨d, h1, h2, h3⟩ := ih (everywhere_neg.1 hs).2
    rw [derivative_neg, h1]
    exact fin (.neg _ h3) (.neg h2) hs
  | sin a ha ih =>
    rw [rawDer_sin] at hs ⊢
    obtain ⟨d, h1, h2, h3⟩ := ih (everywhere_mul.1 hs).2.2
    rw [derivative_sin, h1]
    exact fin (.mul _ _ (.cos _ ha) h3) (.mul (.refl _) h2) hs
  | cos a ha ih =>
    rw [rawDer_cos] at hs ⊢
    obtain ⟨d, h1, h2, h3⟩ := ih (everywhere_mul.1 hs).2.2
    rw [derivative_cos, h1]
    exact fin (.mul _ _ (.neg _ (.sin _ ha)) h3) (.mul (.refl _) h2) hs
  | exp a ha ih =>
    rw [rawDer_exp] at hs ⊢
    obtain ⟨d, h1, h2, h3⟩ := ih (everywhere_mul.1 hs).2.1
    rw [derivative_exp, h1]
    exact fin (.mul _ _ h3 (.exp _ ha)) (.mul h2 (.refl _)) hs
  | ln a ha ih =>
    rw [rawDer_ln] at hs ⊢
    obtain ⟨d, h1, h2, h3⟩ := ih (everywhere_div.1 hs).2.1
    rw [derivative_ln, h1]
    exact fin (.div _ _ h3 ha) (.div h2 (.refl _)) hs
  | add a b ha hb i j =>
    rw [rawDer_add] at hs ⊢
    obtain ⟨l, h1, h2, h3⟩ := i (everywhere_add.1 hs).2.1
    obtain ⟨r, g1, g2, g3⟩ := j (everywhere_add.1 hs).2.2
    rw [derivative_add, g1, h1]
    exact fin (.add _ _ h3 g3) (.add h2 g2) hs
  | sub a b ha hb i j =>
    rw [rawDer_sub] at hs ⊢
    obtain ⟨l, h1, h2, h3⟩ := i (everywhere_sub.1 hs).2.1
    obtain ⟨r, g1, g2, g3⟩ := j (everywhere_sub.1 hs).2.2
    rw [derivative_sub, g1, h1]
    exact fin (.sub _ _ h3 g3) (.sub h2 g2) hs
  | mul a b ha hb i j =>
    rw [rawDer_mul] at hs ⊢
    have hs' := (everywhere_add.1 hs).2
    obtain ⟨l, h1, h2, h3⟩ := i (everywhere_mul.1 hs'.1).2.1
    obtain ⟨r, g1, g2, g3⟩ := j (everywhere_mul.1 hs'.2).2.2
    rw [derivative_mul, g1, h1]
    exact fin (.add _ _ (.mul _ _ h3 hb) (.mul _ _ ha g3)) (.add (.mul h2 (.refl _)) (.mul (.refl _) g2)) hs
  | div a b ha hb i j =>
    rw [rawDer_div] at hs ⊢
    have hs' := (everywhere_sub.1 (everywhere_div.1 hs).2.1).2
    obtain ⟨l, h1, h2, h3⟩ := i (everywhere_mul.1 hs'.1).2.1
    obtain ⟨r, g1, g2, g3⟩ := j (everywhere_mul.1 hs'.2).2.2
    rw [derivative_div, g1, h1]
    exact fin (.div _ _ (.sub _ _ (.mul _ _ h3 hb) (.mul _ _ ha g3)) (.mul _ _ hb hb))
      (.div (.sub (.mul h2 (.refl _)) (.mul (.refl _) g2)) (.refl _)) hs
  | pow a b ha hb i j =>
    rw [rawDer_pow] at hs ⊢
    have hs' := (everywhere_add.1 (everywhere_mul.1 hs).2.2).2
    obtain ⟨l, h1, h2, h3⟩ := i (everywhere_mul.1 (everywhere_div.1 hs'.2).2.1).2.2
    obtain ⟨r, g1, g2, g3⟩ := j (everywhere_mul.1 hs'.1).2.1
    rw [derivative_pow, g1, h1]
    exact fin (.mul _ _ (.pow _ _ ha hb) (.add _ _ (.mul _ _ g3 (.ln _ ha)) (.div _ _ (.mul _ _ hb h3) ha)))
      (.mul (.refl _) (.add (.mul g2 (.refl _)) (.div (.mul (.refl _) h2) (.refl _)))) hs

theorem nthDerivative_small {e : Expr F} (he : WF SmartNum.Valid e) (x : Variable) (k : Nat)
    (hs : ∀ j, j ≤ k → Small (e.rawDerN x j)) :
    ∃ d, nthDerivative .strict e x k = .ok d ∧ Below d (e.rawDerN x k) ∧ WF SmartNum.Valid d := by
  induction k with
  | zero => exact ⟨e, rfl, .refl _, he⟩
  | succ k ih =>
    obtain ⟨d, h1, h2, h3⟩ := ih fun j hj => hs j (by omega)
    have hb := h2.rawDer x
    obtain ⟨d', g1, g2, g3⟩ := derivative_small h3 x (hb.small (hs (k + 1) le_rfl))
    exact ⟨d', by rw [nthDerivative, h1]; exact g1, g2.trans hb, g3⟩

theorem nthDerivative_mono {m m' : Mode} (h : m.Le m') {e : Expr F} (he : Tree e) (x : Variable) (k : Nat) :
    (nthDerivative m e x k).Le (nthDerivative m' e x k) ∧ ∀ d, nthDerivative m e x k = .ok d → Tree d := by
  induction k with
  | zero => exact ⟨Out.Le.refl _, fun d hd => by cases hd; exact he⟩
  | succ k ih =>
    have t : ∀ d, nthDerivative m e x (k + 1) = .ok d → Tree d := fun d hd => by
      rw [nthDerivative, Out.bind_eq_ok] at hd
      obtain ⟨c, h1, h2⟩ := hd
      exact tree_derivative (ih.2 c h1) h2
    refine ⟨?_, t⟩
    rw [nthDerivative, nthDerivative]
    cases hd : nthDerivative m e x k with
    | panic => exact .inl rfl
    | err er => rcases ih.1 with g | g <;> rw [hd] at g
                · cases g
                · rw [← g]; exact Out.Le.refl _
    | ok d =>
      rcases ih.1 with g | g <;> rw [hd] at g
      · cases g
      · rw [← g]; exact derivative_mono h (ih.2 d hd) x

/-! ### deciding `Small` -/

section
omit [FloatOps F]

mutual
/-- `Small`, computed. -/
def smallCheck : Expr F → Bool
  | .mk r c => decide ((Expr.mk r c).height.1 < 9223372036854775808) &&
      decide ((Expr.mk r c).height.2 < 9223372036854775808) && smallCheckList c
def smallCheckList : List (Expr F) → Bool
  | [] => true
  | e :: es => smallCheck e && smallCheckList es
end

theorem smallCheck_mem {l : List (Expr F)} {a : Expr F} (h : a ∈ l) (hl : smallCheckList l = true) :
    smallCheck a = true := by
  induction l with
  | nil => cases h
  | cons b l ih =>
    rw [smallCheckList, Bool.and_eq_true] at hl
    rcases List.mem_cons.1 h with rfl | h
    · exact hl.1
    · exact ih h hl.2

theorem small_of_check {e : Expr F} (h : smallCheck e = true) : Small e := by
  intro s hs
  induction hs with
  | refl =>
    cases s with
    | mk r c =>
      simp only [smallCheck, Bool.and_eq_true, decide_eq_true_eq] at h
      exact h.1
  | child r c a ha _ ih =>
    refine ih (smallCheck_mem ha ?_)
    simp only [smallCheck, Bool.and_eq_true, decide_eq_true_eq] at h
    exact h.2
end

end SymRust
