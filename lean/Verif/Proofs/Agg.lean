import Verif.Proofs.Expr
import Verif.Proofs.Rational
import Verif.Model.Aggregate
/-! `num_aggregate` as an inductive relation on well-formed trees. -/

namespace SymRust
variable {F : Type} [FloatOps F]
open Expr

/-- One constructor per way `num_aggregate` can answer on a well-formed tree. -/
inductive Agg (m : Mode) : Expr F → Expr F → Prop
  | num (n : SmartNum F) : Agg m (ofNum n) (ofNum n)
  | var (v : Variable) : Agg m (ofVar v) (ofVar v)
  | neg_num {a : Expr F} {n k : SmartNum F} : Agg m a (ofNum n) → n.neg m = .ok k → Agg m a.neg (ofNum k)
  | neg_neg {a c : Expr F} : Agg m a c.neg → Agg m a.neg c
  | neg {a a' : Expr F} : Agg m a a' → a'.isNum = false → (∀ c : Expr F, a' ≠ c.neg) → Agg m a.neg a'.neg
  | add_num {a b : Expr F} {x y z : SmartNum F} : Agg m a (ofNum x) → Agg m b (ofNum y) → x.add m y = .ok z →
      Agg m (a.add b) (ofNum z)
  | add_zero_l {a b b' : Expr F} {x : SmartNum F} : Agg m a (ofNum x) → Agg m b b' → x.isZero = true → b'.isNum = false →
      Agg m (a.add b) b'
  | add_zero_r {a b a' : Expr F} {y : SmartNum F} : Agg m a a' → Agg m b (ofNum y) → y.isZero = true → a'.isNum = false →
      Agg m (a.add b) a'
  | add {a b a' b' : Expr F} : Agg m a a' → Agg m b b' → (a'.isNum && b'.isNum) = false → a'.isZero = false →
      b'.isZero = false → Agg m (a.add b) (a'.add b')
  | sub_num {a b : Expr F} {x y z : SmartNum F} : Agg m a (ofNum x) → Agg m b (ofNum y) → x.sub m y = .ok z →
      Agg m (a.sub b) (ofNum z)
  | sub_zero_l {a b b' : Expr F} {x : SmartNum F} : Agg m a (ofNum x) → Agg m b b' → x.isZero = true → b'.isNum = false →
      Agg m (a.sub b) b'.neg
  | sub_zero_r {a b a' : Expr F} {y : SmartNum F} : Agg m a a' → Agg m b (ofNum y) → y.isZero = true → a'.isNum = false →
      Agg m (a.sub b) a'
  | sub {a b a' b' : Expr F} : Agg m a a' → Agg m b b' → (a'.isNum && b'.isNum) = false → a'.isZero = false →
      b'.isZero = false → Agg m (a.sub b) (a'.sub b')
  | mul_num {a b : Expr F} {x y z : SmartNum F} : Agg m a (ofNum x) → Agg m b (ofNum y) → x.mul m y = .ok z →
      Agg m (a.mul b) (ofNum z)
  | mul_zero_l {a b b' : Expr F} {x : SmartNum F} : Agg m a (ofNum x) → Agg m b b' → x.isZero = true → b'.isNum = false →
      Agg m (a.mul b) (ofI64 0)
  | mul_zero_r {a b a' : Expr F} {y : SmartNum F} : Agg m a a' → Agg m b (ofNum y) → y.isZero = true → a'.isNum = false →
      Agg m (a.mul b) (ofI64 0)
  | mul_one_l {a b b' : Expr F} {x : SmartNum F} : Agg m a (ofNum x) → Agg m b b' → x.isOne = true → b'.isNum = false →
      Agg m (a.mul b) b'
  | mul_one_r {a b a' : Expr F} {y : SmartNum F} : Agg m a a' → Agg m b (ofNum y) → y.isOne = true → a'.isNum = false →
      Agg m (a.mul b) a'
  | mul {a b a' b' : Expr F} : Agg m a a' → Agg m b b' → (a'.isNum && b'.isNum) = false → a'.isZero = false →
      b'.isZero = false → a'.isOne = false → b'.isOne = false → Agg m (a.mul b) (a'.mul b')
  | div_num {a b : Expr F} {x y z : SmartNum F} : Agg m a (ofNum x) → Agg m b (ofNum y) → x.div m y = .ok z →
      Agg m (a.div b) (ofNum z)
  | div_zero_l {a b b' : Expr F} {x : SmartNum F} : Agg m a (ofNum x) → Agg m b b' → x.isZero = true → b'.isNum = false →
      Agg m (a.div b) (ofI64 0)
  | div {a b a' b' : Expr F} : Agg m a a' → Agg m b b' → (a'.isNum && b'.isNum) = false → a'.isZero = false →
      Agg m (a.div b) (a'.div b')
  | sin_num {a : Expr F} {x : SmartNum F} : Agg m a (ofNum x) → (x.isZero || x.isPi) = true → Agg m a.sin (ofI64 0)
  | sin {a a' : Expr F} : Agg m a a' → a'.isZero = false → a'.isPi = false → Agg m a.sin a'.sin
  | cos_num {a : Expr F} {x : SmartNum F} : Agg m a (ofNum x) → (x.isZero || x.isPi) = true → Agg m a.cos (ofI64 1)
  | cos {a a' : Expr F} : Agg m a a' → a'.isZero = false → a'.isPi = false → Agg m a.cos a'.cos
  | exp_zero {a : Expr F} {x : SmartNum F} : Agg m a (ofNum x) → x.isZero = true → Agg m a.exp (ofI64 1)
  | exp_one {a : Expr F} {x : SmartNum F} : Agg m a (ofNum x) → x.isOne = true → Agg m a.exp Expr.e
  | exp_ln {a c : Expr F} : Agg m a c.ln → Agg m a.exp c
  | exp {a a' : Expr F} : Agg m a a' → a'.isZero = false → a'.isOne = false → (∀ c : Expr F, a' ≠ c.ln) →
      Agg m a.exp a'.exp
  | ln_e {a : Expr F} {x : SmartNum F} : Agg m a (ofNum x) → x.isE = true → Agg m a.ln (ofI64 1)
  | ln_one {a : Expr F} {x : SmartNum F} : Agg m a (ofNum x) → x.isOne = true → Agg m a.ln (ofI64 0)
  | ln_exp {a c : Expr F} : Agg m a c.exp → Agg m a.ln c
  | ln {a a' : Expr F} : Agg m a a' → a'.isE = false → a'.isOne = false → (∀ c : Expr F, a' ≠ c.exp) →
      Agg m a.ln a'.ln
  | pow_zero {a b b' : Expr F} {x : SmartNum F} : Agg m a (ofNum x) → Agg m b b' → x.isZero = true → Agg m (a.pow b) (ofI64 1)
  | pow_one {a b b' : Expr F} {x : SmartNum F} : Agg m a (ofNum x) → Agg m b b' → x.isOne = true → Agg m (a.pow b) b'
  | pow_ln {a b c b' : Expr F} : Agg m a c.ln → Agg m b b' → Agg m (a.pow b) c
  | pow {a b a' b' : Expr F} : Agg m a a' → Agg m b b' → a'.isZero = false → a'.isOne = false →
      (∀ c : Expr F, a' ≠ c.ln) → Agg m (a.pow b) (a'.pow b')

/-! ### the rules on aggregated children -/

section eqs
variable (m : Mode) (a b : Expr F)

theorem numAggregate_ofNum (n : SmartNum F) : (ofNum n).numAggregate m = .ok (ofNum n) := by
  simp [ofNum, numAggregate]
theorem numAggregate_ofVar (v : Variable) : (ofVar v : Expr F).numAggregate m = .ok (ofVar v) := by
  simp [ofVar, newVariable, numAggregate]

theorem numAggregate_neg : a.neg.numAggregate m = negEvalRule m [a.numAggregate m] := by
  simp [Expr.neg, numAggregate, numAggregateList, genOpNeg]
theorem numAggregate_add : (a.add b).numAggregate m =
    addEvalRule m [a.numAggregate m, b.numAggregate m] := by
  simp [Expr.add, numAggregate, numAggregateList, genOpAdd]
theorem numAggregate_sub : (a.sub b).numAggregate m =
    subEvalRule m [a.numAggregate m, b.numAggregate m] := by
  simp [Expr.sub, numAggregate, numAggregateList, genOpSub]
theorem numAggregate_mul : (a.mul b).numAggregate m =
    mulEvalRule m [a.numAggregate m, b.numAggregate m] := by
  simp [Expr.mul, numAggregate, numAggregateList, genOpMul]
theorem numAggregate_div : (a.div b).numAggregate m =
    divEvalRule m [a.numAggregate m, b.numAggregate m] := by
  simp [Expr.div, numAggregate, numAggregateList, genOpDiv]
theorem numAggregate_pow : (a.pow b).numAggregate m =
    powEvalRule [a.numAggregate m, b.numAggregate m] := by
  simp [Expr.pow, numAggregate, numAggregateList, genOpPow]
theorem numAggregate_sin : a.sin.numAggregate m = sinEvalRule [a.numAggregate m] := by
  simp [Expr.sin, numAggregate, numAggregateList, genOpSin]
theorem numAggregate_cos : a.cos.numAggregate m = cosEvalRule [a.numAggregate m] := by
  simp [Expr.cos, numAggregate, numAggregateList, genOpCos]
theorem numAggregate_exp : a.exp.numAggregate m = expEvalRule [a.numAggregate m] := by
  simp [Expr.exp, numAggregate, numAggregateList, genOpExp]
theorem numAggregate_ln : a.ln.numAggregate m = lnEvalRule [a.numAggregate m] := by
  simp [Expr.ln, numAggregate, numAggregateList, genOpLn]
end eqs

omit [FloatOps F] in
theorem pop_one {α : Type} (x : α) : pop [x] = .ok (x, []) := rfl
omit [FloatOps F] in
theorem pop_two {α : Type} (x y : α) : pop [x, y] = .ok (y, [x]) := rfl

omit [FloatOps F] in
@[simp] theorem numUnwrap_ofNum (n : SmartNum F) : (ofNum n).numUnwrap = .ok n := rfl

omit [FloatOps F] in
theorem tree_num {a : Expr F} (h : Tree a) (hn : a.isNum = true) : ∃ n, a = ofNum n := by
  obtain ⟨n, -, h⟩ := h.num_of_isNum hn; exact ⟨n, h⟩

theorem negEvalRule_cases {m : Mode} {a e : Expr F} (ha : Tree a)
    (h : negEvalRule m [.ok a] = .ok e) :
    (∃ n k, a = ofNum n ∧ n.neg m = .ok k ∧ e = ofNum k) ∨ (∃ c : Expr F, a = c.neg ∧ e = c) ∨
    (a.isNum = false ∧ (∀ c : Expr F, a ≠ c.neg) ∧ e = a.neg) := by
  unfold negEvalRule at h
  simp only [pop_one, Res.ok_bind] at h
  cases ha with
  | num n _ =>
    left
    simp only [isNum_ofNum, if_true, numUnwrap_ofNum, Res.ok_bind, Res.bind_eq_ok, Res.pure_eq,
      Res.ok.injEq] at h
    obtain ⟨k, hk, rfl⟩ := h
    exact ⟨n, k, rfl, hk, rfl⟩
  | neg c _ => right; left; cases h; exact ⟨c, rfl, rfl⟩
  | _ =>
    right; right
    cases h
    refine ⟨rfl, ?_, rfl⟩
    intro c hc; expr_inj at hc

theorem addEvalRule_cases {m : Mode} {a b e : Expr F} (ha : Tree a) (hb : Tree b)
    (h : addEvalRule m [.ok a, .ok b] = .ok e) :
    (∃ x y z, a = ofNum x ∧ b = ofNum y ∧ x.add m y = .ok z ∧ e = ofNum z) ∨
    (∃ x, a = ofNum x ∧ x.isZero = true ∧ b.isNum = false ∧ e = b) ∨
    (∃ y, b = ofNum y ∧ y.isZero = true ∧ a.isNum = false ∧ e = a) ∨
    ((a.isNum && b.isNum) = false ∧ a.isZero = false ∧ b.isZero = false ∧ e = a.add b) := by
  unfold addEvalRule at h
  simp only [pop_one, pop_two, Res.ok_bind] at h
  split at h
  · rename_i hn
    rw [Bool.and_eq_true] at hn
    obtain ⟨x, rfl⟩ := tree_num ha hn.1
    obtain ⟨y, rfl⟩ := tree_num hb hn.2
    simp only [numUnwrap_ofNum, Res.ok_bind, Res.bind_eq_ok, Res.pure_eq, Res.ok.injEq] at h
    obtain ⟨z, hz, rfl⟩ := h
    exact .inl ⟨x, y, z, rfl, rfl, hz, rfl⟩
  rename_i hn
  have hn' : (a.isNum && b.isNum) = false := by simpa using hn
  split at h
  · rename_i h0
    cases h
    obtain ⟨x, rfl⟩ := tree_num ha (isZero_isNum h0)
    exact .inr (.inl ⟨x, rfl, h0, by simpa using hn', rfl⟩)
  rename_i h0
  split at h
  · rename_i h1
    cases h
    obtain ⟨y, rfl⟩ := tree_num hb (isZero_isNum h1)
    exact .inr (.inr (.inl ⟨y, rfl, h1, by simpa using hn', rfl⟩))
  rename_i h1
  cases h
  exact .inr (.inr (.inr ⟨hn', by simpa using h0, by simpa using h1, rfl⟩))

theorem subEvalRule_cases {m : Mode} {a b e : Expr F} (ha : Tree a) (hb : Tree b)
    (h : subEvalRule m [.ok a, .ok b] = .ok e) :
    (∃ x y z, a = ofNum x ∧ b = ofNum y ∧ x.sub m y = .ok z ∧ e = ofNum z) ∨
    (∃ x, a = ofNum x ∧ x.isZero = true ∧ b.isNum = false ∧ e = b.neg) ∨
    (∃ y, b = ofNum y ∧ y.isZero = true ∧ a.isNum = false ∧ e = a) ∨
    ((a.isNum && b.isNum) = false ∧ a.isZero = false ∧ b.isZero = false ∧ e = a.sub b) := by
  unfold subEvalRule at h
  simp only [pop_one, pop_two, Res.ok_bind] at h
  split at h
  · rename_i hn
    rw [Bool.and_eq_true] at hn
    obtain ⟨x, rfl⟩ := tree_num ha hn.1
    obtain ⟨y, rfl⟩ := tree_num hb hn.2
    simp only [numUnwrap_ofNum, Res.ok_bind, Res.bind_eq_ok, Res.pure_eq, Res.ok.injEq] at h
    obtain ⟨z, hz, rfl⟩ := h
    exact .inl ⟨x, y, z, rfl, rfl, hz, rfl⟩
  rename_i hn
  have hn' : (a.isNum && b.isNum) = false := by simpa using hn
  split at h
  · rename_i h0
    cases h
    obtain ⟨x, rfl⟩ := tree_num ha (isZero_isNum h0)
    exact .inr (.inl ⟨x, rfl, h0, by simpa using hn', rfl⟩)
  rename_i h0
  split at h
  · rename_i h1
    cases h
    obtain ⟨y, rfl⟩ := tree_num hb (isZero_isNum h1)
    exact .inr (.inr (.inl ⟨y, rfl, h1, by simpa using hn', rfl⟩))
  rename_i h1
  cases h
  exact .inr (.inr (.inr ⟨hn', by simpa using h0, by simpa using h1, rfl⟩))

theorem mulEvalRule_cases {m : Mode} {a b e : Expr F} (ha : Tree a) (hb : Tree b)
    (h : mulEvalRule m [.ok a, .ok b] = .ok e) :
    (∃ x y z, a = ofNum x ∧ b = ofNum y ∧ x.mul m y = .ok z ∧ e = ofNum z) ∨
    (∃ x, a = ofNum x ∧ x.isZero = true ∧ b.isNum = false ∧ e = ofI64 0) ∨
    (∃ y, b = ofNum y ∧ y.isZero = true ∧ a.isNum = false ∧ e = ofI64 0) ∨
    (∃ x, a = ofNum x ∧ x.isOne = true ∧ b.isNum = false ∧ e = b) ∨
    (∃ y, b = ofNum y ∧ y.isOne = true ∧ a.isNum = false ∧ e = a) ∨
    ((a.isNum && b.isNum) = false ∧ a.isZero = false ∧ b.isZero = false ∧ a.isOne = false ∧
      b.isOne = false ∧ e = a.mul b) := by
  unfold mulEvalRule at h
  simp only [pop_one, pop_two, Res.ok_bind] at h
  split at h
  · rename_i hn
    rw [Bool.and_eq_true] at hn
    obtain ⟨x, rfl⟩ := tree_num ha hn.1
    obtain ⟨y, rfl⟩ := tree_num hb hn.2
    simp only [numUnwrap_ofNum, Res.ok_bind, Res.bind_eq_ok, Res.pure_eq, Res.ok.injEq] at h
    obtain ⟨z, hz, rfl⟩ := h
    exact .inl ⟨x, y, z, rfl, rfl, hz, rfl⟩
  rename_i hn
  have hn' : (a.isNum && b.isNum) = false := by simpa using hn
  split at h
  · rename_i h0
    cases h
    rw [Bool.or_eq_true] at h0
    rcases h0 with h0 | h0
    · obtain ⟨x, rfl⟩ := tree_num ha (isZero_isNum h0)
      exact .inr (.inl ⟨x, rfl, h0, by simpa using hn', rfl⟩)
    · obtain ⟨x, rfl⟩ := tree_num hb (isZero_isNum h0)
      exact .inr (.inr (.inl ⟨x, rfl, h0, by simpa using hn', rfl⟩))
  rename_i h0
  have h0' : a.isZero = false ∧ b.isZero = false := by simpa using h0
  split at h
  · rename_i h1
    cases h
    obtain ⟨y, rfl⟩ := tree_num ha (isOne_isNum h1)
    exact .inr (.inr (.inr (.inl ⟨y, rfl, h1, by simpa using hn', rfl⟩)))
  rename_i h1
  split at h
  · rename_i h2
    cases h
    obtain ⟨y, rfl⟩ := tree_num hb (isOne_isNum h2)
    exact .inr (.inr (.inr (.inr (.inl ⟨y, rfl, h2, by simpa using hn', rfl⟩))))
  rename_i h2
  cases h
  exact .inr (.inr (.inr (.inr (.inr ⟨hn', h0'.1, h0'.2, by simpa using h1, by simpa using h2, rfl⟩))))

theorem divEvalRule_cases {m : Mode} {a b e : Expr F} (ha : Tree a) (hb : Tree b)
    (h : divEvalRule m [.ok a, .ok b] = .ok e) :
    (∃ x y z, a = ofNum x ∧ b = ofNum y ∧ x.div m y = .ok z ∧ e = ofNum z) ∨
    (∃ x, a = ofNum x ∧ x.isZero = true ∧ b.isNum = false ∧ e = ofI64 0) ∨
    ((a.isNum && b.isNum) = false ∧ a.isZero = false ∧ e = a.div b) := by
  unfold divEvalRule at h
  simp only [pop_one, pop_two, Res.ok_bind] at h
  split at h
  · rename_i hn
    rw [Bool.and_eq_true] at hn
    obtain ⟨x, rfl⟩ := tree_num ha hn.1
    obtain ⟨y, rfl⟩ := tree_num hb hn.2
    simp only [numUnwrap_ofNum, Res.ok_bind, Res.bind_eq_ok, Res.pure_eq, Res.ok.injEq] at h
    obtain ⟨z, hz, rfl⟩ := h
    exact .inl ⟨x, y, z, rfl, rfl, hz, rfl⟩
  rename_i hn
  have hn' : (a.isNum && b.isNum) = false := by simpa using hn
  split at h
  · rename_i h0
    cases h
    obtain ⟨x, rfl⟩ := tree_num ha (isZero_isNum h0)
    exact .inr (.inl ⟨x, rfl, h0, by simpa using hn', rfl⟩)
  rename_i h0
  cases h
  exact .inr (.inr ⟨hn', by simpa using h0, rfl⟩)

omit [FloatOps F] in
theorem sinEvalRule_cases {a e : Expr F} (ha : Tree a) (h : sinEvalRule [.ok a] = .ok e) :
    (∃ x, a = ofNum x ∧ (x.isZero || x.isPi) = true ∧ e = ofI64 0) ∨
    (a.isZero = false ∧ a.isPi = false ∧ e = a.sin) := by
  unfold sinEvalRule at h
  simp only [pop_one, Res.ok_bind] at h
  cases ha with
  | num n _ =>
    simp only [ofNum, root] at h
    by_cases h0 : (n.isZero || n.isPi) = true
    · erw [if_pos h0] at h; cases h; exact .inl ⟨n, rfl, h0, rfl⟩
    · erw [if_neg h0] at h
      cases h
      rw [Bool.or_eq_true, not_or] at h0
      exact .inr ⟨by simpa using h0.1, by simpa using h0.2, rfl⟩
  | _ => cases h; exact .inr ⟨rfl, rfl, rfl⟩

omit [FloatOps F] in
theorem cosEvalRule_cases {a e : Expr F} (ha : Tree a) (h : cosEvalRule [.ok a] = .ok e) :
    (∃ x, a = ofNum x ∧ (x.isZero || x.isPi) = true ∧ e = ofI64 1) ∨
    (a.isZero = false ∧ a.isPi = false ∧ e = a.cos) := by
  unfold cosEvalRule at h
  simp only [pop_one, Res.ok_bind] at h
  cases ha with
  | num n _ =>
    simp only [ofNum, root] at h
    by_cases h0 : (n.isZero || n.isPi) = true
    · erw [if_pos h0] at h; cases h; exact .inl ⟨n, rfl, h0, rfl⟩
    · erw [if_neg h0] at h
      cases h
      rw [Bool.or_eq_true, not_or] at h0
      exact .inr ⟨by simpa using h0.1, by simpa using h0.2, rfl⟩
  | _ => cases h; exact .inr ⟨rfl, rfl, rfl⟩

theorem expEvalRule_cases {a e : Expr F} (ha : Tree a) (h : expEvalRule [.ok a] = .ok e) :
    (∃ x, a = ofNum x ∧ x.isZero = true ∧ e = ofI64 1) ∨
    (∃ x, a = ofNum x ∧ x.isOne = true ∧ e = Expr.e) ∨
    (∃ c : Expr F, a = c.ln ∧ e = c) ∨
    (a.isZero = false ∧ a.isOne = false ∧ (∀ c : Expr F, a ≠ c.ln) ∧ e = a.exp) := by
  unfold expEvalRule at h
  simp only [pop_one, Res.ok_bind] at h
  cases ha with
  | num n _ =>
    simp only [ofNum, root] at h
    split at h
    · rename_i h0; cases h; exact .inl ⟨n, rfl, h0, rfl⟩
    rename_i h0
    split at h
    · rename_i h1; cases h; exact .inr (.inl ⟨n, rfl, h1, rfl⟩)
    rename_i h1
    cases h
    refine .inr (.inr (.inr ⟨by simpa using h0, by simpa using h1, ?_, rfl⟩))
    intro c hc; expr_inj at hc
  | ln c _ => cases h; exact .inr (.inr (.inl ⟨c, rfl, rfl⟩))
  | _ =>
    cases h
    refine .inr (.inr (.inr ⟨rfl, rfl, ?_, rfl⟩))
    intro c hc; expr_inj at hc

omit [FloatOps F] in
theorem lnEvalRule_cases {a e : Expr F} (ha : Tree a) (h : lnEvalRule [.ok a] = .ok e) :
    (∃ x, a = ofNum x ∧ x.isE = true ∧ e = ofI64 1) ∨
    (∃ x, a = ofNum x ∧ x.isOne = true ∧ e = ofI64 0) ∨
    (∃ c : Expr F, a = c.exp ∧ e = c) ∨
    (a.isE = false ∧ a.isOne = false ∧ (∀ c : Expr F, a ≠ c.exp) ∧ e = a.ln) := by
  unfold lnEvalRule at h
  simp only [pop_one, Res.ok_bind] at h
  cases ha with
  | num n _ =>
    simp only [ofNum, root] at h
    split at h
    · rename_i h0; cases h; exact .inl ⟨n, rfl, h0, rfl⟩
    rename_i h0
    split at h
    · rename_i h1; cases h; exact .inr (.inl ⟨n, rfl, h1, rfl⟩)
    rename_i h1
    cases h
    refine .inr (.inr (.inr ⟨by simpa using h0, by simpa using h1, ?_, rfl⟩))
    intro c hc; expr_inj at hc
  | exp c _ => cases h; exact .inr (.inr (.inl ⟨c, rfl, rfl⟩))
  | _ =>
    cases h
    refine .inr (.inr (.inr ⟨rfl, rfl, ?_, rfl⟩))
    intro c hc; expr_inj at hc

omit [FloatOps F] in
theorem powEvalRule_cases {a b e : Expr F} (ha : Tree a) (h : powEvalRule [.ok a, .ok b] = .ok e) :
    (∃ x, a = ofNum x ∧ x.isZero = true ∧ e = ofI64 1) ∨
    (∃ x, a = ofNum x ∧ x.isOne = true ∧ e = b) ∨
    (∃ c : Expr F, a = c.ln ∧ e = c) ∨
    (a.isZero = false ∧ a.isOne = false ∧ (∀ c : Expr F, a ≠ c.ln) ∧ e = a.pow b) := by
  unfold powEvalRule at h
  simp only [pop_one, pop_two, Res.ok_bind] at h
  cases ha with
  | num n _ =>
    simp only [ofNum, root] at h
    split at h
    · rename_i h0; cases h; exact .inl ⟨n, rfl, h0, rfl⟩
    rename_i h0
    split at h
    · rename_i h1; cases h; exact .inr (.inl ⟨n, rfl, h1, rfl⟩)
    rename_i h1
    cases h
    refine .inr (.inr (.inr ⟨by simpa using h0, by simpa using h1, ?_, rfl⟩))
    intro c hc; expr_inj at hc
  | ln c _ => cases h; exact .inr (.inr (.inl ⟨c, rfl, rfl⟩))
  | _ =>
    cases h
    refine .inr (.inr (.inr ⟨rfl, rfl, ?_, rfl⟩))
    intro c hc; expr_inj at hc

/-! ### panics of the children -/

theorem negEvalRule_bind {m : Mode} (x : Res (Expr F)) :
    negEvalRule m [x] = x >>= fun a => negEvalRule m [.ok a] := by
  cases x <;> rfl
omit [FloatOps F] in
theorem sinEvalRule_bind (x : Res (Expr F)) : sinEvalRule [x] = x >>= fun a => sinEvalRule [.ok a] := by
  cases x <;> rfl
omit [FloatOps F] in
theorem cosEvalRule_bind (x : Res (Expr F)) : cosEvalRule [x] = x >>= fun a => cosEvalRule [.ok a] := by
  cases x <;> rfl
theorem expEvalRule_bind (x : Res (Expr F)) : expEvalRule [x] = x >>= fun a => expEvalRule [.ok a] := by
  cases x <;> rfl
omit [FloatOps F] in
theorem lnEvalRule_bind (x : Res (Expr F)) : lnEvalRule [x] = x >>= fun a => lnEvalRule [.ok a] := by
  cases x <;> rfl
theorem addEvalRule_bind {m : Mode} (x y : Res (Expr F)) :
    addEvalRule m [x, y] = y >>= fun b => x >>= fun a => addEvalRule m [.ok a, .ok b] := by
  cases x <;> cases y <;> rfl
theorem subEvalRule_bind {m : Mode} (x y : Res (Expr F)) :
    subEvalRule m [x, y] = y >>= fun b => x >>= fun a => subEvalRule m [.ok a, .ok b] := by
  cases x <;> cases y <;> rfl
theorem mulEvalRule_bind {m : Mode} (x y : Res (Expr F)) :
    mulEvalRule m [x, y] = y >>= fun b => x >>= fun a => mulEvalRule m [.ok a, .ok b] := by
  cases x <;> cases y <;> rfl
theorem divEvalRule_bind {m : Mode} (x y : Res (Expr F)) :
    divEvalRule m [x, y] = y >>= fun b => x >>= fun a => divEvalRule m [.ok a, .ok b] := by
  cases x <;> cases y <;> rfl
omit [FloatOps F] in
theorem powEvalRule_bind (x y : Res (Expr F)) :
    powEvalRule [x, y] = y >>= fun b => x >>= fun a => powEvalRule [.ok a, .ok b] := by
  cases x <;> cases y <;> rfl

/-! ### well-formedness of results -/

/-- A set of numbers closed under what the algorithms do with numbers in mode `m`. -/
structure NumClosed (m : Mode) (P : SmartNum F → Prop) : Prop where
  ofI64 : ∀ v, P (SmartNum.ofI64 v)
  e : P SmartNum.e
  neg : ∀ x y, P x → x.neg m = .ok y → P y
  add : ∀ x y z, P x → P y → x.add m y = .ok z → P z
  sub : ∀ x y z, P x → P y → x.sub m y = .ok z → P z
  mul : ∀ x y z, P x → P y → x.mul m y = .ok z → P z
  div : ∀ x y z, P x → P y → x.div m y = .ok z → P z

theorem numClosed_true (m : Mode) : NumClosed (F := F) m fun _ => True := by
  constructor <;> intros <;> trivial

theorem numClosed_reachable (m : Mode) : NumClosed (F := F) m (SmartNum.Reachable m) :=
  ⟨.ofI64, .e, .neg, .add, .sub, .mul, .div⟩

theorem Agg.wf {m : Mode} {P : SmartNum F → Prop} (hP : NumClosed m P) {e e' : Expr F}
    (h : Agg m e e') (he : WF P e) : WF P e' := by
  have h0 : WF P (ofI64 0) := .num _ (hP.ofI64 0)
  have h1 : WF P (ofI64 1) := .num _ (hP.ofI64 1)
  have hE : WF P Expr.e := .num _ hP.e
  induction h with
  | num n => exact he
  | var v => exact he
  | neg_num _ hk ih => exact .num _ (hP.neg _ _ (WF.num_iff.mp (ih (WF.neg_iff.mp he))) hk)
  | neg_neg _ ih => exact WF.neg_iff.mp (ih (WF.neg_iff.mp he))
  | neg _ _ _ ih => exact .neg _ (ih (WF.neg_iff.mp he))
  | add_num _ _ hz i j =>
    have := WF.add_iff.mp he
    exact .num _ (hP.add _ _ _ (WF.num_iff.mp (i this.1)) (WF.num_iff.mp (j this.2)) hz)
  | add_zero_l _ _ _ _ i j => exact j (WF.add_iff.mp he).2
  | add_zero_r _ _ _ _ i j => exact i (WF.add_iff.mp he).1
  | add _ _ _ _ _ i j => have := WF.add_iff.mp he; exact .add _ _ (i this.1) (j this.2)
  | sub_num _ _ hz i j =>
    have := WF.sub_iff.mp he
    exact .num _ (hP.sub _ _ _ (WF.num_iff.mp (i this.1)) (WF.num_iff.mp (j this.2)) hz)
  | sub_zero_l _ _ _ _ i j => exact .neg _ (j (WF.sub_iff.mp he).2)
  | sub_zero_r _ _ _ _ i j => exact i (WF.sub_iff.mp he).1
  | sub _ _ _ _ _ i j => have := WF.sub_iff.mp he; exact .sub _ _ (i this.1) (j this.2)
  | mul_num _ _ hz i j =>
    have := WF.mul_iff.mp he
    exact .num _ (hP.mul _ _ _ (WF.num_iff.mp (i this.1)) (WF.num_iff.mp (j this.2)) hz)
  | mul_zero_l | mul_zero_r => exact h0
  | mul_one_l _ _ _ _ i j => exact j (WF.mul_iff.mp he).2
  | mul_one_r _ _ _ _ i j => exact i (WF.mul_iff.mp he).1
  | mul _ _ _ _ _ _ _ i j => have := WF.mul_iff.mp he; exact .mul _ _ (i this.1) (j this.2)
  | div_num _ _ hz i j =>
    have := WF.div_iff.mp he
    exact .num _ (hP.div _ _ _ (WF.num_iff.mp (i this.1)) (WF.num_iff.mp (j this.2)) hz)
  | div_zero_l => exact h0
  | div _ _ _ _ i j => have := WF.div_iff.mp he; exact .div _ _ (i this.1) (j this.2)
  | sin_num => exact h0
  | sin _ _ _ ih => exact .sin _ (ih (WF.sin_iff.mp he))
  | cos_num => exact h1
  | cos _ _ _ ih => exact .cos _ (ih (WF.cos_iff.mp he))
  | exp_zero => exact h1
  | exp_one => exact hE
  | exp_ln _ ih => exact WF.ln_iff.mp (ih (WF.exp_iff.mp he))
  | exp _ _ _ _ ih => exact .exp _ (ih (WF.exp_iff.mp he))
  | ln_e => exact h1
  | ln_one => exact h0
  | ln_exp _ ih => exact WF.exp_iff.mp (ih (WF.ln_iff.mp he))
  | ln _ _ _ _ ih => exact .ln _ (ih (WF.ln_iff.mp he))
  | pow_zero => exact h1
  | pow_one _ _ _ i j => exact j (WF.pow_iff.mp he).2
  | pow_ln _ _ i j => exact WF.ln_iff.mp (i (WF.pow_iff.mp he).1)
  | pow _ _ _ _ _ i j => have := WF.pow_iff.mp he; exact .pow _ _ (i this.1) (j this.2)

/-- A successful `num_aggregate` of a well-formed tree is an `Agg` step. -/
theorem agg_of_numAggregate {m : Mode} {e e' : Expr F} (he : Tree e) (h : e.numAggregate m = .ok e') :
    Agg m e e' := by
  have wf : ∀ {a a' : Expr F}, Tree a → Agg m a a' → Tree a' := fun ha h => h.wf (numClosed_true m) ha
  induction he generalizing e' with
  | num n _ => rw [numAggregate_ofNum] at h; cases h; exact .num n
  | var v => rw [numAggregate_ofVar] at h; cases h; exact .var v
  | neg a ha ih =>
    rw [numAggregate_neg, negEvalRule_bind, Res.bind_eq_ok] at h
    obtain ⟨a', h1, h2⟩ := h
    have i := ih h1
    rcases negEvalRule_cases (wf ha i) h2 with ⟨n, k, rfl, hk, rfl⟩ | ⟨c, rfl, rfl⟩ | ⟨h3, h4, rfl⟩
    · exact .neg_num i hk
    · exact .neg_neg i
    · exact .neg i h3 h4
  | add a b ha hb iha ihb =>
    rw [numAggregate_add, addEvalRule_bind, Res.bind_eq_ok] at h
    obtain ⟨b', h1, h⟩ := h
    rw [Res.bind_eq_ok] at h
    obtain ⟨a', h2, h3⟩ := h
    have i := iha h2
    have j := ihb h1
    rcases addEvalRule_cases (wf ha i) (wf hb j) h3 with ⟨x, y, z, rfl, rfl, hz, rfl⟩ |
      ⟨x, rfl, h0, hn, rfl⟩ | ⟨y, rfl, h0, hn, rfl⟩ | ⟨k1, k2, k3, rfl⟩
    · exact .add_num i j hz
    · exact .add_zero_l i j h0 hn
    · exact .add_zero_r i j h0 hn
    · exact .add i j k1 k2 k3
  | sub a b ha hb iha ihb =>
    rw [numAggregate_sub, subEvalRule_bind, Res.bind_eq_ok] at h
    obtain ⟨b', h1, h⟩ := h
    rw [Res.bind_eq_ok] at h
    obtain ⟨a', h2, h3⟩ := h
    have i := iha h2
    have j := ihb h1
    rcases subEvalRule_cases (wf ha i) (wf hb j) h3 with ⟨x, y, z, rfl, rfl, hz, rfl⟩ |
      ⟨x, rfl, h0, hn, rfl⟩ | ⟨y, rfl, h0, hn, rfl⟩ | ⟨k1, k2, k3, rfl⟩
    · exact .sub_num i j hz
    · exact .sub_zero_l i j h0 hn
    · exact .sub_zero_r i j h0 hn
    · exact .sub i j k1 k2 k3
  | mul a b ha hb iha ihb =>
    rw [numAggregate_mul, mulEvalRule_bind, Res.bind_eq_ok] at h
    obtain ⟨b', h1, h⟩ := h
    rw [Res.bind_eq_ok] at h
    obtain ⟨a', h2, h3⟩ := h
    have i := iha h2
    have j := ihb h1
    rcases mulEvalRule_cases (wf ha i) (wf hb j) h3 with ⟨x, y, z, rfl, rfl, hz, rfl⟩ |
      ⟨x, rfl, h0, hn, rfl⟩ | ⟨y, rfl, h0, hn, rfl⟩ | ⟨x, rfl, h0, hn, rfl⟩ | ⟨y, rfl, h0, hn, rfl⟩ |
      ⟨k1, k2, k3, k4, k5, rfl⟩
    · exact .mul_num i j hz
    · exact .mul_zero_l i j h0 hn
    · exact .mul_zero_r i j h0 hn
    · exact .mul_one_l i j h0 hn
    · exact .mul_one_r i j h0 hn
    · exact .mul i j k1 k2 k3 k4 k5
  | div a b ha hb iha ihb =>
    rw [numAggregate_div, divEvalRule_bind, Res.bind_eq_ok] at h
    obtain ⟨b', h1, h⟩ := h
    rw [Res.bind_eq_ok] at h
    obtain ⟨a', h2, h3⟩ := h
    have i := iha h2
    have j := ihb h1
    rcases divEvalRule_cases (wf ha i) (wf hb j) h3 with ⟨x, y, z, rfl, rfl, hz, rfl⟩ |
      ⟨x, rfl, h0, hn, rfl⟩ | ⟨k1, k2, rfl⟩
    · exact .div_num i j hz
    · exact .div_zero_l i j h0 hn
    · exact .div i j k1 k2
  | sin a ha ih =>
    rw [numAggregate_sin, sinEvalRule_bind, Res.bind_eq_ok] at h
    obtain ⟨a', h1, h2⟩ := h
    have i := ih h1
    rcases sinEvalRule_cases (wf ha i) h2 with ⟨x, rfl, h0, rfl⟩ | ⟨h3, h4, rfl⟩
    · exact .sin_num i h0
    · exact .sin i h3 h4
  | cos a ha ih =>
    rw [numAggregate_cos, cosEvalRule_bind, Res.bind_eq_ok] at h
    obtain ⟨a', h1, h2⟩ := h
    have i := ih h1
    rcases cosEvalRule_cases (wf ha i) h2 with ⟨x, rfl, h0, rfl⟩ | ⟨h3, h4, rfl⟩
    · exact .cos_num i h0
    · exact .cos i h3 h4
  | exp a ha ih =>
    rw [numAggregate_exp, expEvalRule_bind, Res.bind_eq_ok] at h
    obtain ⟨a', h1, h2⟩ := h
    have i := ih h1
    rcases expEvalRule_cases (wf ha i) h2 with ⟨x, rfl, h0, rfl⟩ | ⟨x, rfl, h0, rfl⟩ |
      ⟨c, rfl, rfl⟩ | ⟨h3, h4, h5, rfl⟩
    · exact .exp_zero i h0
    · exact .exp_one i h0
    · exact .exp_ln i
    · exact .exp i h3 h4 h5
  | ln a ha ih =>
    rw [numAggregate_ln, lnEvalRule_bind, Res.bind_eq_ok] at h
    obtain ⟨a', h1, h2⟩ := h
    have i := ih h1
    rcases lnEvalRule_cases (wf ha i) h2 with ⟨x, rfl, h0, rfl⟩ | ⟨x, rfl, h0, rfl⟩ |
      ⟨c, rfl, rfl⟩ | ⟨h3, h4, h5, rfl⟩
    · exact .ln_e i h0
    · exact .ln_one i h0
    · exact .ln_exp i
    · exact .ln i h3 h4 h5
  | pow a b ha hb iha ihb =>
    rw [numAggregate_pow, powEvalRule_bind, Res.bind_eq_ok] at h
    obtain ⟨b', h1, h⟩ := h
    rw [Res.bind_eq_ok] at h
    obtain ⟨a', h2, h3⟩ := h
    have i := iha h2
    have j := ihb h1
    rcases powEvalRule_cases (wf ha i) h3 with ⟨x, rfl, h0, rfl⟩ | ⟨x, rfl, h0, rfl⟩ |
      ⟨c, rfl, rfl⟩ | ⟨k3, k4, k5, rfl⟩
    · exact .pow_zero i j h0
    · exact .pow_one i j h0
    · exact .pow_ln i j
    · exact .pow i j k3 k4 k5

end SymRust
