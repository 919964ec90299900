import Verif.Spec.Laws
import Verif.Proofs.AggFacts
import Verif.Props.Aggregate
import Verif.Props.Number
/-! # C72: the laws of simplification -/

namespace SymRust
variable {F : Type} [FloatOps F]
open Expr

omit [FloatOps F] in
theorem res_cases {α : Type} (x : Res α) : x = .panic ∨ ∃ a, x = .ok a := by
  cases x <;> simp

omit [FloatOps F] in
theorem SameUpToConst.refl (a : Expr F) : SameUpToConst a a := .inl rfl

omit [FloatOps F] in
theorem isZero_isOne {n : SmartNum F} (h : n.isZero = true) : n.isOne = false := by
  have := C09_flags_exclusive n; unfold SmartNum.isOne SmartNum.isZero at *; revert h; cases n.tag <;> decide

omit [FloatOps F] in
theorem isOne_isZero {n : SmartNum F} (h : n.isOne = true) : n.isZero = false := by
  cases h' : n.isZero
  · rfl
  · rw [isZero_isOne h'] at h; cases h


omit [FloatOps F] in
theorem isZero_of_not_num {a : Expr F} (h : a.isNum = false) : a.isZero = false := by
  cases a with | mk r c => cases r with
    | operator => rfl
    | operand o => cases o with
      | num => cases h
      | var => rfl

omit [FloatOps F] in
theorem isOne_of_not_num {a : Expr F} (h : a.isNum = false) : a.isOne = false := by
  cases a with | mk r c => cases r with
    | operator => rfl
    | operand o => cases o with
      | num => cases h
      | var => rfl

omit [FloatOps F] in
theorem isE_of_not_num {a : Expr F} (h : a.isNum = false) : a.isE = false := by
  cases a with | mk r c => cases r with
    | operator => rfl
    | operand o => cases o with
      | num => cases h
      | var => rfl

theorem agg_split (m : Mode) {e : Expr F} (he : Tree e) :
    e.numAggregate m = .panic ∨ ∃ a, e.numAggregate m = .ok a ∧ Tree a ∧ NormalAt a ∧
      ((∃ n, a = ofNum n) ∨ a.isNum = false) := by
  rcases res_cases (e.numAggregate m) with h | ⟨a, h⟩
  · exact .inl h
  · have g := agg_of_numAggregate he h
    have ta := g.wf (numClosed_true m) he
    refine .inr ⟨a, h, ta, g.normal.root, ?_⟩
    cases hn : a.isNum
    · exact .inr rfl
    · exact .inl (tree_num ta hn)

/-- C72: adding 0 on the left changes nothing, in any build, not even whether simplification panics. -/
theorem C72_zero_add (m : Mode) (e : Expr F) (he : Tree e) (z : SmartNum F) (hz : z.isZero = true) :
    ((ofNum z).add e).numAggregate m = e.numAggregate m := by
  rw [numAggregate_add, numAggregate_ofNum, addEvalRule_bind]
  rcases agg_split m he with h | ⟨a, h, -, -, ⟨n, rfl⟩ | hn⟩ <;> rw [h]
  · rfl
  · simp [addEvalRule, pop, C11_zero_add m z n hz]
  · simp [addEvalRule, pop, hn, hz]

/-- C72: adding 0 on the right. -/
theorem C72_add_zero (m : Mode) (e : Expr F) (he : Tree e) (z : SmartNum F) (hz : z.isZero = true) :
    SameResult (e.numAggregate m) ((e.add (ofNum z)).numAggregate m) := by
  rw [numAggregate_add, numAggregate_ofNum, addEvalRule_bind]
  rcases agg_split m he with h | ⟨a, h, -, -, ⟨n, rfl⟩ | hn⟩ <;> rw [h]
  · exact .inl ⟨rfl, rfl⟩
  · cases hx : n.isZero
    · exact .inr ⟨_, ofNum n, rfl, by simp [addEvalRule, pop, C11_add_zero m n z hz hx], .refl _⟩
    · exact .inr ⟨_, ofNum z, rfl, by simp [addEvalRule, pop, C11_zero_add m n z hx], .inr (.inl ⟨hx, hz⟩)⟩
  · have h0 : a.isZero = false := isZero_of_not_num hn
    exact .inr ⟨_, a, rfl, by simp [addEvalRule, pop, hn, hz, h0], .refl _⟩

/-- C72: subtracting 0. -/
theorem C72_sub_zero (m : Mode) (e : Expr F) (he : Tree e) (z : SmartNum F) (hz : z.isZero = true)
    (h0 : ∀ a, e.numAggregate m = .ok a → a.isZero = false) :
    (e.sub (ofNum z)).numAggregate m = e.numAggregate m := by
  rw [numAggregate_sub, numAggregate_ofNum, subEvalRule_bind]
  rcases agg_split m he with h | ⟨a, h, -, -, ⟨n, rfl⟩ | hn⟩ <;> rw [h]
  · rfl
  · simp [subEvalRule, pop, C11_sub_zero m n z hz (h0 _ h)]
  · simp [subEvalRule, pop, hn, hz, h0 _ h]

/-- C72: multiplying by 1 on the left changes nothing. -/
theorem C72_one_mul (m : Mode) (e : Expr F) (he : Tree e) (u : SmartNum F) (hu : u.isOne = true) :
    ((ofNum u).mul e).numAggregate m = e.numAggregate m := by
  rw [numAggregate_mul, numAggregate_ofNum, mulEvalRule_bind]
  rcases agg_split m he with h | ⟨a, h, -, -, ⟨n, rfl⟩ | hn⟩ <;> rw [h]
  · rfl
  · simp [mulEvalRule, pop, C11_one_mul m u n hu]
  · simp [mulEvalRule, pop, hn, hu, isOne_isZero hu, isZero_of_not_num hn]

/-- C72: multiplying by 1 on the right. -/
theorem C72_mul_one (m : Mode) (e : Expr F) (he : Tree e) (u : SmartNum F) (hu : u.isOne = true) :
    SameResult (e.numAggregate m) ((e.mul (ofNum u)).numAggregate m) := by
  rw [numAggregate_mul, numAggregate_ofNum, mulEvalRule_bind]
  rcases agg_split m he with h | ⟨a, h, -, -, ⟨n, rfl⟩ | hn⟩ <;> rw [h]
  · exact .inl ⟨rfl, rfl⟩
  · cases hx : n.isOne
    · exact .inr ⟨_, ofNum n, rfl, by simp [mulEvalRule, pop, C11_mul_one m n u hu hx], .refl _⟩
    · exact .inr ⟨_, ofNum u, rfl, by simp [mulEvalRule, pop, C11_one_mul m n u hx], .inr (.inr (.inl ⟨hx, hu⟩))⟩
  · exact .inr ⟨_, a, rfl, by simp [mulEvalRule, pop, hn, hu, isOne_isZero hu, isZero_of_not_num hn, isOne_of_not_num hn], .refl _⟩

/-- C72: multiplying by 0, on either side, gives 0 whatever the other factor is, if that can be simplified. -/
theorem C72_mul_zero (m : Mode) (e : Expr F) (he : Tree e) (z : SmartNum F) (hv : z.Valid) (hz : z.isZero = true) :
    ZeroIfOk (e.numAggregate m) ((e.mul (ofNum z)).numAggregate m) ∧
    ZeroIfOk (e.numAggregate m) (((ofNum z).mul e).numAggregate m) := by
  rw [numAggregate_mul, numAggregate_mul, numAggregate_ofNum, mulEvalRule_bind, mulEvalRule_bind]
  rcases agg_split m he with h | ⟨a, h, -, -, ⟨n, rfl⟩ | hn⟩ <;> rw [h]
  · exact ⟨.inl ⟨rfl, rfl⟩, .inl ⟨rfl, rfl⟩⟩
  · obtain ⟨r, h1, h2⟩ := C11_mul_zero m n z hv hz
    obtain ⟨s, h3, h4⟩ := C11_zero_mul m z n hv hz
    exact ⟨.inr ⟨_, ofNum r, rfl, by simp [mulEvalRule, pop, h1], h2⟩, .inr ⟨_, ofNum s, rfl, by simp [mulEvalRule, pop, h3], h4⟩⟩
  · exact ⟨.inr ⟨_, ofI64 0, rfl, by simp [mulEvalRule, pop, hn, hz], rfl⟩, .inr ⟨_, ofI64 0, rfl, by simp [mulEvalRule, pop, hn, hz], rfl⟩⟩

/-- C72: 0 divided by anything, even by 0, is 0. -/
theorem C72_zero_div (m : Mode) (e : Expr F) (he : Tree e) (z : SmartNum F) (hv : z.Valid) (hz : z.isZero = true) :
    ZeroIfOk (e.numAggregate m) (((ofNum z).div e).numAggregate m) := by
  rw [numAggregate_div, numAggregate_ofNum, divEvalRule_bind]
  rcases agg_split m he with h | ⟨a, h, -, -, ⟨n, rfl⟩ | hn⟩ <;> rw [h]
  · exact .inl ⟨rfl, rfl⟩
  · exact .inr ⟨_, ofNum .zero, rfl, by simp [divEvalRule, pop, C11_zero_div m z n hv hz], rfl⟩
  · exact .inr ⟨_, ofI64 0, rfl, by simp [divEvalRule, pop, hn, hz], rfl⟩

/-- C72: but dividing by 1 is not simplified away, unless it is a number that is divided. -/
theorem C72_div_one (m : Mode) (e a : Expr F) (he : Tree e) (u : SmartNum F) (h : e.numAggregate m = .ok a)
    (hn : a.isNum = false) : (e.div (ofNum u)).numAggregate m = .ok (a.div (ofNum u)) := by
  rw [numAggregate_div, numAggregate_ofNum, divEvalRule_bind, h]
  simp [divEvalRule, pop, hn, isZero_of_not_num hn]

/-- C72: a double negation disappears, if what is negated is not a number and is written without subtraction. -/
theorem C72_neg_neg (m : Mode) (e a : Expr F) (he : Tree e) (hs : Everywhere NoSubAt e) (h : e.numAggregate m = .ok a)
    (hn : a.isNum = false) : e.neg.neg.numAggregate m = .ok a := by
  have g := agg_of_numAggregate he h
  have ta := g.wf (numClosed_true m) he
  have na := g.normal.root
  have da := (g.noDoubleNeg hs).root
  rw [numAggregate_neg, numAggregate_neg, h]
  by_cases hc : ∃ c : Expr F, a = c.neg
  · obtain ⟨c, rfl⟩ := hc
    have hcn := (normalAt_neg.1 na)
    have tc := WF.neg_iff.1 ta
    have : negEvalRule m [.ok c.neg] = .ok c := by
      rfl
    rw [this, negEvalRule_fixed tc hcn fun d => noDoubleNegAt_neg.1 da d]
  · rw [negEvalRule_fixed ta hn fun d hd => hc ⟨d, hd⟩]
    rfl

/-- C72: ln(exp e) is simplified to what e is simplified to. -/
theorem C72_ln_exp (m : Mode) (e : Expr F) (he : Tree e) :
    SameResult (e.numAggregate m) (e.exp.ln.numAggregate m) := by
  rw [numAggregate_ln, numAggregate_exp]
  rcases agg_split m he with h | ⟨a, h, ta, na, hn⟩ <;> rw [h]
  · exact .inl ⟨rfl, rfl⟩
  refine .inr ?_
  by_cases hc : ∃ c : Expr F, a = c.ln
  · obtain ⟨c, rfl⟩ := hc
    have : expEvalRule [.ok c.ln] = .ok c := rfl
    rw [this, lnEvalRule_fixed (WF.ln_iff.1 ta) (normalAt_ln.1 na)]
    exact ⟨_, _, rfl, rfl, .refl _⟩
  rcases hn with ⟨n, rfl⟩ | hn
  · cases h0 : n.isZero
    · cases h1 : n.isOne
      · rw [expEvalRule_fixed (.num _ trivial) ⟨h0, h1, fun d hd => hc ⟨d, hd⟩⟩]
        exact ⟨_, ofNum n, rfl, rfl, .refl _⟩
      · have : expEvalRule [.ok (ofNum n)] = .ok Expr.e := by simp [expEvalRule, pop, ofNum, Expr.root, h0, h1]
        rw [this]
        exact ⟨_, Expr.one, rfl, rfl, .inr (.inr (.inl ⟨h1, rfl⟩))⟩
    · have : expEvalRule [.ok (ofNum n)] = .ok (ofI64 1) := by simp [expEvalRule, pop, ofNum, Expr.root, h0]
      rw [this]
      exact ⟨_, Expr.zero, rfl, rfl, .inr (.inl ⟨h0, rfl⟩)⟩
  · rw [expEvalRule_fixed ta ⟨isZero_of_not_num hn, isOne_of_not_num hn, fun d hd => hc ⟨d, hd⟩⟩]
    exact ⟨_, a, rfl, rfl, .refl _⟩

/-- C72: and so is exp(ln e). -/
theorem C72_exp_ln (m : Mode) (e : Expr F) (he : Tree e) :
    SameResult (e.numAggregate m) (e.ln.exp.numAggregate m) := by
  rw [numAggregate_exp, numAggregate_ln]
  rcases agg_split m he with h | ⟨a, h, ta, na, hn⟩ <;> rw [h]
  · exact .inl ⟨rfl, rfl⟩
  refine .inr ?_
  by_cases hc : ∃ c : Expr F, a = c.exp
  · obtain ⟨c, rfl⟩ := hc
    have : lnEvalRule [.ok c.exp] = .ok c := rfl
    rw [this, expEvalRule_fixed (WF.exp_iff.1 ta) (normalAt_exp.1 na)]
    exact ⟨_, _, rfl, rfl, .refl _⟩
  rcases hn with ⟨n, rfl⟩ | hn
  · cases h0 : n.isE
    · cases h1 : n.isOne
      · rw [lnEvalRule_fixed (.num _ trivial) ⟨h0, h1, fun d hd => hc ⟨d, hd⟩⟩]
        exact ⟨_, ofNum n, rfl, rfl, .refl _⟩
      · have : lnEvalRule [.ok (ofNum n)] = .ok Expr.zero := by simp [lnEvalRule, pop, ofNum, Expr.root, h0, h1]
        rw [this]
        exact ⟨_, ofI64 1, rfl, rfl, .inr (.inr (.inl ⟨h1, rfl⟩))⟩
    · have : lnEvalRule [.ok (ofNum n)] = .ok Expr.one := by simp [lnEvalRule, pop, ofNum, Expr.root, h0]
      rw [this]
      exact ⟨_, Expr.e, rfl, rfl, .inr (.inr (.inr ⟨h0, rfl⟩))⟩
  · rw [lnEvalRule_fixed ta ⟨isE_of_not_num hn, isOne_of_not_num hn, fun d hd => hc ⟨d, hd⟩⟩]
    exact ⟨_, a, rfl, rfl, .refl _⟩

/-- C72: simplification only sees what the operands simplify to: operands that simplify to the same expression can be
exchanged, in every operation. -/
theorem C72_congruence (m : Mode) (a a' b b' : Expr F) (ha : a.numAggregate m = a'.numAggregate m)
    (hb : b.numAggregate m = b'.numAggregate m) :
    a.neg.numAggregate m = a'.neg.numAggregate m ∧ a.sin.numAggregate m = a'.sin.numAggregate m ∧
    a.cos.numAggregate m = a'.cos.numAggregate m ∧ a.exp.numAggregate m = a'.exp.numAggregate m ∧
    a.ln.numAggregate m = a'.ln.numAggregate m ∧ (a.add b).numAggregate m = (a'.add b').numAggregate m ∧
    (a.sub b).numAggregate m = (a'.sub b').numAggregate m ∧ (a.mul b).numAggregate m = (a'.mul b').numAggregate m ∧
    (a.div b).numAggregate m = (a'.div b').numAggregate m ∧ (a.pow b).numAggregate m = (a'.pow b').numAggregate m := by
  simp only [numAggregate_neg, numAggregate_sin, numAggregate_cos, numAggregate_exp, numAggregate_ln, numAggregate_add,
    numAggregate_sub, numAggregate_mul, numAggregate_div, numAggregate_pow, ha, hb, and_self]

/-- C72: instances: x + 0/5 and 1 * (0 + x) and ln(exp(--x)) are simplified to x; and the condition of `C72_neg_neg`
is needed: 0 - (-x) is simplified to --x, but its double negation to x. -/
theorem C72_example (m : Mode) :
    let x : Expr Unit := newVariable "x"
    let z : SmartNum Unit := .ofI64 0
    let u : SmartNum Unit := .ofI64 1
    z.isZero = true ∧ z.Valid ∧ u.isOne = true ∧ Tree x ∧ Everywhere NoSubAt x ∧ x.isNum = false ∧
    (x.add ((ofNum z).div (ofI64 5))).numAggregate m = .ok x ∧ ((ofNum u).mul ((ofNum z).add x)).numAggregate m = .ok x ∧
    x.neg.neg.exp.ln.numAggregate m = .ok x ∧
    ((ofNum z).sub x.neg).numAggregate m = .ok x.neg.neg ∧ ((ofNum z).sub x.neg).neg.neg.numAggregate m = .ok x := by
  refine ⟨rfl, SmartNum.valid_zero, rfl, .var _, everywhere_ofVar.2 fun a b h => by expr_inj at h, rfl, ?_⟩
  cases m <;> decide +kernel

end SymRust
