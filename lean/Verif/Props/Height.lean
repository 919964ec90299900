import Verif.Proofs.HeightExpr
import Verif.Proofs.Ghost
import Verif.Proofs.Kernel
import Verif.Props.Eval
import Verif.Props.TaylorTotal
/-! # C67: no overflow as long as the fractions of schoolbook arithmetic stay below 2^63 -/

namespace SymRust
variable {F : Type} [FloatOps F]
open Expr

/-- C67: simplifying an expression whose fractions stay small succeeds, with the same result in every build, and
nothing wraps (the build `strict` succeeds too); the result again has small fractions. -/
theorem C67_simplify (m₀ : Mode) (e : Expr F) (he : Built m₀ e) (hs : Small e) :
    ∃ r, Small r ∧ ∀ m, e.numAggregate m = .ok r := by
  obtain ⟨r, h1, h2, -⟩ := numAggregate_small he.valid hs
  exact ⟨r, h2.small hs, fun m => numAggregate_mono (Mode.strict_le m) he.tree r h1⟩

theorem passes_small {e : Expr F} (n : Nat) (he : WF SmartNum.Valid e) (hs : Small e) :
    ∃ r, Small r ∧ ∀ m, passes m n e = .ok r := by
  induction n generalizing e with
  | zero => exact ⟨e, hs, fun m => rfl⟩
  | succ n ih =>
    obtain ⟨r, h1, h2, h3⟩ := numAggregate_small he hs
    obtain ⟨s, g1, g2⟩ := ih h3 (h2.small hs)
    refine ⟨s, g1, fun m => ?_⟩
    rw [passes, numAggregate_mono (Mode.strict_le m) (he.mono fun _ _ => trivial) r h1]
    exact g2 m

/-- C67: so does simplifying it any number of times in a row. -/
theorem C67_repeated (m₀ : Mode) (e : Expr F) (he : Built m₀ e) (hs : Small e) (n : Nat) :
    ∃ r, Small r ∧ ∀ m, passes m n e = .ok r := passes_small n he.valid hs

/-- C67: repeated derivatives succeed, with the same result in every build, if the derivatives by the textbook rules have
small fractions. -/
theorem C67_derivatives (m₀ : Mode) (e : Expr F) (x : Variable) (k : Nat) (he : Built m₀ e)
    (hs : ∀ j, j ≤ k → Small (e.rawDerN x j)) :
    ∃ d, Small d ∧ ∀ m, nthDerivative m e x k = .ok d := by
  obtain ⟨d, h1, h2, -⟩ := nthDerivative_small he.valid x k hs
  refine ⟨d, h2.small (hs k le_rfl), fun m => ?_⟩
  rcases (nthDerivative_mono (Mode.strict_le m) he.tree x k).1 with g | g <;> rw [h1] at g
  · cases g
  · exact g.symm

/-- C67: the first derivative alone (the expression itself may have large fractions). -/
theorem C67_derivative (m₀ : Mode) (e : Expr F) (x : Variable) (he : Built m₀ e) (hs : Small (e.rawDer x)) :
    ∃ d, Small d ∧ ∀ m, e.derivative m x = .ok d := by
  obtain ⟨d, h1, h2, -⟩ := derivative_small he.valid x hs
  refine ⟨d, h2.small hs, fun m => ?_⟩
  rcases derivative_mono (Mode.strict_le m) he.tree x with g | g <;> rw [h1] at g
  · cases g
  · exact g.symm

/-- C67: an expansion of order at most 20 succeeds, with the same result in every build, if the derivatives by the
textbook rules, and their quotients by `j!` at the point, have small fractions. -/
theorem C67_taylor (m₀ : Mode) (e v : Expr F) (x : Variable) (n : UInt64) (he : Built m₀ e) (hv : Built m₀ v)
    (hn : n ≤ 20) (hd : ∀ j, j ≤ n.toNat + 1 → Small (e.rawDerN x j))
    (hc : ∀ j, j ≤ n.toNat → Small (((e.rawDerN x j).replace x v).div (ofI64 (Int64.ofNat j.factorial)))) :
    ∃ t, ∀ m, e.taylorExpansion m x v n = .ok t := by
  obtain ⟨t, ht⟩ := (C33_succeeds .strict e v x n (.inr hn)).2 ⟨fun k hk => by
    obtain ⟨d, h, -⟩ := nthDerivative_small he.valid x k fun j hj => hd j (by omega)
    exact ⟨d, h⟩, fun k hk => by
    obtain ⟨d, h1, h2, h3⟩ := nthDerivative_small he.valid x k fun j hj => hd j (by omega)
    have hb := h2.replace x hv.tree
    have hw := WF.replace h3 hv.valid x
    have hs := hc k hk
    obtain ⟨u, g1, g2, g3⟩ := numAggregate_small hw (hb.small (everywhere_div.1 hs).2.1)
    obtain ⟨c, k1, -, -⟩ := numAggregate_small (e := u.div (ofI64 (Int64.ofNat k.factorial)))
      (.div _ _ g3 (.num _ (SmartNum.valid_ofI64 _))) ((Below.div (g2.trans hb) (.refl _)).small hs)
    exact ⟨d, _, u, c, h1, substitute_eq _ _ _, g1, k1⟩⟩
  refine ⟨t, fun m => ?_⟩
  rcases taylorExpansion_mono (Mode.strict_le m) hv.tree he.tree (x := x) n with g | g <;> rw [ht] at g
  · cases g
  · exact g.symm

/-! ### a bound by the number of leaves -/

section
omit [FloatOps F]

theorem leaves_mem {l : List (Expr F)} {a : Expr F} (h : a ∈ l) : a.leaves ≤ leavesList l := by
  induction l with
  | nil => cases h
  | cons b l ih =>
    rw [leavesList]
    rcases List.mem_cons.1 h with rfl | h
    · omega
    · have := ih h; omega

theorem leaves_sub {s e : Expr F} (he : Tree e) (h : Subterm s e) : s.leaves ≤ e.leaves := by
  induction h with
  | refl => exact le_rfl
  | child r c a ha _ ih =>
    have ht := tree_sub he (.child r c a ha .refl)
    refine (ih ht).trans ?_
    cases r with
    | operator op => exact leaves_mem ha
    | operand o =>
      cases he <;> simp at ha

variable {B : ℕ}

theorem height_le_pow (hB : 1 ≤ B) {e : Expr F} (he : Tree e) (hn : NumbersUpTo B e) :
    1 ≤ e.leaves ∧ 2 * e.height.1 ≤ (2 * B) ^ e.leaves ∧ 2 * e.height.2 ≤ (2 * B) ^ e.leaves := by
  have up : ∀ {a e : Expr F}, Subterm a e → NumbersUpTo B e → NumbersUpTo B a :=
    fun h g n hn => g n (hn.trans h)
  have one : ∀ k, 1 ≤ k → 2 ≤ (2 * B) ^ k := fun k hk =>
    calc 2 ≤ (2 * B) ^ 1 := by rw [pow_one]; omega
      _ ≤ (2 * B) ^ k := Nat.pow_le_pow_right (by omega) hk
  have mulh : ∀ {p q i j : ℕ}, 2 * p ≤ (2 * B) ^ i → 2 * q ≤ (2 * B) ^ j → 4 * (p * q) ≤ (2 * B) ^ (i + j) := by
    intro p q i j h g
    calc 4 * (p * q) = (2 * p) * (2 * q) := by ring
      _ ≤ (2 * B) ^ i * (2 * B) ^ j := Nat.mul_le_mul h g
      _ = _ := (pow_add _ _ _).symm
  have lefth : ∀ {p i j : ℕ}, 2 * p ≤ (2 * B) ^ i → 2 * p ≤ (2 * B) ^ (i + j) := fun h =>
    h.trans (Nat.pow_le_pow_right (by omega) (by omega))
  have righth : ∀ {p i j : ℕ}, 2 * p ≤ (2 * B) ^ j → 2 * p ≤ (2 * B) ^ (i + j) := fun h =>
    h.trans (Nat.pow_le_pow_right (by omega) (by omega))
  have comm2 : ∀ {p q i j : ℕ}, 2 * p ≤ (2 * B) ^ i → 2 * q ≤ (2 * B) ^ j → 4 * (q * p) ≤ (2 * B) ^ (i + j) :=
    fun {p q _ _} h g => by rw [Nat.mul_comm q p]; exact mulh h g
  induction he with
  | num n =>
    have := hn n .refl
    rw [height_ofNum]
    refine ⟨le_rfl, ?_⟩
    show _ ≤ (2 * B) ^ 1 ∧ _ ≤ (2 * B) ^ 1
    rw [pow_one]
    cases hv : n.value with
    | integer v => have := this.1 v hv; simp only [SmartNumVal.height]; omega
    | rational r => have := this.2 r hv; simp only [SmartNumVal.height]; omega
    | real f => simp only [SmartNumVal.height]; omega
  | var v =>
    rw [height_ofVar]
    refine ⟨le_rfl, ?_⟩
    show 2 * 1 ≤ (2 * B) ^ 1 ∧ 2 * 1 ≤ (2 * B) ^ 1
    rw [pow_one]
    omega
  | neg a _ i => rw [height_neg]; exact i (up (.child _ _ a (by simp) .refl) hn)
  | exp a _ i => rw [height_exp]; exact i (up (.child _ _ a (by simp) .refl) hn)
  | ln a _ i => rw [height_ln]; exact i (up (.child _ _ a (by simp) .refl) hn)
  | sin a _ i =>
    rw [height_sin]
    have := (i (up (.child _ _ a (by simp) .refl) hn)).1
    exact ⟨this, one _ this, one _ this⟩
  | cos a _ i =>
    rw [height_cos]
    have := (i (up (.child _ _ a (by simp) .refl) hn)).1
    exact ⟨this, one _ this, one _ this⟩
  | add a b _ _ i j =>
    obtain ⟨l1, a1, a2⟩ := i (up (.child _ _ a (by simp) .refl) hn)
    obtain ⟨l2, b1, b2⟩ := j (up (.child _ _ b (by simp) .refl) hn)
    have hl : (a.add b).leaves = a.leaves + b.leaves := by simp [Expr.add, leaves, leavesList]
    rw [height_add, hl]
    have e1 := mulh a1 b2; have e2 := comm2 a2 b1; have e3 := mulh a2 b2
    refine ⟨by omega, ?_, ?_⟩ <;> simp only [opHeight] <;> omega
  | sub a b _ _ i j =>
    obtain ⟨l1, a1, a2⟩ := i (up (.child _ _ a (by simp) .refl) hn)
    obtain ⟨l2, b1, b2⟩ := j (up (.child _ _ b (by simp) .refl) hn)
    have hl : (a.sub b).leaves = a.leaves + b.leaves := by simp [Expr.sub, leaves, leavesList]
    rw [height_sub, hl]
    have e1 := mulh a1 b2; have e2 := comm2 a2 b1; have e3 := mulh a2 b2
    refine ⟨by omega, ?_, ?_⟩ <;> simp only [opHeight] <;> omega
  | mul a b _ _ i j =>
    obtain ⟨l1, a1, a2⟩ := i (up (.child _ _ a (by simp) .refl) hn)
    obtain ⟨l2, b1, b2⟩ := j (up (.child _ _ b (by simp) .refl) hn)
    have hl : (a.mul b).leaves = a.leaves + b.leaves := by simp [Expr.mul, leaves, leavesList]
    rw [height_mul, hl]
    have e1 := mulh a1 b1; have e3 := mulh a2 b2
    refine ⟨by omega, ?_, ?_⟩ <;> simp only [opHeight] <;> omega
  | div a b _ _ i j =>
    obtain ⟨l1, a1, a2⟩ := i (up (.child _ _ a (by simp) .refl) hn)
    obtain ⟨l2, b1, b2⟩ := j (up (.child _ _ b (by simp) .refl) hn)
    have hl : (a.div b).leaves = a.leaves + b.leaves := by simp [Expr.div, leaves, leavesList]
    rw [height_div, hl]
    have e1 := mulh a1 b2; have e3 := mulh a2 b1
    refine ⟨by omega, ?_, ?_⟩ <;> simp only [opHeight] <;> omega
  | pow a b _ _ i j =>
    obtain ⟨l1, a1, a2⟩ := i (up (.child _ _ a (by simp) .refl) hn)
    obtain ⟨l2, b1, b2⟩ := j (up (.child _ _ b (by simp) .refl) hn)
    have hl : (a.pow b).leaves = a.leaves + b.leaves := by simp [Expr.pow, leaves, leavesList]
    rw [height_pow, hl]
    have e1 := lefth (j := b.leaves) a1; have e2 := lefth (j := b.leaves) a2
    have e3 := righth (i := a.leaves) b1; have e4 := righth (i := a.leaves) b2
    refine ⟨by omega, ?_, ?_⟩ <;> simp only [opHeight] <;> omega

end

/-- C67: an expression with `s` leaves whose integers, nominators and denominators are at most `B ≥ 1` has small
fractions if `(2B)^s < 2^64`. -/
theorem C67_leaves (m₀ : Mode) (B : ℕ) (e : Expr F) (hB : 1 ≤ B) (he : Built m₀ e) (hn : NumbersUpTo B e)
    (h : (2 * B) ^ e.leaves < 18446744073709551616) : Small e := by
  intro s hs
  obtain ⟨-, h1, h2⟩ := height_le_pow hB (tree_sub he.tree hs) fun n g => hn n (g.trans hs)
  have := Nat.pow_le_pow_right (show 0 < 2 * B by omega) (leaves_sub he.tree hs)
  exact ⟨by omega, by omega⟩

section
omit [FloatOps F]
variable {B : ℕ} {n : SmartNum F}

theorem leaves_replace {e : Expr F} (he : Tree e) (x : Variable) : (e.replace x (ofNum n)).leaves = e.leaves := by
  induction he with
  | num k => rw [replace_ofNum]
  | var y => rw [replace_ofVar]; split_ifs <;> rfl
  | _ => simp_all [Expr.neg, Expr.add, Expr.sub, Expr.mul, Expr.div, Expr.sin, Expr.cos, Expr.exp, Expr.ln, Expr.pow,
      leaves, leavesList, replace, replaceList]

theorem numbers_replace {e : Expr F} (he : Tree e) (x : Variable) {k : SmartNum F}
    (h : Subterm (ofNum k) (e.replace x (ofNum n))) : k = n ∨ Subterm (ofNum k) e := by
  have leaf : ∀ {k n : SmartNum F}, Subterm (ofNum k) (ofNum n) → k = n := fun h => by
    rcases subterm_mk.1 h with h | ⟨a, h, -⟩
    · exact ofNum_inj.1 h
    · cases h
  induction he with
  | num j => rw [replace_ofNum] at h; exact .inr h
  | var y =>
    rw [replace_ofVar] at h
    split_ifs at h
    · exact .inl (leaf h)
    · exact .inr h
  | neg a _ i | sin a _ i | cos a _ i | exp a _ i | ln a _ i =>
    simp only [replace_neg, replace_sin, replace_cos, replace_exp, replace_ln] at h
    rcases subterm_mk.1 h with h | ⟨b, hb, h⟩
    · expr_inj at h
    · rw [List.mem_singleton] at hb; subst hb
      exact (i h).imp_right fun g => .child _ _ a (by simp) g
  | add a b _ _ i j | sub a b _ _ i j | mul a b _ _ i j | div a b _ _ i j | pow a b _ _ i j =>
    simp only [replace_add, replace_sub, replace_mul, replace_div, replace_pow] at h
    rcases subterm_mk.1 h with h | ⟨c, hc, h⟩
    · expr_inj at h
    · rcases List.mem_pair.1 hc with rfl | rfl
      · exact (i h).imp_right fun g => .child _ _ a (by simp) g
      · exact (j h).imp_right fun g => .child _ _ b (by simp) g

theorem substituteAll_upTo {e : Expr F} (he : Tree e) (hn : NumbersUpTo B e) {bs : List (Variable × SmartNum F)}
    (hb : ∀ b ∈ bs, b.2.UpTo B) {s : Expr F} (h : substituteAll e bs = .ok s) :
    NumbersUpTo B s ∧ s.leaves = e.leaves := by
  induction bs generalizing e with
  | nil => cases h; exact ⟨hn, rfl⟩
  | cons b bs ih =>
    obtain ⟨x, n⟩ := b
    rw [substituteAll, substitute_eq] at h
    have := ih (e := e.replace x (ofNum n)) (WF.replace he (.num _ trivial) x) (fun k hk => by
      rcases numbers_replace he x hk with rfl | hk
      · exact hb (x, k) (by simp)
      · exact hn k hk) (fun b hb' => hb b (by simp [hb'])) h
    exact ⟨this.1, this.2.trans (leaves_replace he x)⟩
end

/-- C67: giving numbers to all variables of an arithmetic expression with `s` leaves and simplifying gives exactly the
value of the expression, in every build, if all integers, nominators and denominators involved are at most `B ≥ 1` and
`(2B)^s < 2^64`. -/
theorem C67_evaluation (m₀ : Mode) (B : ℕ) (ρ : Variable → ℚ) (e : Expr F) (q : ℚ) (he : Built m₀ e)
    (bs : List (Variable × SmartNum F)) (hb : ∀ b ∈ bs, b.2.Reachable m₀) (h : RatValue ρ e q) (hc : Covers ρ bs e)
    (hB : 1 ≤ B) (hn : NumbersUpTo B e)
    (hbs : ∀ b ∈ bs, b.2.UpTo B)
    (hs : (2 * B) ^ e.leaves < 18446744073709551616) :
    ∃ (s : Expr F) (n : SmartNum F), substituteAll e bs = .ok s ∧ n.exact? = some q ∧
      ∀ m, s.numAggregate m = .ok (ofNum n) := by
  obtain ⟨s, h1, h2, h3⟩ := substituteAll_value he hb h hc
  obtain ⟨g1, g2⟩ := substituteAll_upTo he.tree hn (bs := bs) hbs h1
  obtain ⟨r, -, hr⟩ := C67_simplify m₀ s h2 (C67_leaves m₀ B s hB h2 g1 (by rw [g2]; exact hs))
  obtain ⟨n, rfl, -, -, hq⟩ := const_fold .strict h2.valid h3 (hr .strict)
  exact ⟨s, n, h1, hq rfl q rfl, hr⟩

/-! ### instances -/

/-- C67: the bound is sharp: 2^62 + 2^62 has the bound 2^63 and panics in overflow-checking builds. -/
theorem C67_sharp :
    let e : Expr F := (ofI64 4611686018427387904).add (ofI64 4611686018427387904)
    e.height = (9223372036854775808, 1) ∧ e.numAggregate .debug = .panic := by
  have hv : (4611686018427387904 : Int64).toInt = 4611686018427387904 := by decide
  refine ⟨?_, by krfl⟩
  rw [height_add]
  simp only [ofI64, height_ofNum, SmartNum.ofI64, SmartNum.ofVal, SmartNumVal.ofI64, SmartNumVal.height, hv, opHeight]
  norm_num

/-- C67: an instance: the expansion of order 2 of sin(x)*exp(2*x - 1) at 3/4 meets the hypotheses. -/
theorem C67_example (m₀ : Mode) :
    let x : Expr F := newVariable "x"
    let e : Expr F := x.sin.mul (((ofI64 2).mul x).sub (ofI64 1)).exp
    let v : Expr F := (ofI64 3).div (ofI64 4)
    Built m₀ e ∧ Built m₀ v ∧ (∀ j, j ≤ 3 → Small (e.rawDerN ⟨"x"⟩ j)) ∧
    (∀ j, j ≤ 2 → Small (((e.rawDerN ⟨"x"⟩ j).replace ⟨"x"⟩ v).div (ofI64 (Int64.ofNat j.factorial)))) ∧
    ∃ t, ∀ m, e.taylorExpansion m ⟨"x"⟩ v 2 = .ok t := by
  intro x e v
  have hb : ∀ k, Built (F := F) m₀ (ofI64 k) := fun k => .num _ (.ofI64 k)
  have hx : Built m₀ x := .var _
  have he : Built m₀ e := .mul _ _ (.sin _ hx) (.exp _ (.sub _ _ (.mul _ _ (hb 2) hx) (hb 1)))
  have hv : Built m₀ v := .div _ _ (hb 3) (hb 4)
  have h1 : ∀ j, j ≤ 3 → Small (e.rawDerN ⟨"x"⟩ j) := by
    intro j hj
    refine small_of_check ?_
    rcases (by omega : j = 0 ∨ j = 1 ∨ j = 2 ∨ j = 3) with rfl | rfl | rfl | rfl <;> krfl
  have h2 : ∀ j, j ≤ 2 → Small (((e.rawDerN ⟨"x"⟩ j).replace ⟨"x"⟩ v).div (ofI64 (Int64.ofNat j.factorial))) := by
    intro j hj
    refine small_of_check ?_
    rcases (by omega : j = 0 ∨ j = 1 ∨ j = 2) with rfl | rfl | rfl <;> krfl
  exact ⟨he, hv, h1, h2, C67_taylor m₀ e v ⟨"x"⟩ 2 he hv (by decide) h1 h2⟩

/-- C67: an instance: (x + 1/2) * y / (x - y) at x = 97, y = 2, with B = 100: 200^6 < 2^64. -/
theorem C67_example_evaluation :
    let x : Expr Unit := newVariable "x"
    let y : Expr Unit := newVariable "y"
    let e := ((x.add ((ofI64 1).div (ofI64 2))).mul y).div (x.sub y)
    let bs : List (Variable × SmartNum Unit) := [(⟨"x"⟩, .ofI64 97), (⟨"y"⟩, .ofI64 2)]
    let ρ : Variable → ℚ := fun v => if v.name = "x" then 97 else 2
    Built .strict e ∧ RatValue ρ e (39 / 19) ∧ Covers ρ bs e ∧ NumbersUpTo 100 e ∧ (∀ b ∈ bs, b.2.UpTo 100) ∧ e.leaves = 6 ∧
    ∃ s n, substituteAll e bs = .ok s ∧ n.exact? = some (39 / 19) ∧ ∀ m, s.numAggregate m = .ok (ofNum n) := by
  intro x y e bs ρ
  have hb : ∀ v, Built (F := Unit) .strict (ofI64 v) := fun v => .num _ (.ofI64 v)
  have hx : Built .strict x := .var _
  have hy : Built .strict y := .var _
  have he : Built .strict e :=
    .div _ _ (.mul _ _ (.add _ _ hx (.div _ _ (hb 1) (hb 2))) hy) (.sub _ _ hx hy)
  have up : ∀ v : Int64, v.toInt.natAbs ≤ 100 → (SmartNum.ofI64 v : SmartNum Unit).UpTo 100 := fun v hv =>
    ⟨fun w hw => by cases hw; exact hv, fun r hr => by cases hr⟩
  have nu : NumbersUpTo 100 e := by
    intro n hn
    have : n = .ofI64 1 ∨ n = .ofI64 2 := by
      simp only [e, x, y, Expr.div, Expr.mul, Expr.add, Expr.sub, newVariable, ofI64, ofNum, subterm_mk,
        List.mem_cons, List.not_mem_nil, or_false, exists_eq_or_imp, exists_eq_left, Expr.mk.injEq, false_and,
        AstNode.operand.injEq, reduceCtorEq] at hn
      simp_all
    rcases this with rfl | rfl <;> exact up _ (by decide)
  have ub : ∀ b ∈ bs, b.2.UpTo 100 := by
    simp only [bs, List.mem_cons, List.not_mem_nil, or_false, forall_eq_or_imp, forall_eq]
    exact ⟨up _ (by decide), up _ (by decide)⟩
  have e1 : (SmartNum.ofI64 1 : SmartNum Unit).exact? = some 1 := rfl
  have e2 : (SmartNum.ofI64 2 : SmartNum Unit).exact? = some 2 := rfl
  have e3 : (SmartNum.ofI64 97 : SmartNum Unit).exact? = some 97 := rfl
  have hv : RatValue ρ e (39 / 19) := by
    have hx : ρ ⟨"x"⟩ = 97 := by simp [ρ]
    have hy : ρ ⟨"y"⟩ = 2 := by simp [ρ]
    have := RatValue.div (.mul (.add (.var ⟨"x"⟩) (.div (.num _ _ e1) (.num _ _ e2) (by norm_num))) (.var ⟨"y"⟩))
      (.sub (.var ⟨"x"⟩) (.var ⟨"y"⟩)) (by rw [hx, hy]; norm_num : ρ ⟨"x"⟩ - ρ ⟨"y"⟩ ≠ 0)
    rw [hx, hy] at this
    norm_num at this
    exact this
  have hc : Covers ρ bs e := by
    intro v hv
    have : v = ⟨"x"⟩ ∨ v = ⟨"y"⟩ := by
      have hxx : ∀ s : String, Occurs v (newVariable s : Expr Unit) → v = ⟨s⟩ := fun s h => ((occurs_ofVar v ⟨s⟩).1 h).symm
      have hi : ∀ k : Int64, ¬ Occurs v (ofI64 k : Expr Unit) := by intro k; simp [ofI64]
      simp only [e, occurs_div, occurs_mul, occurs_add, occurs_sub, hi, or_false] at hv
      rcases hv with (h | h) | h | h
      · exact .inl (hxx _ h)
      · exact .inr (hxx _ h)
      · exact .inl (hxx _ h)
      · exact .inr (hxx _ h)
    rcases this with rfl | rfl
    · exact ⟨.ofI64 97, rfl, by simpa [ρ] using e3⟩
    · exact ⟨.ofI64 2, rfl, by simpa [ρ] using e2⟩
  refine ⟨he, hv, hc, nu, ub, by krfl, C67_evaluation .strict 100 ρ e (39 / 19) he bs ?_ hv hc (by norm_num) nu ub (by
    rw [show e.leaves = 6 by krfl]; norm_num)⟩
  simp only [bs, List.mem_cons, List.not_mem_nil, or_false, forall_eq_or_imp, forall_eq]
  exact ⟨.ofI64 _, .ofI64 _⟩

end SymRust
