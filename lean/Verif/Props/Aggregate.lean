import Verif.Proofs.AggFacts
import Verif.Spec.Toy
/-! # Structural properties of `num_aggregate` (C21-C26) -/

namespace SymRust
variable {F : Type} [FloatOps F]
open Expr

/-! ## C21: the value-changing rewrites (the values are compared in Props/Semantics.lean) -/

/-- C21: `cos` of anything that aggregates to the constant pi becomes the number 1. -/
theorem C21_cos_pi (m : Mode) (u : Expr F) (x : SmartNum F) (hx : x.isPi = true)
    (hu : u.numAggregate m = .ok (ofNum x)) : u.cos.numAggregate m = .ok (ofI64 1) := by
  rw [numAggregate_cos, hu]
  unfold cosEvalRule
  simp only [pop_one, Res.ok_bind, ofNum, root]
  erw [if_pos (show (x.isZero || x.isPi) = true by rw [hx]; simp)]; rfl

/-- C21: a power whose base aggregates to an exact 0 becomes 1, whatever the exponent. -/
theorem C21_zero_pow (m : Mode) (u r r' : Expr F) (x : SmartNum F) (hx : x.isZero = true)
    (hu : u.numAggregate m = .ok (ofNum x)) (hr : r.numAggregate m = .ok r') :
    (u.pow r).numAggregate m = .ok (ofI64 1) := by
  rw [numAggregate_pow, hu, hr]
  unfold powEvalRule
  simp only [pop_one, pop_two, Res.ok_bind, ofNum, root, hx]; rfl

/-- C21: a power whose base aggregates to an exact 1 becomes its (aggregated) exponent. -/
theorem C21_one_pow (m : Mode) (u r r' : Expr F) (x : SmartNum F) (hx : x.isOne = true)
    (hu : u.numAggregate m = .ok (ofNum x)) (hr : r.numAggregate m = .ok r') :
    (u.pow r).numAggregate m = .ok r' := by
  have h0 : x.isZero = false := by
    unfold SmartNum.isOne at hx; unfold SmartNum.isZero
    rw [beq_iff_eq] at hx; rw [hx]; rfl
  rw [numAggregate_pow, hu, hr]
  unfold powEvalRule
  simp only [pop_one, pop_two, Res.ok_bind, ofNum, root, hx, h0]; rfl

/-- C21: a power whose base aggregates to `ln(u)` becomes `u`, the exponent is dropped. -/
theorem C21_ln_pow (m : Mode) (b u r r' : Expr F)
    (hu : b.numAggregate m = .ok u.ln) (hr : r.numAggregate m = .ok r') :
    (b.pow r).numAggregate m = .ok u := by
  rw [numAggregate_pow, hu, hr]; rfl

/-- C21, literal instances: `cos(pi)`, `0^x`, `1^x`, `ln(x)^y` for all variables `x`, `y`. -/
theorem C21_literal (m : Mode) (x y : Variable) :
    (Expr.pi : Expr F).cos.numAggregate m = .ok one ∧
    ((zero : Expr F).pow (ofVar x)).numAggregate m = .ok one ∧
    ((one : Expr F).pow (ofVar x)).numAggregate m = .ok (ofVar x) ∧
    (((ofVar x : Expr F).ln).pow (ofVar y)).numAggregate m = .ok (ofVar x) := by
  refine ⟨C21_cos_pi m _ _ rfl (numAggregate_ofNum m _), C21_zero_pow m _ _ _ _ rfl (numAggregate_ofNum m _)
    (numAggregate_ofVar m _), C21_one_pow m _ _ _ _ rfl (numAggregate_ofNum m _) (numAggregate_ofVar m _), ?_⟩
  refine C21_ln_pow m _ _ _ _ ?_ (numAggregate_ofVar m _)
  rw [numAggregate_ln, numAggregate_ofVar]; rfl

/-! ## C22 -/

/-- C22: every variable of the result occurs in the argument. -/
theorem C22_no_new_variables (m : Mode) (e e' : Expr F) (he : Built m e)
    (h : e.numAggregate m = .ok e') (x : Variable) (hx : Occurs x e') : Occurs x e :=
  (agg_of_numAggregate he.tree h).occurs hx

/-- the hypotheses hold for `1 * x + 0 * y`, where `y` disappears -/
example : ∃ e : Expr Unit, Built .debug e ∧ e.numAggregate .debug = .ok (newVariable "x") ∧
    Occurs ⟨"y"⟩ e :=
  ⟨(one.mul (ofVar ⟨"x"⟩)).add (zero.mul (ofVar ⟨"y"⟩)),
    .add _ _ (.mul _ _ (.num _ (.ofI64 1)) (.var _)) (.mul _ _ (.num _ (.ofI64 0)) (.var _)),
    by decide +kernel, by simp⟩

/-! ## C23 -/

/-- C23: a pass never increases the number of nodes or the depth, and either returns the expression
unchanged or strictly decreases the number of nodes. -/
theorem C23_never_grows (m : Mode) (e e' : Expr F) (he : Built m e) (h : e.numAggregate m = .ok e') :
    size e' ≤ size e ∧ depth e' ≤ depth e ∧ (e' = e ∨ size e' < size e) := by
  have := agg_of_numAggregate he.tree h
  refine ⟨this.size_le', this.depth_le, ?_⟩
  rcases this.size_le with h | h
  · exact .inl h.2
  · exact .inr h

theorem passes_tree {m : Mode} {n : ℕ} {e e' : Expr F} (he : Tree e) (h : passes m n e = .ok e') :
    Tree e' ∧ (e'.numAggregate m = .ok e' ∨ size e' + n ≤ size e) := by
  induction n generalizing e with
  | zero => cases h; exact ⟨he, .inr (by simp)⟩
  | succ n ih =>
    simp only [passes, Res.bind_eq_ok] at h
    obtain ⟨a, ha, h⟩ := h
    have hagg := agg_of_numAggregate he ha
    have ht := hagg.wf (numClosed_true m) he
    obtain ⟨h1, h2⟩ := ih ht h
    refine ⟨h1, ?_⟩
    rcases h2 with h2 | h2
    · exact .inl h2
    rcases hagg.size_le with ⟨-, rfl⟩ | h3
    · left
      have : ∀ k, passes m k a = .ok a := by
        intro k; induction k with
        | zero => rfl
        | succ k ih => simp [passes, ha, ih]
      rw [this] at h; cases h; exact ha
    · right; omega

/-- C23: after as many passes as the expression has nodes a fixed point is reached. -/
theorem C23_converges (m : Mode) (e e' : Expr F) (he : Built m e) (n : ℕ) (hn : size e ≤ n)
    (h : passes m n e = .ok e') : e'.numAggregate m = .ok e' := by
  rcases (passes_tree he.tree h).2 with h1 | h1
  · exact h1
  · have := size_pos e'; omega

/-! ## C26 -/

/-- C26: nothing in a result can be simplified by a folding rule: no `+`/`-` with an exact-zero operand,
no `*` with an exact 0 or 1 operand, no `/` with exact-zero dividend, no arithmetic node on numbers only,
no `sin`/`cos` of 0 or pi, no `exp` of 0, 1 or a logarithm, no `ln` of e, 1 or an exponential, no power
with base 0, 1 or a logarithm (see `NormalAt`). -/
theorem C26_normal_form (m : Mode) (e e' : Expr F) (he : Built m e) (h : e.numAggregate m = .ok e') :
    Everywhere NormalAt e' := (agg_of_numAggregate he.tree h).normal

/-! ## C24 -/

/-- C24: on expressions without subtraction one pass is final. -/
theorem C24_idempotent_without_sub (m : Mode) (e e' : Expr F) (he : Built m e)
    (hs : Everywhere NoSubAt e) (h : e.numAggregate m = .ok e') : e'.numAggregate m = .ok e' := by
  have := agg_of_numAggregate he.tree h
  exact fixed_of_normal m (this.wf (numClosed_true m) he.tree) this.normal (this.noDoubleNeg hs)

/-- C24: the fixed points are exactly the expressions in normal form without double negation. -/
theorem C24_fixed_points (m : Mode) (e : Expr F) (he : Built m e) :
    e.numAggregate m = .ok e ↔ Everywhere NormalAt e ∧ Everywhere NoDoubleNegAt e := by
  constructor
  · intro h
    have := agg_of_numAggregate he.tree h
    exact ⟨this.normal, this.noDoubleNeg_of_fixed rfl⟩
  · rintro ⟨h1, h2⟩; exact fixed_of_normal m he.tree h1 h2

/-- An expression that needs exactly `n + 1` passes to become `u`. -/
def slow : ℕ → Expr F → Expr F
  | 0, u => u.neg.neg
  | n + 1, u => (slow n zero.ln).exp.sub u.neg

theorem slow_built (m : Mode) (n : ℕ) (u : Expr F) (hu : Built m u) : Built m (slow n u) := by
  induction n generalizing u with
  | zero => exact .neg _ (.neg _ hu)
  | succ n ih => exact .sub _ _ (.exp _ (ih _ (.ln _ (.num _ (.ofI64 0))))) (.neg _ hu)

theorem slow_pass (m : Mode) (n : ℕ) (u : Expr F)
    (hu : u.numAggregate m = .ok u) (hn : negEvalRule m [.ok u] = .ok u.neg)
    (hz : ∀ v : Expr F, subEvalRule m [.ok v.exp, .ok u.neg] = .ok (v.exp.sub u.neg))
    (hz' : subEvalRule m [.ok (ofI64 0), .ok u.neg] = .ok u.neg.neg) :
    (slow (n + 1) u).numAggregate m = .ok (slow n u) ∧ (slow 0 u).numAggregate m = .ok u := by
  have h0 : (slow 0 u).numAggregate m = .ok u := by
    rw [slow, numAggregate_neg, numAggregate_neg, hu, hn]; rfl
  refine ⟨?_, h0⟩
  have hl : (zero : Expr F).ln.numAggregate m = .ok zero.ln := by
    rw [numAggregate_ln, zero, ofI64, numAggregate_ofNum]; rfl
  induction n generalizing u with
  | zero =>
    have := slow_pass_zero m
    rw [show slow (0 + 1) u = (slow 0 zero.ln).exp.sub u.neg from rfl, numAggregate_sub, numAggregate_exp,
      numAggregate_neg, hu, hn, this, slow, ← hz']; rfl
  | succ n ih =>
    rw [slow, numAggregate_sub, numAggregate_exp, numAggregate_neg, hu, hn,
      ih zero.ln hl rfl (fun _ => rfl) rfl (by
        rw [slow, numAggregate_neg, numAggregate_neg, hl]; rfl)]
    cases n with
    | zero => exact hz _
    | succ n => exact hz _
where
  slow_pass_zero (m : Mode) : (slow 0 (zero.ln : Expr F)).numAggregate m = .ok zero.ln := by
    rw [slow, numAggregate_neg, numAggregate_neg, numAggregate_ln, zero, ofI64, numAggregate_ofNum]; rfl

theorem slow_passes (m : Mode) (k n : ℕ) (x : Variable) :
    passes m k (slow (n + k) (ofVar x : Expr F)) = .ok (slow n (ofVar x)) := by
  induction k with
  | zero => rfl
  | succ k ih =>
    have := (slow_pass (F := F) m (n + k) (ofVar x) (numAggregate_ofVar m x) rfl (fun _ => rfl) rfl).1
    rw [← Nat.add_assoc, passes, this]; exact ih

/-- C24: with subtraction no fixed number of passes suffices: for every `n` there is an expression that
is not yet stable after `n` passes (but is after `n + 1`). -/
theorem C24_no_bound_with_sub (m : Mode) (n : ℕ) : ∃ e e' e'' : Expr F, Built m e ∧
    passes m n e = .ok e' ∧ e'.numAggregate m = .ok e'' ∧ e'' ≠ e' ∧ e''.numAggregate m = .ok e'' := by
  refine ⟨slow n (ofVar ⟨"x"⟩), slow 0 (ofVar ⟨"x"⟩), ofVar ⟨"x"⟩, slow_built m _ _ (.var _), ?_, ?_, ?_,
    numAggregate_ofVar m _⟩
  · simpa using slow_passes (F := F) m n 0 ⟨"x"⟩
  · exact (slow_pass (F := F) m 0 (ofVar ⟨"x"⟩) (numAggregate_ofVar m _) rfl (fun _ => rfl) rfl).2
  · intro h; simp only [slow] at h; expr_inj at h

/-- C24: the smallest case, `0 - (-x)`. -/
theorem C24_not_idempotent (m : Mode) (x : Variable) :
    ((zero : Expr F).sub (ofVar x).neg).numAggregate m = .ok (ofVar x).neg.neg ∧
    ((ofVar x : Expr F).neg.neg).numAggregate m = .ok (ofVar x) := by
  constructor
  · rw [numAggregate_sub, numAggregate_neg, numAggregate_ofVar, zero, ofI64, numAggregate_ofNum]; rfl
  · rw [numAggregate_neg, numAggregate_neg, numAggregate_ofVar]; rfl

/-! ## C25 -/

theorem SmartNum.nonFloat_neg {m : Mode} {x z : SmartNum F} (hx : x.NonFloat) (h : x.neg m = .ok z) :
    z.NonFloat := by
  unfold SmartNum.neg at h
  simp only [Res.bind_eq_ok, Res.pure_eq, Res.ok.injEq] at h
  obtain ⟨v, hv, rfl⟩ := h
  exact nonFloat_wrapVal (SmartNumVal.neg_nonfloat ((nonFloat_iff x).mp hx) hv)
theorem SmartNum.nonFloat_add {m : Mode} {x y z : SmartNum F} (hx : x.NonFloat) (hy : y.NonFloat)
    (h : x.add m y = .ok z) : z.NonFloat := by
  unfold SmartNum.add at h
  split at h
  · cases h; exact hy
  split at h
  · cases h; exact hx
  simp only [Res.bind_eq_ok, Res.pure_eq, Res.ok.injEq] at h
  obtain ⟨v, hv, rfl⟩ := h
  exact nonFloat_wrapVal (SmartNumVal.add_nonfloat ((nonFloat_iff x).mp hx) ((nonFloat_iff y).mp hy) hv)
theorem SmartNum.nonFloat_sub {m : Mode} {x y z : SmartNum F} (hx : x.NonFloat) (hy : y.NonFloat)
    (h : x.sub m y = .ok z) : z.NonFloat := by
  unfold SmartNum.sub at h
  split at h
  · exact SmartNum.nonFloat_neg hy h
  split at h
  · cases h; exact hx
  simp only [Res.bind_eq_ok, Res.pure_eq, Res.ok.injEq] at h
  obtain ⟨v, hv, rfl⟩ := h
  exact nonFloat_wrapVal (SmartNumVal.sub_nonfloat ((nonFloat_iff x).mp hx) ((nonFloat_iff y).mp hy) hv)
theorem SmartNum.nonFloat_mul {m : Mode} {x y z : SmartNum F} (hx : x.NonFloat) (hy : y.NonFloat)
    (h : x.mul m y = .ok z) : z.NonFloat := by
  unfold SmartNum.mul at h
  split at h
  · cases h; exact hy
  split at h
  · cases h; exact hx
  simp only [Res.bind_eq_ok, Res.pure_eq, Res.ok.injEq] at h
  obtain ⟨v, hv, rfl⟩ := h
  exact nonFloat_wrapVal (SmartNumVal.mul_nonfloat ((nonFloat_iff x).mp hx) ((nonFloat_iff y).mp hy) hv)
theorem SmartNum.nonFloat_div {m : Mode} {x y z : SmartNum F} (hx : x.NonFloat) (hy : y.NonFloat)
    (h : x.div m y = .ok z) : z.NonFloat := by
  unfold SmartNum.div at h
  simp only [Res.bind_eq_ok, Res.pure_eq, Res.ok.injEq] at h
  obtain ⟨v, hv, rfl⟩ := h
  exact nonFloat_wrapVal (SmartNumVal.div_nonfloat ((nonFloat_iff x).mp hx) ((nonFloat_iff y).mp hy) hv)

theorem const_fold (m : Mode) {e e' : Expr F} {p : Option ℚ} (hv : WF SmartNum.Valid e) (hc : ConstValue e p)
    (h : e.numAggregate m = .ok e') : ∃ n : SmartNum F, e' = ofNum n ∧ n.NonFloat ∧ n.Valid ∧
      (m = .strict → ∀ q, p = some q → n.exact? = some q) := by
  induction hc generalizing e' with
  | num n hn =>
    rw [numAggregate_ofNum] at h; cases h
    exact ⟨n, rfl, hn, WF.num_iff.mp hv, fun _ q hq => hq⟩
  | neg ha ih =>
    rw [numAggregate_neg, negEvalRule_bind, Res.bind_eq_ok] at h
    obtain ⟨a', h1, h2⟩ := h
    obtain ⟨x, rfl, hx, vx, ex⟩ := ih (WF.neg_iff.mp hv) h1
    obtain ⟨z, hz, h2⟩ := Res.bind_eq_ok.mp (show (x.neg m >>= fun z => .ok (ofNum z)) = .ok e' from h2)
    cases h2
    refine ⟨z, rfl, SmartNum.nonFloat_neg hx hz, SmartNum.valid_neg vx hz, ?_⟩
    rintro rfl q hq
    simp only [Option.map_eq_some_iff] at hq
    obtain ⟨p, hp, rfl⟩ := hq
    exact SmartNum.neg_exact (by simp) vx (ex rfl p hp) hz
  | add ha hb iha ihb =>
    rw [numAggregate_add, addEvalRule_bind, Res.bind_eq_ok] at h
    obtain ⟨b', h1, h⟩ := h
    obtain ⟨a', h2, h⟩ := Res.bind_eq_ok.mp h
    obtain ⟨x, rfl, hx, vx, ex⟩ := iha (WF.add_iff.mp hv).1 h2
    obtain ⟨y, rfl, hy, vy, ey⟩ := ihb (WF.add_iff.mp hv).2 h1
    obtain ⟨z, hz, h3⟩ := Res.bind_eq_ok.mp (show (x.add m y >>= fun z => .ok (ofNum z)) = .ok e' from h)
    cases h3
    refine ⟨z, rfl, SmartNum.nonFloat_add hx hy hz, SmartNum.valid_add vx vy hz, ?_⟩
    rintro rfl q hq
    simp only [Option.bind_eq_some_iff, Option.map_eq_some_iff] at hq
    obtain ⟨p, hp, r, hr, rfl⟩ := hq
    exact SmartNum.add_exact vx vy (ex rfl p hp) (ey rfl r hr) hz
  | sub ha hb iha ihb =>
    rw [numAggregate_sub, subEvalRule_bind, Res.bind_eq_ok] at h
    obtain ⟨b', h1, h⟩ := h
    obtain ⟨a', h2, h⟩ := Res.bind_eq_ok.mp h
    obtain ⟨x, rfl, hx, vx, ex⟩ := iha (WF.sub_iff.mp hv).1 h2
    obtain ⟨y, rfl, hy, vy, ey⟩ := ihb (WF.sub_iff.mp hv).2 h1
    obtain ⟨z, hz, h3⟩ := Res.bind_eq_ok.mp (show (x.sub m y >>= fun z => .ok (ofNum z)) = .ok e' from h)
    cases h3
    refine ⟨z, rfl, SmartNum.nonFloat_sub hx hy hz, SmartNum.valid_sub vx vy hz, ?_⟩
    rintro rfl q hq
    simp only [Option.bind_eq_some_iff, Option.map_eq_some_iff] at hq
    obtain ⟨p, hp, r, hr, rfl⟩ := hq
    exact SmartNum.sub_exact vx vy (ex rfl p hp) (ey rfl r hr) hz
  | mul ha hb iha ihb =>
    rw [numAggregate_mul, mulEvalRule_bind, Res.bind_eq_ok] at h
    obtain ⟨b', h1, h⟩ := h
    obtain ⟨a', h2, h⟩ := Res.bind_eq_ok.mp h
    obtain ⟨x, rfl, hx, vx, ex⟩ := iha (WF.mul_iff.mp hv).1 h2
    obtain ⟨y, rfl, hy, vy, ey⟩ := ihb (WF.mul_iff.mp hv).2 h1
    obtain ⟨z, hz, h3⟩ := Res.bind_eq_ok.mp (show (x.mul m y >>= fun z => .ok (ofNum z)) = .ok e' from h)
    cases h3
    refine ⟨z, rfl, SmartNum.nonFloat_mul hx hy hz, SmartNum.valid_mul vx vy hz, ?_⟩
    rintro rfl q hq
    simp only [Option.bind_eq_some_iff, Option.map_eq_some_iff] at hq
    obtain ⟨p, hp, r, hr, rfl⟩ := hq
    exact SmartNum.mul_exact (by simp) vx vy (ex rfl p hp) (ey rfl r hr) hz
  | div ha hb iha ihb =>
    rw [numAggregate_div, divEvalRule_bind, Res.bind_eq_ok] at h
    obtain ⟨b', h1, h⟩ := h
    obtain ⟨a', h2, h⟩ := Res.bind_eq_ok.mp h
    obtain ⟨x, rfl, hx, vx, ex⟩ := iha (WF.div_iff.mp hv).1 h2
    obtain ⟨y, rfl, hy, vy, ey⟩ := ihb (WF.div_iff.mp hv).2 h1
    obtain ⟨z, hz, h3⟩ := Res.bind_eq_ok.mp (show (x.div m y >>= fun z => .ok (ofNum z)) = .ok e' from h)
    cases h3
    refine ⟨z, rfl, SmartNum.nonFloat_div hx hy hz, SmartNum.valid_div vx vy hz, ?_⟩
    rintro rfl q hq
    simp only [Option.bind_eq_some_iff, Option.map_eq_some_iff] at hq
    obtain ⟨p, hp, r, hr, hq⟩ := hq
    split at hq
    · cases hq
    rename_i h0
    cases hq
    exact SmartNum.div_exact (by simp) vx vy (ex rfl p hp) (ey rfl r hr) h0 hz

/-- C25: a constant expression that aggregates at all (in any build) aggregates to a single number, which
is not a floating-point number. -/
theorem C25_folds_to_number (m : Mode) (e e' : Expr F) (p : Option ℚ) (he : Built m e)
    (hc : ConstValue e p) (h : e.numAggregate m = .ok e') :
    ∃ n : SmartNum F, e' = ofNum n ∧ n.NonFloat := by
  obtain ⟨n, h1, h2, -⟩ := const_fold m (he.mono fun _ h => h.valid) hc h
  exact ⟨n, h1, h2⟩

/-- C25: if nothing wraps and the constant expression has the value `q`, that number is exactly `q`. -/
theorem C25_folds_exactly (e e' : Expr F) (q : ℚ) (he : Built .strict e)
    (hc : ConstValue e (some q)) (h : e.numAggregate .strict = .ok e') :
    ∃ n : SmartNum F, e' = ofNum n ∧ n.exact? = some q := by
  obtain ⟨n, h1, -, -, h2⟩ := const_fold .strict (he.mono fun _ h => h.valid) hc h
  exact ⟨n, h1, h2 rfl q rfl⟩

/-- the hypotheses hold for `(1/3 - 5) * 6 / -(2)`, whose value is 14 -/
example : ∃ e e' : Expr Unit, Built .strict e ∧ ConstValue e (some 14) ∧ e.numAggregate .strict = .ok e' := by
  have hb : ∀ v, Built (F := Unit) .strict (ofI64 v) := fun v => .num _ (.ofI64 v)
  have hc : ∀ v, ConstValue (F := Unit) (ofI64 v) (some (v.toInt : ℚ)) := fun v => .num _ (by
    intro f h; simp [SmartNum.ofI64, SmartNum.ofVal, SmartNumVal.ofI64] at h)
  refine ⟨((((ofI64 1).div (ofI64 3)).sub (ofI64 5)).mul (ofI64 6)).div (ofI64 2).neg,
    ofNum (SmartNum.wrapVal (.rational ⟨1, 14, 1⟩)), ?_, ?_, by decide +kernel⟩
  · exact .div _ _ (.mul _ _ (.sub _ _ (.div _ _ (hb _) (hb _)) (hb _)) (hb _)) (.neg _ (hb _))
  · have := ConstValue.div (.mul (.sub (.div (hc 1) (hc 3)) (hc 5)) (hc 6)) (.neg (hc 2))
    have e1 : Int64.toInt 1 = 1 := by decide
    have e2 : Int64.toInt 2 = 2 := by decide
    have e3 : Int64.toInt 3 = 3 := by decide
    have e5 : Int64.toInt 5 = 5 := by decide
    have e6 : Int64.toInt 6 = 6 := by decide
    rw [e1, e2, e3, e5, e6] at this
    norm_num at this; exact this

end SymRust
