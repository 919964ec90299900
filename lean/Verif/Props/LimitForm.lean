import Verif.Proofs.LimitForm
import Verif.Props.LimitShape
import Verif.Props.LimitSem
import Verif.Props.Eval
import Verif.Props.Height
/-! # C68: which limits succeed -/

namespace SymRust
variable {F : Type} [FloatOps F]
open Expr Filter Topology

/-- An outcome of the build `strict` is an outcome of every build, at every order. -/
theorem limitIs_all {e pt : Expr F} {x : Variable} {k : UInt64} {z : LimitExpression F} (he : Tree e) (ht : Tree pt)
    (h : LimitIs .strict e x pt k z) (m : Mode) : LimitIs m e x pt k z := by
  obtain ⟨n, h⟩ := h
  rcases limit_le (S := fun b => b = .panic) (m := .strict) (m' := m) (x := x) (k := k) (n := n) (.inr ⟨Mode.strict_le m, rfl⟩)
    (.inl rfl) (.inl rfl) ht he with h' | ⟨b, rfl, h'⟩
  · exact ⟨n, h'.symm.trans h⟩
  · rw [h] at h'; cases h'

theorem limitIs_order {m : Mode} {e pt : Expr F} {x : Variable} {k k' : UInt64} {z : LimitExpression F} (he : Tree e)
    (ht : Tree pt) (h : LimitIs m e x pt k z) (hk : k.toNat ≤ k'.toNat) : LimitIs m e x pt k' z := by
  obtain ⟨n, h⟩ := h
  rcases limit_le (S := fun b => b = .err) (m := m) (x := x) (k := k) (n := n) (.inl rfl) (.inr ⟨hk, rfl⟩)
    (.inl rfl) ht he with h' | ⟨b, rfl, h'⟩
  · exact ⟨n, h'.symm.trans h⟩
  · rw [h] at h'; cases h'

/-- From success of the build `strict` at order 0 to all builds and orders. -/
theorem limitIs_all_orders {e pt : Expr F} {x : Variable} {z : LimitExpression F} (he : Tree e) (ht : Tree pt)
    (h : LimitIs .strict e x pt 0 z) (m : Mode) (k : UInt64) : LimitIs m e x pt k z :=
  limitIs_order he ht (limitIs_all he ht h m) (by simp)

theorem GoodFor.finite {t : Expr F} {z : LimitExpression F} (h : GoodFor t z) :
    z = .infinitesimal ∨ ∃ c, z = .normal c := by
  cases z with
  | infinitesimal => exact .inl rfl
  | normal c => exact .inr ⟨c, rfl⟩
  | _ => exact h.elim

/-- C68: whatever the point and the order, in any build, an expression whose limit has an answer is made of numbers,
variables, sums, products and quotients outside the arguments of `sin` and `cos`. -/
theorem C68_form_needed (m : Mode) (e pt : Expr F) (x : Variable) (k : UInt64) (he : Built m e) (ht : Built m pt)
    (z : LimitExpression F) (h : LimitIs m e x pt k z) : LimitForm (fun _ => True) e := by
  obtain ⟨n, h⟩ := h
  exact limit_form ht.tree he.tree h

/-- C68: in release builds every limit of an expression made of numbers, variables, sums and products, and `sin` and
`cos` of anything, has a finite answer, at every point and for every order. -/
theorem C68_release (e pt : Expr F) (x : Variable) (he : Built .release e) (ht : Built .release pt)
    (hf : QuotientFree e) :
    ∃ z, (z = .infinitesimal ∨ ∃ c, z = .normal c) ∧ ∀ k, LimitIs .release e x pt k z := by
  obtain ⟨z, h1, h2⟩ := limit_good (m := .release) (x := x) (k := 0) ht.valid (fun b h => h.elim) hf he.valid (.inl rfl)
    (n := depth e) le_rfl
  exact ⟨z, h2.finite, fun k => limitIs_order he.tree ht.tree ⟨_, h1⟩ (by simp)⟩

omit [FloatOps F] in
/-- Without division outside `sin` and `cos` a covered expression contains no quotient there. -/
theorem LimitForm.quotientFree {D : Expr F → Prop} {e : Expr F} (h : LimitForm D e) (hd : Everywhere NoDivAt e) :
    QuotientFree e := by
  induction h with
  | num n => exact .num n
  | var v => exact .var v
  | sin a => exact .sin a
  | cos a => exact .cos a
  | add _ _ i j => exact .add (i (everywhere_add.1 hd).2.1) (j (everywhere_add.1 hd).2.2)
  | mul _ _ i j => exact .mul (i (everywhere_mul.1 hd).2.1) (j (everywhere_mul.1 hd).2.2)
  | div _ _ _ _ _ => exact absurd rfl ((everywhere_div.1 hd).1 _ _)

theorem bind_ne_err {α β : Type} {x : LOut α} {f : α → LOut β} (hx : x ≠ .err) (hf : ∀ a, x = .ok a → f a ≠ .err) :
    (x >>= f) ≠ .err := by
  cases x with
  | ok a => exact hf a rfl
  | err => exact absurd rfl hx
  | panic => simp
  | fuel => simp

theorem finish_ne_err (m : Mode) (a : LimitExpression F) : finish m a ≠ .err := by
  cases a with
  | normal c => exact bind_ne_err (by cases c.numAggregate m <;> simp) fun _ _ => by simp
  | _ => simp [finish]

theorem substLimit_ne_err (m : Mode) (x : Variable) (pt e : Expr F) : substLimit m e x pt ≠ .err := by
  rw [substLimit_eq]
  exact bind_ne_err (by cases (e.replace x pt).numAggregate m <;> simp) fun _ _ => by split_ifs <;> simp

theorem noErr {m : Mode} {pt : Expr F} {x : Variable} {k : UInt64} {e : Expr F} (he : Tree e)
    (hd : Everywhere NoDivAt e) (n : Nat) : limit m x pt k n e ≠ .err := by
  induction n generalizing e with
  | zero => simp [limit]
  | succ n ih =>
    cases he with
    | num v hv => rw [limit_ofNum]; simp
    | var v => rw [limit_ofVar]; exact bind_ne_err (by split_ifs <;> simp) fun a _ => finish_ne_err m a
    | neg a _ => rw [limit_neg]; simp
    | exp a _ => simp [limit_exp]
    | ln a _ => simp [limit_ln]
    | pow a b _ _ => simp [limit_pow]
    | sub a b ha hb =>
      rw [limit_sub]
      refine bind_ne_err (ih (.add _ _ ha (.neg _ hb)) ?_) fun a _ => finish_ne_err m a
      have := everywhere_sub.1 hd
      exact everywhere_add.2 ⟨fun a b h => by expr_inj at h, this.2.1, everywhere_neg.2 ⟨fun a b h => by expr_inj at h, this.2.2⟩⟩
    | sin a ha =>
      rw [limit_sin]
      exact bind_ne_err (by split_ifs; simp; exact substLimit_ne_err m x pt _) fun a _ => finish_ne_err m a
    | cos a ha =>
      rw [limit_cos]
      exact bind_ne_err (substLimit_ne_err m x pt _) fun a _ => finish_ne_err m a
    | div a b _ _ => exact absurd rfl ((everywhere_div.1 hd).1 _ _)
    | add a b ha hb =>
      rw [limit_add]
      have hd := everywhere_add.1 hd
      refine bind_ne_err (bind_ne_err (ih hb hd.2.2) fun B hB => bind_ne_err (ih ha hd.2.1) fun A hA => ?_)
        fun a _ => finish_ne_err m a
      have fA := divFree_finite ha hd.2.1 hA
      have fB := divFree_finite hb hd.2.2 hB
      cases A <;> cases B <;> first | exact fA.elim | exact fB.elim | simp [LimitExpression.add]
    | mul a b ha hb =>
      rw [limit_mul]
      have hd := everywhere_mul.1 hd
      refine bind_ne_err (bind_ne_err (ih hb hd.2.2) fun B hB => bind_ne_err (ih ha hd.2.1) fun A hA => ?_)
        fun a _ => finish_ne_err m a
      have fA := divFree_finite ha hd.2.1 hA
      have fB := divFree_finite hb hd.2.2 hB
      cases A <;> cases B <;> first | exact fA.elim | exact fB.elim | simp [LimitExpression.mul]

/-- C68: so for expressions without division, in release builds, the limit has an answer exactly for those made of
numbers, variables, sums, products, and `sin` and `cos` of anything; for all others it panics. -/
theorem C68_release_iff (e pt : Expr F) (x : Variable) (k : UInt64) (he : Built .release e) (ht : Built .release pt)
    (hd : Everywhere NoDivAt e) :
    ((∃ z, LimitIs .release e x pt k z) ↔ QuotientFree e) ∧ (¬ QuotientFree e → LimitPanics .release e x pt k) := by
  have h1 : (∃ z, LimitIs .release e x pt k z) ↔ QuotientFree e := by
    constructor
    · rintro ⟨z, h⟩
      exact (C68_form_needed .release e pt x k he ht z h).quotientFree hd
    · intro h
      obtain ⟨z, -, h⟩ := C68_release e pt x he ht h
      exact ⟨z, h k⟩
  refine ⟨h1, fun hn => ?_⟩
  rcases (limit_outcomes .release e pt x k he ht).1 with h | ⟨n, h⟩ | h | h
  · exact absurd (h1.1 h) hn
  · exact absurd h (noErr he.tree hd n)
  · exact h
  · exact absurd h (C45_div_free_terminates .release e pt x k he hd).2

/-- C68: as long as schoolbook fractions stay below 2^63 after the point is put in, such a limit has the same finite
answer in every build, for every order, and nothing wraps. -/
theorem C68_every_build (m₀ m₁ : Mode) (e pt : Expr F) (x : Variable) (he : Built m₀ e) (ht : Built m₁ pt)
    (hf : QuotientFree e) (hs : Small (e.replace x pt)) :
    ∃ z, (z = .infinitesimal ∨ ∃ c, z = .normal c) ∧ ∀ m k, LimitIs m e x pt k z := by
  obtain ⟨z, h1, h2⟩ := limit_good (m := .strict) (x := x) (k := 0) ht.valid (fun b h => h.elim) hf he.valid (.inr hs)
    (n := depth e) le_rfl
  exact ⟨z, h2.finite, limitIs_all_orders he.tree ht.tree ⟨_, h1⟩⟩

/-! ### quotients -/

/-- A value other than 0 is answered by a Normal that is not the number 0. -/
theorem limit_nonzero {e pt : Expr F} {x : Variable} {k : UInt64} {n : Nat} {z : LimitExpression F}
    (he : WF SmartNum.Valid e) (hpt : WF SmartNum.Valid pt) (h : limit .strict x pt k n e = .ok z) {env : Env} {p r : ℝ}
    (hp : denote SmartNum.exactReal env pt = some p) (hr : denote SmartNum.exactReal (env.set x p) e = some r)
    (hsp : Safe SmartNum.exactReal Set.univ pt) (hs : Safe SmartNum.exactReal (AtPoint SmartNum.exactReal x pt) e)
    (hl : NoLnIntoBase x pt e) (ht : SinOK env x pt p e) (h0 : r ≠ 0) :
    ∃ c, z = .normal c ∧ c.isZero = false := by
  obtain ⟨d, h1, rfl, h2⟩ := limit_lift he hpt h
  have hm := limit_means (denote_lift hpt.tree hp) (wf_lift hpt)
    (hsp.lift (E' := Set.univ) subset_rfl hpt.tree) (wf_lift he)
    (hs.lift (atPoint_lift hpt.tree) he.tree) (hl.lift he.tree)
    (denote_lift he.tree hr) (ht.lift hpt he.tree) h1
  cases d with
  | infinitesimal => exact absurd hm h0
  | normal c =>
    refine ⟨_, rfl, ?_⟩
    by_contra hc
    exact h0 (isZero_value hm.2.2 (by simpa using hc) hm.1)
  | _ => exact hm.elim

/-- What C42 asks of `e` at the point, apart from the value. -/
structure FairAt (env : Env) (x : Variable) (pt : Expr F) (p : ℝ) (e : Expr F) : Prop where
  valid : WF SmartNum.Valid e
  safe : Safe SmartNum.exactReal (AtPoint SmartNum.exactReal x pt) e
  noLn : NoLnIntoBase x pt e
  sinOK : SinOK env x pt p e

theorem FairAt.sub {env : Env} {x : Variable} {pt : Expr F} {p : ℝ} {e s : Expr F} (h : FairAt env x pt p e)
    (hs : Subterm s e) : FairAt env x pt p s where
  valid := wf_sub h.valid hs
  safe := fun t ht => h.safe t (ht.trans hs)
  noLn := fun a b g => h.noLn a b (g.trans hs)
  sinOK := fun h0 a g => h.sinOK h0 a (g.trans hs)

theorem LimitForm.fair {env : Env} {x : Variable} {pt : Expr F} {p : ℝ} {e : Expr F} (hf : LimitForm (fun _ => True) e)
    (h : FairAt env x pt p e) {r : ℝ} (hr : denote SmartNum.exactReal (env.set x p) e = some r) :
    LimitForm (fun b => FairAt env x pt p b ∧ ∃ s, s ≠ 0 ∧ denote SmartNum.exactReal (env.set x p) b = some s) e := by
  induction hf generalizing r with
  | num n => exact .num n
  | var v => exact .var v
  | sin a => exact .sin a
  | cos a => exact .cos a
  | @add a b _ _ i j =>
    obtain ⟨u, v, hu, hv, -⟩ := denote_add.1 hr
    exact .add (i (h.sub (.child _ _ a (by simp) .refl)) hu) (j (h.sub (.child _ _ b (by simp) .refl)) hv)
  | @mul a b _ _ i j =>
    obtain ⟨u, v, hu, hv, -⟩ := denote_mul.1 hr
    exact .mul (i (h.sub (.child _ _ a (by simp) .refl)) hu) (j (h.sub (.child _ _ b (by simp) .refl)) hv)
  | @div a b _ _ _ i j =>
    obtain ⟨u, v, hu, hv, hv0, -⟩ := denote_div.1 hr
    have hb := h.sub (.child _ _ b (by simp) .refl)
    exact .div (i (h.sub (.child _ _ a (by simp) .refl)) hu) (j hb hv) ⟨hb, v, hv0, hv⟩

/-- C68: an expression made of numbers, variables, sums, products and quotients, and `sin` and `cos` of anything, has a
limit in every build at every point where it has a value, as long as schoolbook fractions stay below 2^63; the answer
does not depend on the order or the build, it is not Infinity, and it is the true limit. -/
theorem C68_at_value (m m' : Mode) (e pt : Expr F) (he : Built m e) (hpt : Built m' pt) (x : Variable) (env : Env) (p r : ℝ)
    (hf : LimitForm (fun _ => True) e) (hsm : Small (e.replace x pt))
    (hp : denote SmartNum.exactReal env pt = some p) (hr : denote SmartNum.exactReal (env.set x p) e = some r)
    (hpow : PowOK SmartNum.exactReal (env.set x p) x e)
    (hsp : Safe SmartNum.exactReal Set.univ pt) (hs : Safe SmartNum.exactReal (AtPoint SmartNum.exactReal x pt) e)
    (hl : NoLnIntoBase x pt e) (ht : SinOK env x pt p e) :
    ∃ z, (∀ b k, LimitIs b e x pt k z) ∧ ((z = .infinitesimal ∧ r = 0) ∨ ∃ c, z = .normal c ∧ StandsFor env c r) ∧
      z.Tells env (𝓝[≠] p) (fn SmartNum.exactReal env x e) := by
  have hfair : FairAt env x pt p e := ⟨he.valid, hs, hl, ht⟩
  obtain ⟨z, h1, -⟩ := limit_good (m := .strict) (x := x) (k := 0) hpt.valid
    (fun b hb n z h => by
      obtain ⟨hb, s, hs0, hbs⟩ := hb
      exact limit_nonzero hb.valid hpt.valid h hp hbs hsp hb.safe hb.noLn hb.sinOK hs0)
    (hf.fair hfair hr) he.valid (.inr hsm) (n := depth e) le_rfl
  exact ⟨z, limitIs_all_orders he.tree hpt.tree ⟨_, h1⟩,
    C42_value m m' e pt he hpt x 0 z ⟨_, h1⟩ env p r hp hr hsp hs hl ht,
    (C42_limit m m' e pt he hpt x 0 z ⟨_, h1⟩ env p r hp hr hpow hsp hs hl ht).1⟩

/-! ### rational functions -/

/-- The answer is the number `r`. -/
def RatAnswer (r : ℚ) (z : LimitExpression F) : Prop :=
  (z = .infinitesimal ∧ r = 0) ∨ ∃ c : SmartNum F, z = .normal (ofNum c) ∧ c.Valid ∧ c.exact? = some r

theorem finish_rat {t : Expr F} {r : ℚ} {z : LimitExpression F} (ht : WF SmartNum.Valid t) (hc : ConstValue t (some r))
    (h : finish .strict (.normal t) = .ok z) : RatAnswer r z := by
  simp only [finish, LOut.bind_eq_ok, LOut.ofRes_eq_ok] at h
  obtain ⟨c', h1, h⟩ := h
  cases h
  obtain ⟨n, rfl, -, hv, hx⟩ := const_fold .strict ht hc h1
  exact .inr ⟨n, rfl, hv, hx rfl r rfl⟩

omit [FloatOps F] in
theorem constValue_num {c : SmartNum F} {r : ℚ} (h : c.exact? = some r) : ConstValue (ofNum c) (some r) := by
  rw [← h]
  refine .num _ fun f hf => ?_
  simp [SmartNum.exact?, hf, SmartNumVal.exact?] at h

theorem exact_isZero {c : SmartNum F} {r : ℚ} (hv : c.Valid) (h : c.exact? = some r) : c.isZero = true ↔ r = 0 := by
  have : c.isZero = true ↔ c.exact? = some 0 := hv.zero_iff
  rw [this, h]; simp

theorem limit_rat {x : Variable} {p : SmartNum F} {k : UInt64} {ρ : Variable → ℚ} {e : Expr F} {r : ℚ} {n : Nat}
    {z : LimitExpression F} (hp : p.Valid) (hx : p.exact? = some (ρ x)) (h : RatValue ρ e r) (he : WF SmartNum.Valid e)
    (hv : ∀ v, Occurs v e → v = x) (hl : limit .strict x (ofNum p) k n e = .ok z) : RatAnswer r z := by
  induction h generalizing n z with
  | num q r hq =>
    cases n with
    | zero => cases hl
    | succ n => rw [limit_ofNum] at hl; cases hl; exact .inr ⟨_, rfl, WF.num_iff.1 he, hq⟩
  | var v =>
    cases n with
    | zero => cases hl
    | succ n =>
      obtain rfl := hv v ((occurs_ofVar v v).2 rfl)
      rw [limit_ofVar] at hl
      rw [if_pos rfl, isZero_ofNum] at hl
      split_ifs at hl with h0
      · cases hl; exact .inl ⟨rfl, (exact_isZero hp hx).1 h0⟩
      · exact finish_rat (.num _ hp) (constValue_num hx) hl
  | neg _ _ =>
    cases n with
    | zero => cases hl
    | succ n => rw [limit_neg] at hl; cases hl
  | @sub a b _ _ _ _ _ _ =>
    have := limit_form (.num _ trivial) he.tree hl
    generalize ht : a.sub b = t at this
    cases this <;> expr_inj at ht
  | @add a b u v _ _ i j =>
    cases n with
    | zero => cases hl
    | succ n =>
      rw [limit_add, LOut.bind_eq_ok] at hl
      obtain ⟨w, h1, hl⟩ := hl
      simp only [addBody, LOut.bind_eq_ok] at h1
      obtain ⟨B, hB, A, hA, h1⟩ := h1
      obtain ⟨wa, wb⟩ := WF.add_iff.1 he
      have fA := i wa (fun v h => hv v ((occurs_add ..).2 (.inl h))) hA
      have fB := j wb (fun v h => hv v ((occurs_add ..).2 (.inr h))) hB
      rcases fA with ⟨rfl, rfl⟩ | ⟨c, rfl, c1, c2⟩ <;> rcases fB with ⟨rfl, rfl⟩ | ⟨d, rfl, d1, d2⟩ <;> cases h1
      · cases hl; exact .inl ⟨rfl, by simp⟩
      · rw [zero_add]; exact finish_rat (.num _ d1) (constValue_num d2) hl
      · rw [add_zero]; exact finish_rat (.num _ c1) (constValue_num c2) hl
      · exact finish_rat (.add _ _ (.num _ c1) (.num _ d1)) (.add (constValue_num c2) (constValue_num d2)) hl
  | @mul a b u v _ _ i j =>
    cases n with
    | zero => cases hl
    | succ n =>
      rw [limit_mul, LOut.bind_eq_ok] at hl
      obtain ⟨w, h1, hl⟩ := hl
      simp only [mulBody, LOut.bind_eq_ok] at h1
      obtain ⟨B, hB, A, hA, h1⟩ := h1
      obtain ⟨wa, wb⟩ := WF.mul_iff.1 he
      have fA := i wa (fun v h => hv v ((occurs_mul ..).2 (.inl h))) hA
      have fB := j wb (fun v h => hv v ((occurs_mul ..).2 (.inr h))) hB
      rcases fA with ⟨rfl, rfl⟩ | ⟨c, rfl, c1, c2⟩ <;> rcases fB with ⟨rfl, rfl⟩ | ⟨d, rfl, d1, d2⟩ <;> cases h1
      · cases hl; exact .inl ⟨rfl, by simp⟩
      · cases hl; exact .inl ⟨rfl, by simp⟩
      · cases hl; exact .inl ⟨rfl, by simp⟩
      · exact finish_rat (.mul _ _ (.num _ c1) (.num _ d1)) (.mul (constValue_num c2) (constValue_num d2)) hl
  | @div a b u v _ _ h0 i j =>
    cases n with
    | zero => cases hl
    | succ n =>
      rw [limit_div, LOut.bind_eq_ok] at hl
      obtain ⟨w, h1, hl⟩ := hl
      simp only [divLoop, LOut.bind_eq_ok] at h1
      obtain ⟨A, hA, B, hB, h1⟩ := h1
      obtain ⟨wa, wb⟩ := WF.div_iff.1 he
      have fA := i wa (fun v h => hv v ((occurs_div ..).2 (.inl h))) hA
      have fB := j wb (fun v h => hv v ((occurs_div ..).2 (.inr h))) hB
      rcases fB with ⟨rfl, rfl⟩ | ⟨d, rfl, d1, d2⟩
      · exact absurd rfl h0
      have hd : d.isZero = false := by
        rw [Bool.eq_false_iff]; intro hc; exact h0 ((exact_isZero d1 d2).1 hc)
      rcases fA with ⟨rfl, rfl⟩ | ⟨c, rfl, c1, c2⟩
      · simp only [LimitExpression.div, isZero_ofNum, hd] at h1
        cases h1; cases hl; exact .inl ⟨rfl, by simp⟩
      · cases h1
        refine finish_rat (.div _ _ (.num _ c1) (.num _ d1)) ?_ hl
        have := ConstValue.div (constValue_num c2) (constValue_num d2)
        simpa [h0] using this

theorem LimitForm.rat {ρ : Variable → ℚ} {x : Variable} {e : Expr F} (hf : LimitForm (fun _ => True) e) {r : ℚ}
    (h : RatValue ρ e r) (he : WF SmartNum.Valid e) (hv : ∀ v, Occurs v e → v = x) :
    LimitForm (fun b => WF SmartNum.Valid b ∧ (∀ v, Occurs v b → v = x) ∧ ∃ s, s ≠ 0 ∧ RatValue ρ b s) e := by
  induction h with
  | num n _ _ => exact .num n
  | var v => exact .var v
  | @neg a _ _ _ => generalize ht : a.neg = t at hf; cases hf <;> expr_inj at ht
  | @sub a b _ _ _ _ _ _ => generalize ht : a.sub b = t at hf; cases hf <;> expr_inj at ht
  | @add a b _ _ _ _ i j =>
    obtain ⟨wa, wb⟩ := WF.add_iff.1 he
    obtain ⟨fa, fb⟩ : LimitForm (fun _ => True) a ∧ LimitForm (fun _ => True) b := by
      generalize ht : a.add b = t at hf
      cases hf <;> expr_inj at ht
      rename_i h1 h2; obtain ⟨rfl, rfl⟩ := ht; exact ⟨h1, h2⟩
    exact .add (i fa wa fun v h => hv v ((occurs_add ..).2 (.inl h))) (j fb wb fun v h => hv v ((occurs_add ..).2 (.inr h)))
  | @mul a b _ _ _ _ i j =>
    obtain ⟨wa, wb⟩ := WF.mul_iff.1 he
    obtain ⟨fa, fb⟩ : LimitForm (fun _ => True) a ∧ LimitForm (fun _ => True) b := by
      generalize ht : a.mul b = t at hf
      cases hf <;> expr_inj at ht
      rename_i h1 h2; obtain ⟨rfl, rfl⟩ := ht; exact ⟨h1, h2⟩
    exact .mul (i fa wa fun v h => hv v ((occurs_mul ..).2 (.inl h))) (j fb wb fun v h => hv v ((occurs_mul ..).2 (.inr h)))
  | @div a b _ _ _ hb h0 i j =>
    obtain ⟨wa, wb⟩ := WF.div_iff.1 he
    obtain ⟨fa, fb⟩ : LimitForm (fun _ => True) a ∧ LimitForm (fun _ => True) b := by
      generalize ht : a.div b = t at hf
      cases hf <;> expr_inj at ht
      rename_i h1 h2 h3; obtain ⟨rfl, rfl⟩ := ht; exact ⟨h1, h2⟩
    have vb : ∀ v, Occurs v b → v = x := fun v h => hv v ((occurs_div ..).2 (.inr h))
    exact .div (i fa wa fun v h => hv v ((occurs_div ..).2 (.inl h))) (j fb wb vb) ⟨wb, vb, _, h0, hb⟩

/-- C68: the limit of a rational function of `x` (sums, products and quotients of numbers with exact values and `x`) at a
number where no divisor is 0 succeeds in every build and for every order as long as schoolbook fractions stay below
2^63, and the answer is the exact value of the function there, as a single number (or Infinitesimal, if it is 0). -/
theorem C68_rational_function (m₀ m₁ : Mode) (e : Expr F) (x : Variable) (p : SmartNum F) (ρ : Variable → ℚ) (r : ℚ)
    (he : Built m₀ e) (hp : p.Reachable m₁) (hf : LimitForm (fun _ => True) e) (hv : ∀ v, Occurs v e → v = x)
    (hx : p.exact? = some (ρ x)) (hr : RatValue ρ e r) (hs : Small (e.replace x (ofNum p))) :
    ∃ z, (∀ m k, LimitIs m e x (ofNum p) k z) ∧
      ((z = .infinitesimal ∧ r = 0) ∨ ∃ c : SmartNum F, z = .normal (ofNum c) ∧ c.exact? = some r) := by
  obtain ⟨z, h1, -⟩ := limit_good (m := .strict) (x := x) (k := 0) (pt := ofNum p) (.num _ hp.valid)
    (fun b hb n z h => by
      obtain ⟨wb, vb, s, hs0, hb⟩ := hb
      rcases limit_rat hp.valid hx hb wb vb h with ⟨-, h⟩ | ⟨c, rfl, c1, c2⟩
      · exact absurd h hs0
      · refine ⟨_, rfl, ?_⟩
        rw [isZero_ofNum, Bool.eq_false_iff]
        intro hc; exact hs0 ((exact_isZero c1 c2).1 hc))
    (hf.rat hr he.valid hv) he.valid (.inr hs) (n := depth e) le_rfl
  refine ⟨z, limitIs_all_orders he.tree (.num _ trivial) ⟨_, h1⟩, ?_⟩
  rcases limit_rat hp.valid hx hr he.valid hv h1 with h | ⟨c, h1, -, h2⟩
  · exact .inl h
  · exact .inr ⟨c, h1, h2⟩

/-- C68: an instance: the limit of (x * x + 1) / (x + 3) at x = 4 is the number 17/7, in every build and for every order. -/
theorem C68_example_rational :
    let x : Expr F := newVariable "x"
    let e := ((x.mul x).add (ofI64 1)).div (x.add (ofI64 3))
    Built .debug e ∧ LimitForm (fun _ => True) e ∧ (∀ v, Occurs v e → v = ⟨"x"⟩) ∧
    RatValue (fun _ => 4) e (17 / 7) ∧ Small (e.replace ⟨"x"⟩ (ofI64 4)) ∧
    ∃ c : SmartNum F, c.exact? = some (17 / 7) ∧ ∀ m k, LimitIs m e ⟨"x"⟩ (ofI64 4) k (.normal (ofNum c)) := by
  intro x e
  have hb : ∀ v, Built (F := F) .debug (ofI64 v) := fun v => .num _ (.ofI64 v)
  have hx : Built .debug x := .var _
  have he : Built .debug e := .div _ _ (.add _ _ (.mul _ _ hx hx) (hb 1)) (.add _ _ hx (hb 3))
  have hf : LimitForm (fun _ => True) e := .div (.add (.mul (.var _) (.var _)) (.num _)) (.add (.var _) (.num _)) trivial
  have ov : ∀ v, Occurs v x → v = ⟨"x"⟩ := fun v h => ((occurs_ofVar v ⟨"x"⟩).1 h).symm
  have on : ∀ v k, ¬ Occurs v (ofI64 k : Expr F) := fun v k h => (occurs_ofNum _ _).1 h
  have hv : ∀ v, Occurs v e → v = ⟨"x"⟩ := by
    intro v h
    rcases (occurs_div ..).1 h with h | h
    · rcases (occurs_add ..).1 h with h | h
      · rcases (occurs_mul ..).1 h with h | h <;> exact ov v h
      · exact absurd h (on _ _)
    · rcases (occurs_add ..).1 h with h | h
      · exact ov v h
      · exact absurd h (on _ _)
  have hn : ∀ k : Int64, RatValue (F := F) (fun _ => 4) (ofI64 k) k.toInt := fun k => .num _ _ rfl
  have hr : RatValue (fun _ => 4) e (17 / 7) := by
    have := RatValue.div (.add (.mul (.var ⟨"x"⟩) (.var ⟨"x"⟩)) (hn 1)) (.add (.var ⟨"x"⟩) (hn 3))
      (by rw [show (3 : Int64).toInt = 3 by decide]; norm_num)
    rw [show (3 : Int64).toInt = 3 by decide, show (1 : Int64).toInt = 1 by decide] at this
    norm_num at this
    exact this
  have hs : Small (e.replace ⟨"x"⟩ (ofI64 4)) := small_of_check (by krfl)
  refine ⟨he, hf, hv, hr, hs, ?_⟩
  obtain ⟨z, h1, h2⟩ := C68_rational_function .debug .debug e ⟨"x"⟩ (.ofI64 4) (fun _ => 4) _ he (.ofI64 4) hf hv
    (show some (((4 : Int64).toInt : ℤ) : ℚ) = some 4 by rw [show (4 : Int64).toInt = 4 by decide]; norm_num) hr hs
  rcases h2 with ⟨-, h2⟩ | ⟨c, rfl, h2⟩
  · norm_num at h2
  · exact ⟨c, h2, h1⟩

/-- C68: an instance without quotients outside `sin` and `cos`: `x * y + sin(x / y - 1)` at x = 1/2 has the same finite answer
in every build and for every order. -/
theorem C68_example_trig :
    let x : Expr F := newVariable "x"
    let y : Expr F := newVariable "y"
    let e := (x.mul y).add ((x.div y).sub (ofI64 1)).sin
    let p : Expr F := (ofI64 1).div (ofI64 2)
    Built .debug e ∧ Built .debug p ∧ QuotientFree e ∧ Small (e.replace ⟨"x"⟩ p) ∧
    ∃ z, (z = .infinitesimal ∨ ∃ c, z = .normal c) ∧ ∀ m k, LimitIs m e ⟨"x"⟩ p k z := by
  intro x y e p
  have hb : ∀ v, Built (F := F) .debug (ofI64 v) := fun v => .num _ (.ofI64 v)
  have hx : Built .debug x := .var _
  have hy : Built .debug y := .var _
  have he : Built .debug e := .add _ _ (.mul _ _ hx hy) (.sin _ (.sub _ _ (.div _ _ hx hy) (hb 1)))
  have hp : Built .debug p := .div _ _ (hb 1) (hb 2)
  have hf : QuotientFree e := .add (.mul (.var _) (.var _)) (.sin _)
  have hs : Small (e.replace ⟨"x"⟩ p) := small_of_check (by krfl)
  exact ⟨he, hp, hf, hs, C68_every_build .debug .debug e p ⟨"x"⟩ he hp hf hs⟩

/-- C68: an instance of a point where the expression has a value: x * x / (x + y) at x = 2, with y = 1. -/
theorem C68_example_value :
    let x : Expr F := newVariable "x"
    let y : Expr F := newVariable "y"
    let e := (x.mul x).div (x.add y)
    let env : Env := fun _ => 1
    ∃ z, (∀ b k, LimitIs b e ⟨"x"⟩ (ofI64 2) k z) ∧
      ((z = .infinitesimal ∧ (4 / 3 : ℝ) = 0) ∨ ∃ c, z = .normal c ∧ StandsFor env c (4 / 3)) ∧
      z.Tells env (𝓝[≠] 2) (fn SmartNum.exactReal env ⟨"x"⟩ e) := by
  intro x y e env
  have bx : Built .debug x := .var ⟨"x"⟩
  have by' : Built .debug y := .var ⟨"y"⟩
  have h2 : denote SmartNum.exactReal env (ofI64 2 : Expr F) = some 2 := by
    rw [denote_int]; simp [show (2 : Int64).toInt = 2 by decide]
  have hx : denote SmartNum.exactReal (env.set ⟨"x"⟩ 2) x = some 2 := by simp [x, newVariable, denote, Env.set]
  have hy : denote SmartNum.exactReal (env.set ⟨"x"⟩ 2) y = some 1 := by simp [y, newVariable, denote, Env.set, env]
  have pa : ∀ Q, PowAll Q e := fun Q => powAll_div.2 ⟨powAll_mul.2 ⟨powAll_ofVar _, powAll_ofVar _⟩,
    powAll_add.2 ⟨powAll_ofVar _, powAll_ofVar _⟩⟩
  refine C68_at_value .debug .debug e (ofI64 2) (.div _ _ (.mul _ _ bx bx) (.add _ _ bx by')) (.num _ (.ofI64 2)) ⟨"x"⟩ env 2
    (4 / 3) (.div (.mul (.var _) (.var _)) (.add (.var _) (.var _)) trivial) (small_of_check (by krfl)) h2 ?_ (pa _)
    (safe_ofNum _) ?_ ?_ ?_
  · exact denote_div.2 ⟨4, 3, denote_mul.2 ⟨2, 2, hx, hx, by norm_num⟩, denote_add.2 ⟨2, 1, hx, hy, by norm_num⟩,
      by norm_num, rfl⟩
  · exact safe_div.2 ⟨safe_mul.2 ⟨safe_ofVar _, safe_ofVar _⟩, safe_add.2 ⟨safe_ofVar _, safe_ofVar _⟩⟩
  · intro a b h; exact (pa (fun _ _ => False) _ h a b rfl).elim
  · intro h; cases h

end SymRust
