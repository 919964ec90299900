import Verif.Model.Limit
import Verif.Proofs.Modes
/-! # Lemmas about `limit`: unfolding equations, fuel, modes, shape of answers -/

namespace SymRust
variable {F : Type} [FloatOps F]
open Expr

/-- The last step of `limit`: aggregate a `Normal` answer. -/
def finish (m : Mode) : LimitExpression F → LOut (LimitExpression F)
  | .normal e => LOut.ofRes (e.numAggregate m) >>= fun e => .ok (.normal e)
  | z => .ok z

omit [FloatOps F] in
/-- The body of the `+` rule after popping the operands. -/
def addBody (rec : LimitFn F) (a b : Expr F) : LOut (LimitExpression F) :=
  rec b >>= fun r => rec a >>= fun l => match l.add r with
    | some z => .ok z
    | none => rec (((a.div b).add Expr.one).div (Expr.one.div b))

omit [FloatOps F] in
/-- The body of the `*` rule after popping the operands. -/
def mulBody (rec : LimitFn F) (a b : Expr F) : LOut (LimitExpression F) :=
  rec b >>= fun r => rec a >>= fun l => match l.mul r with
    | some z => .ok z
    | none => if limIsZero r then rec (b.div (Expr.one.div a)) else rec (a.div (Expr.one.div b))

variable (m : Mode) (x : Variable) (pt : Expr F) (k : UInt64) (n : Nat)

theorem limit_ofNum (v : SmartNum F) : limit m x pt k (n + 1) (ofNum v) = .ok (.normal (ofNum v)) := by
  have := numAggregate_ofNum m v
  simp only [limit, ofNum, root] at *
  simp [this]

theorem limit_ofVar (y : Variable) : limit m x pt k (n + 1) (ofVar y) =
    (if y = x then (if pt.isZero then .ok .infinitesimal else .ok (.normal pt))
      else .ok (.normal (ofVar y))) >>= finish m := by
  simp only [limit, ofVar, newVariable, root, ← Variable.name_eq]
  split_ifs <;> rfl

omit [FloatOps F] in
theorem negLimitExprRule_panic (e : Expr F) : e.negLimitExprRule = .panic := by
  suffices ∀ n, ∀ e : Expr F, sizeOf e ≤ n → e.negLimitExprRule = .panic from this _ e le_rfl
  intro n
  induction n with
  | zero => intro e h; cases e; simp at h
  | succ n ih =>
    intro e h
    obtain ⟨r, c⟩ := e
    have hl : ∀ c : List (Expr F), sizeOf c ≤ n → negLimitExprRuleLast c = .panic := by
      intro c
      induction c with
      | nil => intro _; simp [negLimitExprRuleLast]
      | cons a c ihc =>
        intro h
        simp at h
        cases c with
        | nil => rw [negLimitExprRuleLast]; exact ih a (by omega)
        | cons b c => rw [negLimitExprRuleLast]; exact ihc (by omega)
    rw [negLimitExprRule, hl c (by simp at h; omega)]; rfl

theorem limit_neg (a : Expr F) : limit m x pt k (n + 1) a.neg = .panic := by
  simp only [limit, Expr.neg, root, genOpNeg]
  have := negLimitExprRule_panic (Expr.neg a)
  simp only [Expr.neg, genOpNeg] at this
  rw [this]; rfl

theorem limit_exp (a : Expr F) : limit m x pt k (n + 1) a.exp = .panic := rfl
theorem limit_ln (a : Expr F) : limit m x pt k (n + 1) a.ln = .panic := rfl
theorem limit_pow (a b : Expr F) : limit m x pt k (n + 1) (a.pow b) = .panic := rfl

theorem limit_add (a b : Expr F) : limit m x pt k (n + 1) (a.add b) =
    addBody (limit m x pt k n) a b >>= finish m := by
  simp only [limit, Expr.add, root, genOpAdd]
  unfold addLimitExprRule
  simp only [child, pop_two, pop_one, LOut.ofRes_ok, LOut.ok_bind, LOut.pure_eq]
  congr 1
theorem limit_mul (a b : Expr F) : limit m x pt k (n + 1) (a.mul b) =
    mulBody (limit m x pt k n) a b >>= finish m := by
  simp only [limit, Expr.mul, root, genOpMul]
  unfold mulLimitExprRule
  simp only [child, pop_two, pop_one, LOut.ofRes_ok, LOut.ok_bind, LOut.pure_eq]
  congr 1
theorem limit_sub (a b : Expr F) : limit m x pt k (n + 1) (a.sub b) =
    limit m x pt k n (a.add b.neg) >>= finish m := rfl
theorem limit_div (a b : Expr F) : limit m x pt k (n + 1) (a.div b) =
    divLoop m (limit m x pt k n) x (k.toNat + 1) a b >>= finish m := rfl
theorem limit_sin (a : Expr F) : limit m x pt k (n + 1) a.sin =
    (if pt.isZero then .ok .infinitesimal else substLimit m a.sin x pt) >>= finish m := rfl
theorem limit_cos (a : Expr F) : limit m x pt k (n + 1) a.cos =
    substLimit m a.cos x pt >>= finish m := rfl

theorem substLimit_eq (e : Expr F) : substLimit m e x pt =
    LOut.ofRes ((e.replace x pt).numAggregate m) >>= fun z =>
      if z.isZero then .ok .infinitesimal else .ok (.normal z) := by
  unfold substLimit
  rw [substitute_eq]; rfl

theorem limit_sub_panic (a b : Expr F) : limit m x pt k (n + 3) (a.sub b) = .panic := by
  rw [limit_sub, limit_add, addBody, limit_neg]; rfl

/-! ### well-formedness of answers -/

/-- The expression inside a finite answer is well-formed. -/
def LimWF (P : SmartNum F → Prop) : LimitExpression F → Prop
  | .normal e => WF P e
  | _ => True

omit [FloatOps F] in
@[simp] theorem LOut.bind_eq_ok {α β : Type} {x : LOut α} {f : α → LOut β} {b : β} :
    (x >>= f) = .ok b ↔ ∃ a, x = .ok a ∧ f a = .ok b := by
  cases x <;> simp
omit [FloatOps F] in
@[simp] theorem LOut.ofRes_eq_ok {α : Type} {x : Res α} {a : α} : LOut.ofRes x = .ok a ↔ x = .ok a := by
  cases x <;> simp
omit [FloatOps F] in
@[simp] theorem LOut.ofOut_eq_ok {ε α : Type} {x : Out ε α} {a : α} :
    LOut.ofOut x = .ok a ↔ x = .ok a := by
  cases x <;> simp

variable {m x pt k n}
variable {P : SmartNum F → Prop}

omit [FloatOps F] in
theorem LimWF.add {a b z : LimitExpression F} (ha : LimWF P a) (hb : LimWF P b) (h : a.add b = some z) :
    LimWF P z := by
  cases a <;> cases b <;> simp only [LimitExpression.add, Option.some.injEq, reduceCtorEq] at h <;>
    subst h <;> first | trivial | assumption | exact WF.add _ _ ha hb
omit [FloatOps F] in
theorem LimWF.mul {a b z : LimitExpression F} (ha : LimWF P a) (hb : LimWF P b) (h : a.mul b = some z) :
    LimWF P z := by
  cases a <;> cases b <;> simp only [LimitExpression.mul, Option.some.injEq, reduceCtorEq] at h <;>
    subst h <;> first | trivial | assumption | exact WF.mul _ _ ha hb
omit [FloatOps F] in
theorem LimWF.div {a b z : LimitExpression F} (ha : LimWF P a) (hb : LimWF P b) (h : a.div b = some z) :
    LimWF P z := by
  cases a <;> cases b <;> simp only [LimitExpression.div, Option.some.injEq, reduceCtorEq] at h <;>
    (try split_ifs at h) <;> (try cases h) <;> first | trivial | exact WF.div _ _ ha hb

theorem finish_wf (hP : NumClosed m P) {a z : LimitExpression F} (ha : LimWF P a) (h : finish m a = .ok z) :
    LimWF P z := by
  cases a with
  | normal e =>
    simp only [finish, LOut.bind_eq_ok, LOut.ofRes_eq_ok] at h
    obtain ⟨e', h1, h2⟩ := h
    cases h2
    exact (agg_of_numAggregate (WF.tree ha) h1).wf hP ha
  | _ => cases h; trivial

theorem divLoop_wf (hP : NumClosed m P) {rec : LimitFn F}
    (hr : ∀ e z, WF P e → rec e = .ok z → LimWF P z) (j : Nat) {l r : Expr F} (hl : WF P l) (hr' : WF P r)
    {z : LimitExpression F} (h : divLoop m rec x j l r = .ok z) : LimWF P z := by
  induction j generalizing l r with
  | zero => cases h
  | succ j ih =>
    simp only [divLoop, LOut.bind_eq_ok] at h
    obtain ⟨a, ha, b, hb, h⟩ := h
    cases hd : a.div b with
    | some w =>
      rw [hd] at h; cases h
      exact (hr _ _ hl ha).div (hr _ _ hr' hb) hd
    | none =>
      rw [hd] at h
      simp only [LOut.bind_eq_ok, LOut.ofOut_eq_ok] at h
      obtain ⟨l', h1, r', h2, h⟩ := h
      exact ih ((der_of_derivative hl.tree h1).wf hP hl) ((der_of_derivative hr'.tree h2).wf hP hr') h

theorem substLimit_wf (hP : NumClosed m P) (ht : WF P pt) {e : Expr F} (he : WF P e) {z : LimitExpression F}
    (h : substLimit m e x pt = .ok z) : LimWF P z := by
  rw [substLimit_eq] at h
  simp only [LOut.bind_eq_ok, LOut.ofRes_eq_ok] at h
  obtain ⟨e', h1, h⟩ := h
  split_ifs at h <;> cases h
  · trivial
  · exact (agg_of_numAggregate (he.replace ht x).tree h1).wf hP (he.replace ht x)

theorem limit_wf (hP : NumClosed m P) (ht : WF P pt) {e : Expr F} (he : WF P e) {z : LimitExpression F}
    (h : limit m x pt k n e = .ok z) : LimWF P z := by
  induction n generalizing e z with
  | zero => cases h
  | succ n ih =>
    have one : WF P (Expr.one : Expr F) := .num _ (hP.ofI64 1)
    cases he with
    | num v hv => rw [limit_ofNum] at h; cases h; exact .num _ hv
    | var v =>
      rw [limit_ofVar, LOut.bind_eq_ok] at h
      obtain ⟨a, h1, h⟩ := h
      refine finish_wf hP ?_ h
      split_ifs at h1 <;> cases h1
      · trivial
      · exact ht
      · exact .var _
    | neg a _ => rw [limit_neg] at h; cases h
    | exp a _ => cases h
    | ln a _ => cases h
    | pow a b _ _ => cases h
    | sub a b ha hb =>
      rw [limit_sub, LOut.bind_eq_ok] at h
      obtain ⟨w, h1, h⟩ := h
      exact finish_wf hP (ih (.add _ _ ha (.neg _ hb)) h1) h
    | sin a ha =>
      rw [limit_sin, LOut.bind_eq_ok] at h
      obtain ⟨w, h1, h⟩ := h
      refine finish_wf hP ?_ h
      split_ifs at h1
      · cases h1; trivial
      · exact substLimit_wf hP ht (.sin _ ha) h1
    | cos a ha =>
      rw [limit_cos, LOut.bind_eq_ok] at h
      obtain ⟨w, h1, h⟩ := h
      exact finish_wf hP (substLimit_wf hP ht (.cos _ ha) h1) h
    | div a b ha hb =>
      rw [limit_div, LOut.bind_eq_ok] at h
      obtain ⟨w, h1, h⟩ := h
      exact finish_wf hP (divLoop_wf hP (fun e z he hz => ih he hz) _ ha hb h1) h
    | add a b ha hb =>
      rw [limit_add, LOut.bind_eq_ok] at h
      obtain ⟨w, h1, h⟩ := h
      refine finish_wf hP ?_ h
      simp only [addBody, LOut.bind_eq_ok] at h1
      obtain ⟨r, hr, l, hl, h1⟩ := h1
      cases hd : l.add r with
      | some w => rw [hd] at h1; cases h1; exact (ih ha hl).add (ih hb hr) hd
      | none => rw [hd] at h1; exact ih (.div _ _ (.add _ _ (.div _ _ ha hb) one) (.div _ _ one hb)) h1
    | mul a b ha hb =>
      rw [limit_mul, LOut.bind_eq_ok] at h
      obtain ⟨w, h1, h⟩ := h
      refine finish_wf hP ?_ h
      simp only [mulBody, LOut.bind_eq_ok] at h1
      obtain ⟨r, hr, l, hl, h1⟩ := h1
      cases hd : l.mul r with
      | some w => rw [hd] at h1; cases h1; exact (ih ha hl).mul (ih hb hr) hd
      | none =>
        rw [hd] at h1; simp only at h1
        split_ifs at h1
        · exact ih (.div _ _ hb (.div _ _ one ha)) h1
        · exact ih (.div _ _ ha (.div _ _ one hb)) h1

/-! ### monotonicity in the build mode, the recursion bound and `order_try` -/

omit [FloatOps F] in
/-- Outcomes that are not answers. -/
inductive Bad | err | panic | fuel

/-- The outcome of a kind of failure. -/
def Bad.out {α : Type} : Bad → LOut α
  | .err => .err
  | .panic => .panic
  | .fuel => .fuel

/-- `y` is `x`, unless `x` failed in a way listed in `S`. -/
def LOut.Le {α : Type} (S : Bad → Prop) (x y : LOut α) : Prop := x = y ∨ ∃ b, S b ∧ x = b.out

omit [FloatOps F] in
theorem LOut.Le.refl {α : Type} {S : Bad → Prop} (x : LOut α) : LOut.Le S x x := .inl rfl

omit [FloatOps F] in
theorem LOut.Le.bind {α β : Type} {S : Bad → Prop} {x y : LOut α} {f g : α → LOut β} (h : LOut.Le S x y)
    (hfg : ∀ a, x = .ok a → LOut.Le S (f a) (g a)) : LOut.Le S (x >>= f) (y >>= g) := by
  rcases h with rfl | ⟨b, hb, rfl⟩
  · cases x with
    | ok a => exact hfg a rfl
    | _ => exact .inl rfl
  · right; refine ⟨b, hb, ?_⟩; cases b <;> rfl

variable {S : Bad → Prop}

theorem finish_le {m' : Mode} (hm : m = m' ∨ m.Le m' ∧ S .panic) {a : LimitExpression F}
    (ha : LimWF (fun _ => True) a) : LOut.Le S (finish m a) (finish m' a) := by
  rcases hm with rfl | ⟨hm, hS⟩
  · exact .inl rfl
  cases a with
  | normal e =>
    refine LOut.Le.bind ?_ fun _ _ => .inl rfl
    cases he : e.numAggregate m with
    | panic => exact .inr ⟨_, hS, rfl⟩
    | ok v => left; rw [numAggregate_mono hm ha _ he]
  | _ => exact .inl rfl

theorem agg_le {m' : Mode} (hm : m = m' ∨ m.Le m' ∧ S .panic) {e : Expr F} (he : Tree e) :
    LOut.Le S (LOut.ofRes (e.numAggregate m)) (LOut.ofRes (e.numAggregate m')) := by
  rcases hm with rfl | ⟨hm, hS⟩
  · exact .inl rfl
  cases h : e.numAggregate m with
  | panic => exact .inr ⟨_, hS, rfl⟩
  | ok v => left; rw [numAggregate_mono hm he _ h]

theorem der_le {m' : Mode} (hm : m = m' ∨ m.Le m' ∧ S .panic) {e : Expr F} (he : Tree e) :
    LOut.Le S (LOut.ofOut (e.derivative m x)) (LOut.ofOut (e.derivative m' x)) := by
  rcases hm with rfl | ⟨hm, hS⟩
  · exact .inl rfl
  rcases derivative_mono hm he x with h | h
  · rw [h]; exact .inr ⟨_, hS, rfl⟩
  · rw [h]; exact .inl rfl

theorem divLoop_le {m' : Mode} (hm : m = m' ∨ m.Le m' ∧ S .panic) {j j' : Nat} (hj : j = j' ∨ j ≤ j' ∧ S .err)
    {rec rec' : LimitFn F} (hr : ∀ e, Tree e → LOut.Le S (rec e) (rec' e)) {l r : Expr F} (hl : Tree l)
    (hr' : Tree r) : LOut.Le S (divLoop m rec x j l r) (divLoop m' rec' x j' l r) := by
  induction j generalizing j' l r with
  | zero =>
    rcases hj with rfl | ⟨-, hS⟩
    · exact .inl rfl
    · exact .inr ⟨_, hS, rfl⟩
  | succ j ih =>
    cases j' with
    | zero => exfalso; omega
    | succ j' =>
      have hj : j = j' ∨ j ≤ j' ∧ S .err := by
        rcases hj with hj | ⟨hj, hS⟩
        · left; omega
        · right; exact ⟨by omega, hS⟩
      unfold divLoop
      refine (hr l hl).bind fun a _ => (hr r hr').bind fun b _ => ?_
      cases a.div b with
      | some z => exact .inl rfl
      | none =>
        exact (der_le hm hl).bind fun l' h1 => (der_le hm hr').bind fun r' h2 =>
          ih hj (tree_derivative hl (LOut.ofOut_eq_ok.mp h1)) (tree_derivative hr' (LOut.ofOut_eq_ok.mp h2))

theorem substLimit_le {m' : Mode} (hm : m = m' ∨ m.Le m' ∧ S .panic) (ht : Tree pt) {e : Expr F} (he : Tree e) :
    LOut.Le S (substLimit m e x pt) (substLimit m' e x pt) := by
  rw [substLimit_eq, substLimit_eq]
  exact (agg_le hm (he.replace ht x)).bind fun _ _ => .inl rfl

theorem limit_le {m' : Mode} {k' : UInt64} {n' : Nat} (hm : m = m' ∨ m.Le m' ∧ S .panic)
    (hk : k = k' ∨ k.toNat ≤ k'.toNat ∧ S .err) (hn : n = n' ∨ n ≤ n' ∧ S .fuel) (ht : Tree pt) {e : Expr F}
    (he : Tree e) : LOut.Le S (limit m x pt k n e) (limit m' x pt k' n' e) := by
  induction n generalizing n' e with
  | zero =>
    rcases hn with rfl | ⟨-, hS⟩
    · exact .inl rfl
    · exact .inr ⟨_, hS, rfl⟩
  | succ n ih =>
    cases n' with
    | zero => exfalso; omega
    | succ n' =>
      have hn : n = n' ∨ n ≤ n' ∧ S .fuel := by
        rcases hn with hn | ⟨hn, hS⟩
        · left; omega
        · right; exact ⟨by omega, hS⟩
      have ih : ∀ e : Expr F, Tree e → LOut.Le S (limit m x pt k n e) (limit m' x pt k' n' e) :=
        fun e he => ih hn he
      have one : Tree (Expr.one : Expr F) := .num _ trivial
      have wf : ∀ {e : Expr F} {z}, Tree e → limit m x pt k n e = .ok z → LimWF (fun _ => True) z :=
        fun he hz => limit_wf (numClosed_true m) ht he hz
      cases he with
      | num v hv => rw [limit_ofNum, limit_ofNum]; exact .inl rfl
      | var v =>
        rw [limit_ofVar, limit_ofVar]
        refine LOut.Le.bind (.inl rfl) fun a ha => finish_le hm ?_
        split_ifs at ha <;> cases ha
        · trivial
        · exact ht
        · exact .var _
      | neg a _ => rw [limit_neg, limit_neg]; exact .inl rfl
      | exp a _ => exact .inl rfl
      | ln a _ => exact .inl rfl
      | pow a b _ _ => exact .inl rfl
      | sub a b ha hb =>
        rw [limit_sub, limit_sub]
        have t := WF.add _ _ ha (.neg _ hb)
        exact (ih _ t).bind fun z hz => finish_le hm (wf t hz)
      | sin a ha =>
        rw [limit_sin, limit_sin]
        split_ifs
        · exact .inl rfl
        · exact (substLimit_le hm ht (.sin _ ha)).bind fun z hz =>
            finish_le hm (substLimit_wf (numClosed_true m) ht (.sin _ ha) hz)
      | cos a ha =>
        rw [limit_cos, limit_cos]
        exact (substLimit_le hm ht (.cos _ ha)).bind fun z hz =>
            finish_le hm (substLimit_wf (numClosed_true m) ht (.cos _ ha) hz)
      | div a b ha hb =>
        rw [limit_div, limit_div]
        have hj : k.toNat + 1 = k'.toNat + 1 ∨ k.toNat + 1 ≤ k'.toNat + 1 ∧ S .err := by
          rcases hk with rfl | ⟨hk, hS⟩
          · exact .inl rfl
          · exact .inr ⟨by omega, hS⟩
        exact (divLoop_le hm hj ih ha hb).bind fun z hz =>
          finish_le hm (divLoop_wf (numClosed_true m) (fun e z he hz => wf he hz) _ ha hb hz)
      | add a b ha hb =>
        rw [limit_add, limit_add]
        have t : Tree (((a.div b).add Expr.one).div (Expr.one.div b)) :=
          .div _ _ (.add _ _ (.div _ _ ha hb) one) (.div _ _ one hb)
        refine LOut.Le.bind ?_ fun z hz => finish_le hm ?_
        · refine (ih b hb).bind fun r hr => (ih a ha).bind fun l hl => ?_
          cases l.add r with
          | some w => exact .inl rfl
          | none => exact ih _ t
        · simp only [addBody, LOut.bind_eq_ok] at hz
          obtain ⟨r, hr, l, hl, h1⟩ := hz
          cases hd : l.add r with
          | some w => rw [hd] at h1; cases h1; exact (wf ha hl).add (wf hb hr) hd
          | none => rw [hd] at h1; exact wf t h1
      | mul a b ha hb =>
        rw [limit_mul, limit_mul]
        have t1 : Tree (b.div (Expr.one.div a)) := .div _ _ hb (.div _ _ one ha)
        have t2 : Tree (a.div (Expr.one.div b)) := .div _ _ ha (.div _ _ one hb)
        refine LOut.Le.bind ?_ fun z hz => finish_le hm ?_
        · refine (ih b hb).bind fun r hr => (ih a ha).bind fun l hl => ?_
          cases l.mul r with
          | some w => exact .inl rfl
          | none =>
            simp only
            split_ifs
            · exact ih _ t1
            · exact ih _ t2
        · simp only [mulBody, LOut.bind_eq_ok] at hz
          obtain ⟨r, hr, l, hl, h1⟩ := hz
          cases hd : l.mul r with
          | some w => rw [hd] at h1; cases h1; exact (wf ha hl).mul (wf hb hr) hd
          | none =>
            rw [hd] at h1; simp only at h1
            split_ifs at h1
            · exact wf t1 h1
            · exact wf t2 h1

end SymRust
