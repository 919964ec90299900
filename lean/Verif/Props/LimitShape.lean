import Verif.Proofs.Limit
import Verif.Spec.Limit
import Verif.Spec.Normal
import Verif.Proofs.AggFacts
import Verif.Spec.Toy
/-! # Outcomes of `limit` (C39, C40, C43, C44, C45) -/

namespace SymRust
variable {F : Type} [FloatOps F]
open Expr

/-- Raising the recursion bound never changes an outcome. -/
theorem limit_fuel {m : Mode} {x : Variable} {pt e : Expr F} {k : UInt64} {n n' : Nat} (ht : Tree pt) (he : Tree e)
    (h : limit m x pt k n e ≠ .fuel) (hn : n ≤ n') : limit m x pt k n' e = limit m x pt k n e := by
  rcases limit_le (S := fun b => b = .fuel) (m := m) (x := x) (k := k) (.inl rfl) (.inl rfl) (.inr ⟨hn, rfl⟩) ht he with h' | ⟨b, rfl, h'⟩
  · exact h'.symm
  · exact absurd h' h

/-- The outcome of a run does not depend on the recursion bound of the model. -/
theorem limit_outcome_unique {m : Mode} {x : Variable} {pt e : Expr F} {k : UInt64} {n n' : Nat} (ht : Tree pt)
    (he : Tree e) (h : limit m x pt k n e ≠ .fuel) (h' : limit m x pt k n' e ≠ .fuel) :
    limit m x pt k n e = limit m x pt k n' e := by
  rcases le_total n n' with hn | hn
  · exact (limit_fuel ht he h hn).symm
  · exact limit_fuel ht he h' hn

/-- Exactly one of: an `Ok` answer (which is unique), `Err`, panic, divergence. -/
theorem limit_outcomes (m : Mode) (e pt : Expr F) (x : Variable) (k : UInt64) (he : Built m e) (ht : Built m pt) :
    ((∃ z, LimitIs m e x pt k z) ∨ LimitErr m e x pt k ∨ LimitPanics m e x pt k ∨ LimitDiverges m e x pt k) ∧
    (∀ z z', LimitIs m e x pt k z → LimitIs m e x pt k z' → z = z') ∧
    (∀ z, LimitIs m e x pt k z → ¬ LimitErr m e x pt k ∧ ¬ LimitPanics m e x pt k ∧ ¬ LimitDiverges m e x pt k) ∧
    (LimitErr m e x pt k → ¬ LimitPanics m e x pt k ∧ ¬ LimitDiverges m e x pt k) ∧
    (LimitPanics m e x pt k → ¬ LimitDiverges m e x pt k) := by
  have u : ∀ {n n'}, limit m x pt k n e ≠ .fuel → limit m x pt k n' e ≠ .fuel → _ :=
    fun h h' => limit_outcome_unique ht.tree he.tree h h'
  refine ⟨?_, ?_, ?_, ?_, ?_⟩
  · by_cases h : ∀ n, limit m x pt k n e = .fuel
    · exact .inr (.inr (.inr h))
    · push Not at h
      obtain ⟨n, hn⟩ := h
      cases hl : limit m x pt k n e with
      | ok z => exact .inl ⟨z, n, hl⟩
      | err => exact .inr (.inl ⟨n, hl⟩)
      | panic => exact .inr (.inr (.inl ⟨n, hl⟩))
      | fuel => exact absurd hl hn
  · rintro z z' ⟨n, h⟩ ⟨n', h'⟩
    have := u (by rw [h]; simp) (by rw [h']; simp)
    rw [h, h'] at this; exact LOut.ok.inj this
  · rintro z ⟨n, h⟩
    refine ⟨?_, ?_, fun h' => by rw [h' n] at h; cases h⟩
    · rintro ⟨n', h'⟩
      have := u (by rw [h]; simp) (by rw [h']; simp)
      rw [h, h'] at this; cases this
    · rintro ⟨n', h'⟩
      have := u (by rw [h]; simp) (by rw [h']; simp)
      rw [h, h'] at this; cases this
  · rintro ⟨n, h⟩
    refine ⟨?_, fun h' => by rw [h' n] at h; cases h⟩
    rintro ⟨n', h'⟩
    have := u (by rw [h]; simp) (by rw [h']; simp)
    rw [h, h'] at this; cases this
  · rintro ⟨n, h⟩ h'
    rw [h' n] at h; cases h

/-! ## C39 -/

/-- C39: the limit of an expression whose root is unary minus, subtraction, `exp`, `ln` or a power panics,
for all operands, variables, points and orders, in every build. -/
theorem C39_unsupported_panics (m : Mode) (a b pt : Expr F) (x : Variable) (k : UInt64) :
    LimitPanics m a.neg x pt k ∧ LimitPanics m (a.sub b) x pt k ∧ LimitPanics m a.exp x pt k ∧
    LimitPanics m a.ln x pt k ∧ LimitPanics m (a.pow b) x pt k :=
  ⟨⟨1, limit_neg m x pt k 0 a⟩, ⟨3, limit_sub_panic m x pt k 0 a b⟩, ⟨1, rfl⟩, ⟨1, rfl⟩, ⟨1, rfl⟩⟩

/-- C39: consequently such a limit never has an answer or an error. -/
theorem C39_no_answer (m : Mode) (e a b pt : Expr F) (x : Variable) (k : UInt64) (he : Built m e) (ht : Built m pt)
    (h : e = a.neg ∨ e = a.sub b ∨ e = a.exp ∨ e = a.ln ∨ e = a.pow b) :
    (∀ z, ¬ LimitIs m e x pt k z) ∧ ¬ LimitErr m e x pt k := by
  have hp : LimitPanics m e x pt k := by
    obtain ⟨h1, h2, h3, h4, h5⟩ := C39_unsupported_panics m a b pt x k
    rcases h with rfl | rfl | rfl | rfl | rfl <;> assumption
  obtain ⟨-, -, o1, o2, -⟩ := limit_outcomes m e pt x k he ht
  exact ⟨fun z hz => (o1 z hz).2.1 hp, fun h => (o2 h).1 hp⟩

/-- the polynomial `x - 1` is such an expression -/
example : Built (F := F) .release ((newVariable "x").sub (ofI64 1)) ∧ LimitPanics (F := F) .release ((newVariable "x").sub (ofI64 1)) ⟨"x"⟩ (ofI64 2) 5 :=
  ⟨.sub _ _ (.var ⟨"x"⟩) (.num _ (.ofI64 1)), (C39_unsupported_panics _ _ _ _ _ _).2.1⟩

/-! ## C40 -/

omit [FloatOps F] in
theorem add_bf {a b z : LimitExpression F} (ha : a ≠ .boundedFluctuation) (hb : b ≠ .boundedFluctuation)
    (h : a.add b = some z) : z ≠ .boundedFluctuation := by
  rintro rfl
  cases a <;> cases b <;> simp_all [LimitExpression.add]
omit [FloatOps F] in
theorem mul_bf {a b z : LimitExpression F} (ha : a ≠ .boundedFluctuation) (hb : b ≠ .boundedFluctuation)
    (h : a.mul b = some z) : z ≠ .boundedFluctuation := by
  rintro rfl
  cases a <;> cases b <;> simp_all [LimitExpression.mul]
omit [FloatOps F] in
theorem div_bf {a b z : LimitExpression F} (ha : a ≠ .boundedFluctuation) (hb : b ≠ .boundedFluctuation)
    (h : a.div b = some z) : z ≠ .boundedFluctuation := by
  rintro rfl
  cases a <;> cases b <;> simp_all [LimitExpression.div]

theorem finish_bf {m : Mode} {a z : LimitExpression F} (ha : a ≠ .boundedFluctuation) (h : finish m a = .ok z) :
    z ≠ .boundedFluctuation := by
  cases a with
  | normal e =>
    simp only [finish, LOut.bind_eq_ok] at h
    obtain ⟨_, -, h⟩ := h; cases h; simp
  | boundedFluctuation => exact absurd rfl ha
  | _ => cases h; simp

theorem substLimit_bf {m : Mode} {x : Variable} {pt e : Expr F} {z : LimitExpression F}
    (h : substLimit m e x pt = .ok z) : z ≠ .boundedFluctuation := by
  rw [substLimit_eq] at h
  simp only [LOut.bind_eq_ok] at h
  obtain ⟨v, -, h⟩ := h
  split_ifs at h <;> cases h <;> simp

theorem divLoop_bf {m : Mode} {x : Variable} {rec : LimitFn F}
    (hr : ∀ e z, Tree e → rec e = .ok z → z ≠ .boundedFluctuation) (j : Nat) {l r : Expr F} (hl : Tree l)
    (hr' : Tree r) {z : LimitExpression F} (h : divLoop m rec x j l r = .ok z) : z ≠ .boundedFluctuation := by
  induction j generalizing l r with
  | zero => cases h
  | succ j ih =>
    simp only [divLoop, LOut.bind_eq_ok] at h
    obtain ⟨a, ha, b, hb, h⟩ := h
    cases hd : a.div b with
    | some w =>
      rw [hd] at h; cases h
      exact div_bf (hr _ _ hl ha) (hr _ _ hr' hb) hd
    | none =>
      rw [hd] at h
      simp only [LOut.bind_eq_ok, LOut.ofOut_eq_ok] at h
      obtain ⟨l', h1, r', h2, h⟩ := h
      exact ih (tree_derivative hl h1) (tree_derivative hr' h2) h

/-- `limit_not_bf`: C40 for every well-formed tree. -/
theorem limit_not_bf {m : Mode} {x : Variable} {pt : Expr F} {k : UInt64} (n : ℕ) : ∀ (e : Expr F) (z : LimitExpression F),
    Tree e → limit m x pt k n e = .ok z → z ≠ .boundedFluctuation := by
  induction n with
  | zero => intro e z _ h; cases h
  | succ n ih =>
    intro e z he h
    have one : Tree (Expr.one : Expr F) := .num _ trivial
    cases he with
    | num v hv => rw [limit_ofNum] at h; cases h; simp
    | var v =>
      rw [limit_ofVar, LOut.bind_eq_ok] at h
      obtain ⟨a, h1, h⟩ := h
      refine finish_bf ?_ h
      split_ifs at h1 <;> cases h1 <;> simp
    | neg a _ => rw [limit_neg] at h; cases h
    | exp a _ => cases h
    | ln a _ => cases h
    | pow a b _ _ => cases h
    | sub a b ha hb =>
      rw [limit_sub, LOut.bind_eq_ok] at h
      obtain ⟨w, h1, h⟩ := h
      exact finish_bf (ih _ _ (.add _ _ ha (.neg _ hb)) h1) h
    | sin a ha =>
      rw [limit_sin, LOut.bind_eq_ok] at h
      obtain ⟨w, h1, h⟩ := h
      refine finish_bf ?_ h
      split_ifs at h1
      · cases h1; simp
      · exact substLimit_bf h1
    | cos a ha =>
      rw [limit_cos, LOut.bind_eq_ok] at h
      obtain ⟨w, h1, h⟩ := h
      exact finish_bf (substLimit_bf h1) h
    | div a b ha hb =>
      rw [limit_div, LOut.bind_eq_ok] at h
      obtain ⟨w, h1, h⟩ := h
      exact finish_bf (divLoop_bf ih _ ha hb h1) h
    | add a b ha hb =>
      rw [limit_add, LOut.bind_eq_ok] at h
      obtain ⟨w, h1, h⟩ := h
      refine finish_bf ?_ h
      simp only [addBody, LOut.bind_eq_ok] at h1
      obtain ⟨r, hr, l, hl, h1⟩ := h1
      cases hd : l.add r with
      | some w => rw [hd] at h1; cases h1; exact add_bf (ih _ _ ha hl) (ih _ _ hb hr) hd
      | none => rw [hd] at h1; exact ih _ _ (.div _ _ (.add _ _ (.div _ _ ha hb) one) (.div _ _ one hb)) h1
    | mul a b ha hb =>
      rw [limit_mul, LOut.bind_eq_ok] at h
      obtain ⟨w, h1, h⟩ := h
      refine finish_bf ?_ h
      simp only [mulBody, LOut.bind_eq_ok] at h1
      obtain ⟨r, hr, l, hl, h1⟩ := h1
      cases hd : l.mul r with
      | some w => rw [hd] at h1; cases h1; exact mul_bf (ih _ _ ha hl) (ih _ _ hb hr) hd
      | none =>
        rw [hd] at h1; simp only at h1
        split_ifs at h1
        · exact ih _ _ (.div _ _ hb (.div _ _ one ha)) h1
        · exact ih _ _ (.div _ _ ha (.div _ _ one hb)) h1

/-- C40: a successful limit is never `BoundedFluctuation`. -/
theorem C40_never_fluctuation (m : Mode) (e pt : Expr F) (x : Variable) (k : UInt64) (he : Built m e) :
    ¬ LimitIs m e x pt k .boundedFluctuation := by
  rintro ⟨n, hn⟩; exact limit_not_bf n e _ he.tree hn rfl

/-! ## C43 -/

/-- C43: as the variable tends to the literal 0, the limit of `sin(u)` is reported to be 0 for every `u`,
in every build and for every order. -/
theorem C43_sin_at_zero (m : Mode) (u : Expr F) (x : Variable) (k : UInt64) :
    LimitIs m u.sin x (ofI64 0) k .infinitesimal := ⟨1, rfl⟩

/-! ## C44 -/

/-- C44: if `limit` succeeds with `order_try = k`, then with every larger `order_try` it succeeds with the
same answer. -/
theorem C44_order_stable (m : Mode) (e pt : Expr F) (x : Variable) (k k' : UInt64) (he : Built m e)
    (ht : Built m pt) (hk : k ≤ k') (z : LimitExpression F) (h : LimitIs m e x pt k z) : LimitIs m e x pt k' z := by
  obtain ⟨n, hn⟩ := h
  rcases limit_le (S := fun _ => True) (m := m) (x := x) (n := n) (n' := n) (.inl rfl)
    (.inr ⟨UInt64.le_iff_toNat_le.mp hk, trivial⟩) (.inl rfl) ht.tree he.tree with h | ⟨b, -, h⟩
  · exact ⟨n, h ▸ hn⟩
  · rw [h] at hn; cases b <;> cases hn

/-- `sin(x)/x` needs one application of L'Hopital's rule -/
example : LimitErr (F := Unit) .debug ((newVariable "x").sin.div (newVariable "x")) ⟨"x"⟩ (ofI64 0) 0 ∧
    LimitIs (F := Unit) .debug ((newVariable "x").sin.div (newVariable "x")) ⟨"x"⟩ (ofI64 0) 1 (.normal (ofI64 1)) :=
  ⟨⟨2, by decide +kernel⟩, ⟨2, by decide +kernel⟩⟩

/-! ## C45 -/

/-- No division at the root. -/
def NoDivAt (s : Expr F) : Prop := ∀ a b : Expr F, s ≠ a.div b

/-- Infinitesimal or a finite value. -/
def Finite : LimitExpression F → Prop
  | .infinitesimal => True
  | .normal _ => True
  | _ => False

theorem divFree_finite {m : Mode} {pt : Expr F} {x : Variable} {k : UInt64} {n : Nat} {e : Expr F} (he : Tree e)
    (hd : Everywhere NoDivAt e) {z : LimitExpression F} (h : limit m x pt k n e = .ok z) : Finite z := by
  have fin : ∀ {a z : LimitExpression F}, Finite a → finish m a = .ok z → Finite z := by
    intro a z ha h
    cases a with
    | normal e =>
      simp only [finish, LOut.bind_eq_ok] at h
      obtain ⟨_, -, h⟩ := h; cases h; trivial
    | infinitesimal => cases h; trivial
    | _ => cases ha
  have sub : ∀ {e : Expr F} {z}, substLimit m e x pt = .ok z → Finite z := by
    intro e z h
    rw [substLimit_eq] at h
    simp only [LOut.bind_eq_ok] at h
    obtain ⟨v, -, h⟩ := h
    split_ifs at h <;> cases h <;> trivial
  induction n generalizing e z with
  | zero => cases h
  | succ n ih =>
    cases he with
    | num v hv => rw [limit_ofNum] at h; cases h; trivial
    | var v =>
      rw [limit_ofVar, LOut.bind_eq_ok] at h
      obtain ⟨a, h1, h⟩ := h
      refine fin ?_ h
      split_ifs at h1 <;> cases h1 <;> trivial
    | neg a _ => rw [limit_neg] at h; cases h
    | exp a _ => cases h
    | ln a _ => cases h
    | pow a b _ _ => cases h
    | sub a b ha hb =>
      cases n with
      | zero => cases h
      | succ n => cases n with
        | zero => rw [limit_sub, limit_add] at h; cases h
        | succ n => rw [limit_sub_panic] at h; cases h
    | sin a ha =>
      rw [limit_sin, LOut.bind_eq_ok] at h
      obtain ⟨w, h1, h⟩ := h
      refine fin ?_ h
      split_ifs at h1
      · cases h1; trivial
      · exact sub h1
    | cos a ha =>
      rw [limit_cos, LOut.bind_eq_ok] at h
      obtain ⟨w, h1, h⟩ := h
      exact fin (sub h1) h
    | div a b ha hb => exact absurd rfl (hd.root a b)
    | add a b ha hb =>
      rw [everywhere_add] at hd
      rw [limit_add, LOut.bind_eq_ok] at h
      obtain ⟨w, h1, h⟩ := h
      refine fin ?_ h
      simp only [addBody, LOut.bind_eq_ok] at h1
      obtain ⟨r, hr, l, hl, h1⟩ := h1
      have f1 := ih hb hd.2.2 hr
      have f2 := ih ha hd.2.1 hl
      cases l <;> cases r <;> simp_all [LimitExpression.add, Finite] <;> subst h1 <;> trivial
    | mul a b ha hb =>
      rw [everywhere_mul] at hd
      rw [limit_mul, LOut.bind_eq_ok] at h
      obtain ⟨w, h1, h⟩ := h
      refine fin ?_ h
      simp only [mulBody, LOut.bind_eq_ok] at h1
      obtain ⟨r, hr, l, hl, h1⟩ := h1
      have f1 := ih hb hd.2.2 hr
      have f2 := ih ha hd.2.1 hl
      cases l <;> cases r <;> simp_all [LimitExpression.mul, Finite] <;> subst h1 <;> trivial

omit [FloatOps F] in
theorem LOut.bind_ne_fuel {α β : Type} {x : LOut α} {f : α → LOut β} (hx : x ≠ .fuel)
    (hf : ∀ a, x = .ok a → f a ≠ .fuel) : (x >>= f) ≠ .fuel := by
  cases x with
  | ok a => exact hf a rfl
  | err => simp
  | panic => simp
  | fuel => exact absurd rfl hx

/-- C45: on division-free expressions the recursion of `limit` ends, at a depth of at most the height of the
expression plus one. -/
theorem C45_div_free_terminates (m : Mode) (e pt : Expr F) (x : Variable) (k : UInt64) (he : Built m e)
    (hd : Everywhere NoDivAt e) : limit m x pt k (depth e + 1) e ≠ .fuel ∧ ¬ LimitDiverges m e x pt k := by
  suffices ∀ n (e : Expr F), Tree e → Everywhere NoDivAt e → depth e + 1 ≤ n → limit m x pt k n e ≠ .fuel from
    ⟨this _ e he.tree hd le_rfl, fun h => this _ e he.tree hd le_rfl (h _)⟩
  have fin : ∀ a : LimitExpression F, finish m a ≠ .fuel := by
    intro a
    cases a with
    | normal e => simp only [finish]; cases e.numAggregate m <;> simp
    | _ => simp [finish]
  have sub : ∀ e : Expr F, substLimit m e x pt ≠ .fuel := by
    intro e
    rw [substLimit_eq]
    cases (e.replace x pt).numAggregate m with
    | panic => simp
    | ok z => simp only [LOut.ofRes_ok, LOut.ok_bind]; split_ifs <;> simp
  intro n
  induction n with
  | zero => intro e _ _ h; omega
  | succ n ih =>
    intro e he hd hn
    cases he with
    | num v hv => rw [limit_ofNum]; simp
    | var v =>
      rw [limit_ofVar]
      exact LOut.bind_ne_fuel (by split_ifs <;> simp) fun a _ => fin a
    | neg a _ => rw [limit_neg]; simp
    | exp a _ => simp [limit_exp]
    | ln a _ => simp [limit_ln]
    | pow a b _ _ => simp [limit_pow]
    | sub a b ha hb =>
      obtain ⟨j, rfl⟩ : ∃ j, n = j + 2 := by
        have := depth_pos a
        have : depth (a.sub b) = 1 + max (depth a) (depth b) := by simp
        exact ⟨n - 2, by omega⟩
      rw [limit_sub_panic]; simp
    | sin a ha =>
      rw [limit_sin]
      exact LOut.bind_ne_fuel (by split_ifs; simp; exact sub _) fun a _ => fin a
    | cos a ha =>
      rw [limit_cos]
      exact LOut.bind_ne_fuel (sub _) fun a _ => fin a
    | div a b ha hb => exact absurd rfl (hd.root a b)
    | add a b ha hb =>
      rw [everywhere_add] at hd
      have hdep : depth (a.add b) = 1 + max (depth a) (depth b) := by simp
      rw [limit_add]
      refine LOut.bind_ne_fuel ?_ fun a _ => fin a
      refine LOut.bind_ne_fuel (ih b hb hd.2.2 (by omega)) fun r hr =>
        LOut.bind_ne_fuel (ih a ha hd.2.1 (by omega)) fun l hl => ?_
      have f1 := divFree_finite hb hd.2.2 hr
      have f2 := divFree_finite ha hd.2.1 hl
      cases l <;> cases r <;> simp_all [LimitExpression.add, Finite]
    | mul a b ha hb =>
      rw [everywhere_mul] at hd
      have hdep : depth (a.mul b) = 1 + max (depth a) (depth b) := by simp
      rw [limit_mul]
      refine LOut.bind_ne_fuel ?_ fun a _ => fin a
      refine LOut.bind_ne_fuel (ih b hb hd.2.2 (by omega)) fun r hr =>
        LOut.bind_ne_fuel (ih a ha hd.2.1 (by omega)) fun l hl => ?_
      have f1 := divFree_finite hb hd.2.2 hr
      have f2 := divFree_finite ha hd.2.1 hl
      cases l <;> cases r <;> simp_all [LimitExpression.mul, Finite]

example : ∃ e : Expr Unit, Built .debug e ∧ Everywhere NoDivAt e ∧
    LimitIs .debug e ⟨"x"⟩ (ofI64 2) 0 (.normal ((ofI64 2).cos.mul (ofI64 6))) := by
  refine ⟨(ofVar ⟨"x"⟩).cos.mul ((ofVar ⟨"x"⟩).add (ofI64 4)),
    .mul _ _ (.cos _ (.var _)) (.add _ _ (.var _) (.num _ (.ofI64 4))), ?_, ⟨3, by decide +kernel⟩⟩
  simp only [everywhere_mul, everywhere_cos, everywhere_add, everywhere_ofVar]
  refine ⟨?_, ⟨?_, ?_⟩, ?_, ?_, ?_⟩ <;> first | (rw [ofI64, everywhere_ofNum]; intro a b h; expr_inj at h) | (intro a b h; expr_inj at h)

end SymRust
