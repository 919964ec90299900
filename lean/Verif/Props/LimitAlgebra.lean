import Verif.Props.LimitForm
/-! # C74: the limit of a sum, product or quotient in terms of the limits of the operands -/

namespace SymRust
variable {F : Type} [FloatOps F]
open Expr

section
variable {m : Mode} {x : Variable} {pt a b : Expr F} {k : UInt64}

theorem limit_stable {e : Expr F} {o : LOut (LimitExpression F)} {n : Nat} (ht : Tree pt) (he : Tree e)
    (h : limit m x pt k n e = o) (ho : o ≠ .fuel) : ∀ n' ≥ n, limit m x pt k n' e = o := fun n' hn =>
  (limit_fuel ht he (by rw [h]; exact ho) hn).trans h

theorem limit_stable₂ {o o' : LOut (LimitExpression F)} (ht : Tree pt) (ta : Tree a) (tb : Tree b)
    (ha : ∃ n, limit m x pt k n a = o) (hb : ∃ n, limit m x pt k n b = o') (ho : o ≠ .fuel) (ho' : o' ≠ .fuel) :
    ∃ n0, ∀ n ≥ n0, limit m x pt k n a = o ∧ limit m x pt k n b = o' := by
  obtain ⟨i, ha⟩ := ha
  obtain ⟨j, hb⟩ := hb
  exact ⟨max i j, fun n hn => ⟨limit_stable ht ta ha ho n (by omega), limit_stable ht tb hb ho' n (by omega)⟩⟩

theorem simplified_of {e c : Expr F} {n : Nat} (h : limit m x pt k n e = finish m (.normal c)) :
    LimitSimplified m e x pt k c := by
  unfold LimitSimplified
  cases hc : c.numAggregate m with
  | ok c' => exact ⟨n, by rw [h]; simp [finish, hc]⟩
  | panic => exact ⟨n, by rw [h]; simp [finish, hc]⟩

theorem sum_inf {z : LimitExpression F} (ta : Tree a) (tb : Tree b) (ht : Tree pt) (hz : z ≠ .infinity)
    (hA : LimitIs m a x pt k z) (hB : LimitIs m b x pt k .infinity) : LimitIs m (a.add b) x pt k .infinity := by
  have key : ∀ {A B : LimitExpression F}, LimitIs m a x pt k A → LimitIs m b x pt k B → ∃ n, ∀ z, A.add B = some z →
      limit m x pt k n (a.add b) = finish m z := by
    intro A B hA hB
    obtain ⟨n, h⟩ := limit_stable₂ ht ta tb hA hB (by simp) (by simp)
    refine ⟨n + 1, fun z hz => ?_⟩
    obtain ⟨h1, h2⟩ := h n le_rfl
    rw [limit_add]
    simp [addBody, h1, h2, hz]
  cases z with
  | infinity => exact absurd rfl hz
  | infinitesimal =>
    obtain ⟨n, h⟩ := limit_stable₂ ht ta tb hA hB (by simp) (by simp)
    have one : ∀ n, limit m x pt k (n + 1) (Expr.one : Expr F) = .ok (.normal Expr.one) := fun n => limit_ofNum ..
    have hone : (Expr.one : Expr F).numAggregate m = .ok Expr.one := numAggregate_ofNum ..
    have d1 : limit m x pt k (n + 2) (a.div b) = .ok .infinitesimal := by
      rw [limit_div]
      obtain ⟨h1, h2⟩ := h (n + 1) (by omega)
      simp [divLoop, h1, h2, LimitExpression.div, finish]
    have d2 : limit m x pt k (n + 3) ((a.div b).add Expr.one) = .ok (.normal Expr.one) := by
      rw [limit_add]
      simp [addBody, d1, one, LimitExpression.add, finish, hone]
    have d3 : limit m x pt k (n + 3) (Expr.one.div b) = .ok .infinitesimal := by
      rw [limit_div]
      obtain ⟨-, h2⟩ := h (n + 2) (by omega)
      simp [divLoop, one, h2, LimitExpression.div, finish]
    have d4 : limit m x pt k (n + 4) (((a.div b).add Expr.one).div (Expr.one.div b)) = .ok .infinity := by
      rw [limit_div]
      simp [divLoop, d2, d3, LimitExpression.div, finish, show (Expr.one : Expr F).isZero = false from rfl]
    refine ⟨n + 5, ?_⟩
    rw [limit_add]
    obtain ⟨h1, h2⟩ := h (n + 4) (by omega)
    simp [addBody, h1, h2, LimitExpression.add, d4, finish]
  | normal c => obtain ⟨n, h⟩ := key hA hB; exact ⟨n, h _ rfl⟩
  | boundedFluctuation => obtain ⟨n, h⟩ := key hA hB; exact ⟨n, h _ rfl⟩

/-- C74, sums: Infinitesimal adds nothing, two Normal answers give Normal of the simplified sum, and Infinity on exactly
one side gives Infinity. -/
theorem C74_sum (m : Mode) (a b pt : Expr F) (x : Variable) (k : UInt64) (ha : Built m a) (hb : Built m b)
    (ht : Built m pt) :
    (LimitIs m a x pt k .infinitesimal → LimitIs m b x pt k .infinitesimal → LimitIs m (a.add b) x pt k .infinitesimal) ∧
    (∀ d, LimitIs m a x pt k .infinitesimal → LimitIs m b x pt k (.normal d) → LimitSimplified m (a.add b) x pt k d) ∧
    (∀ c, LimitIs m a x pt k (.normal c) → LimitIs m b x pt k .infinitesimal → LimitSimplified m (a.add b) x pt k c) ∧
    (∀ c d, LimitIs m a x pt k (.normal c) → LimitIs m b x pt k (.normal d) →
      LimitSimplified m (a.add b) x pt k (c.add d)) ∧
    (∀ z, z ≠ .infinity → LimitIs m a x pt k .infinity → LimitIs m b x pt k z → LimitIs m (a.add b) x pt k .infinity) ∧
    (∀ z, z ≠ .infinity → LimitIs m a x pt k z → LimitIs m b x pt k .infinity → LimitIs m (a.add b) x pt k .infinity) := by
  have key : ∀ {A B : LimitExpression F}, LimitIs m a x pt k A → LimitIs m b x pt k B → ∃ n, ∀ z, A.add B = some z →
      limit m x pt k n (a.add b) = finish m z := by
    intro A B hA hB
    obtain ⟨n, h⟩ := limit_stable₂ ht.tree ha.tree hb.tree hA hB (by simp) (by simp)
    refine ⟨n + 1, fun z hz => ?_⟩
    obtain ⟨h1, h2⟩ := h n le_rfl
    rw [limit_add]
    simp [addBody, h1, h2, hz]
  refine ⟨fun hA hB => ?_, fun d hA hB => ?_, fun c hA hB => ?_, fun c d hA hB => ?_, fun z hz hA hB => ?_, fun z hz hA hB => ?_⟩
  · obtain ⟨n, h⟩ := key hA hB; exact ⟨n, h _ rfl⟩
  · obtain ⟨n, h⟩ := key hA hB; exact simplified_of (h _ rfl)
  · obtain ⟨n, h⟩ := key hA hB; exact simplified_of (h _ rfl)
  · obtain ⟨n, h⟩ := key hA hB; exact simplified_of (h _ rfl)
  · obtain ⟨n, h⟩ := key hA hB
    cases z with
    | infinity => exact absurd rfl hz
    | _ => exact ⟨n, h _ rfl⟩
  · exact sum_inf ha.tree hb.tree ht.tree hz hA hB

/-- C74, products: Infinitesimal times a finite answer is Infinitesimal, two Normal answers give Normal of the simplified
product, Infinity times Infinity or Normal is Infinity (even if the Normal is 0). -/
theorem C74_product (m : Mode) (a b pt : Expr F) (x : Variable) (k : UInt64) (ha : Built m a) (hb : Built m b)
    (ht : Built m pt) :
    (∀ z, z ≠ .infinity → LimitIs m a x pt k .infinitesimal → LimitIs m b x pt k z → LimitIs m (a.mul b) x pt k .infinitesimal) ∧
    (∀ z, z ≠ .infinity → LimitIs m a x pt k z → LimitIs m b x pt k .infinitesimal → LimitIs m (a.mul b) x pt k .infinitesimal) ∧
    (∀ c d, LimitIs m a x pt k (.normal c) → LimitIs m b x pt k (.normal d) →
      LimitSimplified m (a.mul b) x pt k (c.mul d)) ∧
    (LimitIs m a x pt k .infinity → LimitIs m b x pt k .infinity → LimitIs m (a.mul b) x pt k .infinity) ∧
    (∀ d, LimitIs m a x pt k .infinity → LimitIs m b x pt k (.normal d) → LimitIs m (a.mul b) x pt k .infinity) ∧
    (∀ c, LimitIs m a x pt k (.normal c) → LimitIs m b x pt k .infinity → LimitIs m (a.mul b) x pt k .infinity) := by
  have key : ∀ {A B : LimitExpression F}, LimitIs m a x pt k A → LimitIs m b x pt k B → ∃ n, ∀ z, A.mul B = some z →
      limit m x pt k n (a.mul b) = finish m z := by
    intro A B hA hB
    obtain ⟨n, h⟩ := limit_stable₂ ht.tree ha.tree hb.tree hA hB (by simp) (by simp)
    refine ⟨n + 1, fun z hz => ?_⟩
    obtain ⟨h1, h2⟩ := h n le_rfl
    rw [limit_mul]
    simp [mulBody, h1, h2, hz]
  refine ⟨fun z hz hA hB => ?_, fun z hz hA hB => ?_, fun c d hA hB => ?_, fun hA hB => ?_, fun d hA hB => ?_, fun c hA hB => ?_⟩
  · obtain ⟨n, h⟩ := key hA hB
    cases z with
    | infinity => exact absurd rfl hz
    | _ => exact ⟨n, h _ rfl⟩
  · obtain ⟨n, h⟩ := key hA hB
    cases z with
    | infinity => exact absurd rfl hz
    | _ => exact ⟨n, h _ rfl⟩
  · obtain ⟨n, h⟩ := key hA hB; exact simplified_of (h _ rfl)
  all_goals obtain ⟨n, h⟩ := key hA hB; exact ⟨n, h _ rfl⟩

/-- C74, quotients: a finite answer over Infinity is Infinitesimal, Infinity over a finite answer is Infinity, two Normal
answers give Normal of the simplified quotient (even if the divisor is 0), Infinitesimal over a Normal that is not the
number 0 is Infinitesimal, and such a Normal over Infinitesimal is Infinity. -/
theorem C74_quotient (m : Mode) (a b pt : Expr F) (x : Variable) (k : UInt64) (ha : Built m a) (hb : Built m b)
    (ht : Built m pt) :
    (∀ z, z ≠ .infinity → LimitIs m a x pt k z → LimitIs m b x pt k .infinity → LimitIs m (a.div b) x pt k .infinitesimal) ∧
    (∀ z, z ≠ .infinity → LimitIs m a x pt k .infinity → LimitIs m b x pt k z → LimitIs m (a.div b) x pt k .infinity) ∧
    (∀ c d, LimitIs m a x pt k (.normal c) → LimitIs m b x pt k (.normal d) →
      LimitSimplified m (a.div b) x pt k (c.div d)) ∧
    (∀ d, d.isZero = false → LimitIs m a x pt k .infinitesimal → LimitIs m b x pt k (.normal d) →
      LimitIs m (a.div b) x pt k .infinitesimal) ∧
    (∀ c, c.isZero = false → LimitIs m a x pt k (.normal c) → LimitIs m b x pt k .infinitesimal →
      LimitIs m (a.div b) x pt k .infinity) := by
  have key : ∀ {A B : LimitExpression F}, LimitIs m a x pt k A → LimitIs m b x pt k B → ∃ n, ∀ z, A.div B = some z →
      limit m x pt k n (a.div b) = finish m z := by
    intro A B hA hB
    obtain ⟨n, h⟩ := limit_stable₂ ht.tree ha.tree hb.tree hA hB (by simp) (by simp)
    refine ⟨n + 1, fun z hz => ?_⟩
    obtain ⟨h1, h2⟩ := h n le_rfl
    rw [limit_div]
    simp [divLoop, h1, h2, hz]
  refine ⟨fun z hz hA hB => ?_, fun z hz hA hB => ?_, fun c d hA hB => ?_, fun d hd hA hB => ?_, fun c hc hA hB => ?_⟩
  · obtain ⟨n, h⟩ := key hA hB
    cases z with
    | infinity => exact absurd rfl hz
    | _ => exact ⟨n, h _ rfl⟩
  · obtain ⟨n, h⟩ := key hA hB
    cases z with
    | infinity => exact absurd rfl hz
    | boundedFluctuation => exact absurd hB (C40_never_fluctuation m b pt x k hb)
    | _ => exact ⟨n, h _ rfl⟩
  · obtain ⟨n, h⟩ := key hA hB; exact simplified_of (h _ rfl)
  · obtain ⟨n, h⟩ := key hA hB; exact ⟨n, h .infinitesimal (by simp [LimitExpression.div, hd])⟩
  · obtain ⟨n, h⟩ := key hA hB; exact ⟨n, h .infinity (by simp [LimitExpression.div, hc])⟩

omit [FloatOps F] in
theorem Indeterminate.div {A B : LimitExpression F} (h : Indeterminate A B) : A.div B = none := by
  rcases h with ⟨rfl, rfl⟩ | ⟨rfl, rfl⟩ | ⟨rfl, d, rfl, hd⟩ | ⟨c, rfl, hc, rfl⟩ <;> simp [LimitExpression.div, *]

/-- C74, L'Hôpital's rule: if the limits of a and b are indeterminate as a quotient and a' and b' are their derivatives,
the limit of a/b is Err for order_try = 0; every answer for a'/b' with order_try = k is the answer for a/b with
order_try = k + 1, and every answer for a/b with order_try = k + 1 is the answer for a'/b' with the same order_try. -/
theorem C74_lhopital (m : Mode) (a b a' b' pt : Expr F) (x : Variable) (k' : UInt64) (ha : Built m a) (hb : Built m b)
    (ht : Built m pt) (A B : LimitExpression F) (hI : Indeterminate A B) (hA : LimitIs m a x pt k' A)
    (hB : LimitIs m b x pt k' B) (da : a.derivative m x = .ok a') (db : b.derivative m x = .ok b') :
    (k' = 0 → LimitErr m (a.div b) x pt k') ∧
    ∀ k : UInt64, k'.toNat = k.toNat + 1 → ∀ z, (LimitIs m (a'.div b') x pt k z → LimitIs m (a.div b) x pt k' z) ∧
      (LimitIs m (a.div b) x pt k' z → LimitIs m (a'.div b') x pt k' z) := by
  have ta' := (der_of_derivative ha.tree da).wf (numClosed_true _) ha.tree
  have tb' := (der_of_derivative hb.tree db).wf (numClosed_true _) hb.tree
  obtain ⟨n0, step⟩ : ∃ n0, ∀ n ≥ n0, ∀ N, divLoop m (limit m x pt k' n) x (N + 1) a b =
      divLoop m (limit m x pt k' n) x N a' b' := by
    obtain ⟨n0, h⟩ := limit_stable₂ ht.tree ha.tree hb.tree hA hB (by simp) (by simp)
    refine ⟨n0, fun n hn N => ?_⟩
    obtain ⟨h1, h2⟩ := h n hn
    simp [divLoop, h1, h2, hI.div, da, db]
  refine ⟨?_, fun k hk z => ⟨?_, ?_⟩⟩
  · rintro rfl
    refine ⟨n0 + 1, ?_⟩
    rw [limit_div, show (0 : UInt64).toNat + 1 = 0 + 1 from rfl, step n0 le_rfl 0]
    rfl
  · rintro ⟨n, hz⟩
    cases n with
    | zero => cases hz
    | succ n =>
      rw [limit_div] at hz
      refine ⟨max n n0 + 1, ?_⟩
      rw [limit_div, step _ (by omega), hk]
      rcases divLoop_le (S := fun b => b = .fuel ∨ b = .err) (m := m) (x := x) (.inl rfl) (j := k.toNat + 1) (.inl rfl)
        (rec := limit m x pt k n) (fun e he => limit_le (k' := k') (n' := max n n0) (.inl rfl) (.inr ⟨by omega, .inr rfl⟩)
          (.inr ⟨by omega, .inl rfl⟩) ht.tree he) ta' tb' with h | ⟨o, rfl | rfl, h⟩
      · rw [← h]; exact hz
      · rw [h] at hz; cases hz
      · rw [h] at hz; cases hz
  · rintro ⟨n, hz⟩
    have hz := limit_stable ht.tree (.div _ _ ha.tree hb.tree) hz (by simp) (max n n0 + 1) (by omega)
    rw [limit_div, step _ (by omega)] at hz
    refine ⟨max n n0 + 1, ?_⟩
    rw [limit_div]
    rcases divLoop_le (S := fun b => b = .err) (m := m) (x := x) (.inl rfl) (j := k'.toNat) (j' := k'.toNat + 1)
      (.inr ⟨by omega, rfl⟩) (rec := limit m x pt k' (max n n0)) (fun e he => .inl rfl) ta' tb' with h | ⟨o, rfl, h⟩
    · rw [← h]; exact hz
    · rw [h] at hz; cases hz

/-- C74, failures: Err and panics of an operand are passed on.  Sums and products look at the right operand first,
quotients at the left. -/
theorem C74_failure (m : Mode) (a b pt : Expr F) (x : Variable) (k : UInt64) (ha : Built m a) (hb : Built m b)
    (ht : Built m pt) (A B : LimitExpression F) :
    (LimitErr m b x pt k → LimitErr m (a.add b) x pt k ∧ LimitErr m (a.mul b) x pt k) ∧
    (LimitPanics m b x pt k → LimitPanics m (a.add b) x pt k ∧ LimitPanics m (a.mul b) x pt k) ∧
    (LimitIs m b x pt k B → LimitErr m a x pt k → LimitErr m (a.add b) x pt k ∧ LimitErr m (a.mul b) x pt k) ∧
    (LimitIs m b x pt k B → LimitPanics m a x pt k → LimitPanics m (a.add b) x pt k ∧ LimitPanics m (a.mul b) x pt k) ∧
    (LimitErr m a x pt k → LimitErr m (a.div b) x pt k) ∧
    (LimitPanics m a x pt k → LimitPanics m (a.div b) x pt k) ∧
    (LimitIs m a x pt k A → LimitErr m b x pt k → LimitErr m (a.div b) x pt k) ∧
    (LimitIs m a x pt k A → LimitPanics m b x pt k → LimitPanics m (a.div b) x pt k) := by
  refine ⟨?_, ?_, ?_, ?_, ?_, ?_, ?_, ?_⟩
  · rintro ⟨n, h⟩
    exact ⟨⟨n + 1, by rw [limit_add]; simp [addBody, h]⟩, ⟨n + 1, by rw [limit_mul]; simp [mulBody, h]⟩⟩
  · rintro ⟨n, h⟩
    exact ⟨⟨n + 1, by rw [limit_add]; simp [addBody, h]⟩, ⟨n + 1, by rw [limit_mul]; simp [mulBody, h]⟩⟩
  · intro hB hA
    obtain ⟨n, h⟩ := limit_stable₂ ht.tree ha.tree hb.tree hA hB (by simp) (by simp)
    obtain ⟨h1, h2⟩ := h n le_rfl
    exact ⟨⟨n + 1, by rw [limit_add]; simp [addBody, h1, h2]⟩, ⟨n + 1, by rw [limit_mul]; simp [mulBody, h1, h2]⟩⟩
  · intro hB hA
    obtain ⟨n, h⟩ := limit_stable₂ ht.tree ha.tree hb.tree hA hB (by simp) (by simp)
    obtain ⟨h1, h2⟩ := h n le_rfl
    exact ⟨⟨n + 1, by rw [limit_add]; simp [addBody, h1, h2]⟩, ⟨n + 1, by rw [limit_mul]; simp [mulBody, h1, h2]⟩⟩
  · rintro ⟨n, h⟩; exact ⟨n + 1, by rw [limit_div]; simp [divLoop, h]⟩
  · rintro ⟨n, h⟩; exact ⟨n + 1, by rw [limit_div]; simp [divLoop, h]⟩
  · intro hA hB
    obtain ⟨n, h⟩ := limit_stable₂ ht.tree ha.tree hb.tree hA hB (by simp) (by simp)
    obtain ⟨h1, h2⟩ := h n le_rfl
    exact ⟨n + 1, by rw [limit_div]; simp [divLoop, h1, h2]⟩
  · intro hA hB
    obtain ⟨n, h⟩ := limit_stable₂ ht.tree ha.tree hb.tree hA hB (by simp) (by simp)
    obtain ⟨h1, h2⟩ := h n le_rfl
    exact ⟨n + 1, by rw [limit_div]; simp [divLoop, h1, h2]⟩

/-- Non-vacuous, in every build and for every order: x is Infinitesimal and 1/x Infinity at 0, so x + 1/x is Infinity,
whichever comes first; sin(x)/x is indeterminate at 0, its derivatives are cos(x) and 1, and the answer for their quotient
is that for sin(x)/x with order_try 1. -/
theorem C74_example (m : Mode) (k : UInt64) :
    let x : Expr F := newVariable "x"
    LimitIs m x ⟨"x"⟩ zero k .infinitesimal ∧ LimitIs m ((ofI64 1).div x) ⟨"x"⟩ zero k .infinity ∧
    LimitIs m (x.add ((ofI64 1).div x)) ⟨"x"⟩ zero k .infinity ∧ LimitIs m (((ofI64 1).div x).add x) ⟨"x"⟩ zero k .infinity ∧
    LimitIs m x.sin ⟨"x"⟩ zero 1 .infinitesimal ∧ x.sin.derivative m ⟨"x"⟩ = .ok x.cos ∧ x.derivative m ⟨"x"⟩ = .ok (ofI64 1) ∧
    ∃ c, LimitIs m (x.cos.div (ofI64 1)) ⟨"x"⟩ zero 0 (.normal c) ∧ LimitIs m (x.sin.div x) ⟨"x"⟩ zero 1 (.normal c) := by
  intro x
  have bx : Built m x := .var _
  have b1 : Built m (ofI64 1 : Expr F) := .num _ (.ofI64 1)
  have b0 : Built m (zero : Expr F) := .num _ (.ofI64 0)
  have bd : Built m ((ofI64 1).div x : Expr F) := .div _ _ b1 bx
  have h1 : LimitIs m x ⟨"x"⟩ zero k .infinitesimal := ⟨1, by cases m <;> krfl⟩
  have h2 : LimitIs m (ofI64 1 : Expr F) ⟨"x"⟩ zero k (.normal (ofI64 1)) := ⟨1, by cases m <;> krfl⟩
  have h3 := (C74_quotient m _ _ _ _ _ b1 bx b0).2.2.2.2 _ rfl h2 h1
  have s1 : LimitIs m x.sin ⟨"x"⟩ zero 1 .infinitesimal := ⟨1, by cases m <;> krfl⟩
  have s2 : LimitIs m x ⟨"x"⟩ zero 1 .infinitesimal := ⟨1, by cases m <;> krfl⟩
  have d1 : x.sin.derivative m ⟨"x"⟩ = .ok x.cos := by cases m <;> krfl
  have d2 : x.derivative m ⟨"x"⟩ = .ok (ofI64 1) := by cases m <;> krfl
  have h4 : LimitIs m (x.cos.div (ofI64 1)) ⟨"x"⟩ zero 0 (.normal (ofNum (SmartNum.ofI64 1))) := ⟨9, by cases m <;> krfl⟩
  refine ⟨h1, h3, (C74_sum m _ _ _ _ _ bx bd b0).2.2.2.2.2 _ (by simp) h1 h3, (C74_sum m _ _ _ _ _ bd bx b0).2.2.2.2.1 _ (by simp) h3 h1,
    s1, d1, d2, _, h4, ?_⟩
  exact (((C74_lhopital m _ _ _ _ _ _ 1 (.sin _ bx) bx b0 _ _ (.inr (.inl ⟨rfl, rfl⟩)) s1 s2 d1 d2).2 0 rfl) _).1 h4

end
end SymRust
