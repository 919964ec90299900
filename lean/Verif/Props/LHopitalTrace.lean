import Verif.Props.LimitAlgebra
import Verif.Props.LimitTerm
import Verif.Proofs.Poly
import Verif.Proofs.Kernel
import Verif.Spec.LHopital
/-! # order_try counts the attempts of L'Hôpital's rule: property C93 -/

namespace SymRust
variable {F : Type} [FloatOps F]
open Expr

namespace LHopitalTrace
variable {m : Mode} {x : Variable} {pt : Expr F} {k : UInt64}

/-- The outcome of `limit`, for every large recursion bound. -/
theorem outcome_exists (ht : Tree pt) (e : Expr F) (he : WF SmartNum.Valid e) :
    ∃ o : LOut (LimitExpression F), o ≠ .fuel ∧ ∃ n0, ∀ n ≥ n0, limit m x pt k n e = o := by
  obtain ⟨n, hn⟩ : End.Ends m x pt k e := End.ends ht he
  exact ⟨_, hn, n, limit_stable ht he.tree rfl hn⟩

variable (m x pt k) in
open Classical in
noncomputable def outcome (e : Expr F) : LOut (LimitExpression F) :=
  if h : ∃ o : LOut (LimitExpression F), o ≠ .fuel ∧ ∃ n0, ∀ n ≥ n0, limit m x pt k n e = o then h.choose else .fuel

theorem outcome_spec (ht : Tree pt) {e : Expr F} (he : WF SmartNum.Valid e) :
    outcome m x pt k e ≠ .fuel ∧ ∃ n0, ∀ n ≥ n0, limit m x pt k n e = outcome m x pt k e := by
  have h := outcome_exists (m := m) (x := x) (k := k) ht e he
  unfold outcome
  rw [dif_pos h]
  exact h.choose_spec

theorem outcome_iff (ht : Tree pt) {e : Expr F} (he : WF SmartNum.Valid e) {o : LOut (LimitExpression F)} (ho : o ≠ .fuel) :
    (∃ n, limit m x pt k n e = o) ↔ outcome m x pt k e = o := by
  obtain ⟨h1, n0, h2⟩ := outcome_spec (m := m) (x := x) (k := k) ht he
  constructor
  · rintro ⟨n, h⟩
    rw [← h2 (max n n0) (by omega)]
    exact limit_stable ht he.tree h ho _ (by omega)
  · rintro h; exact ⟨n0, by rw [h2 n0 le_rfl, h]⟩

theorem derivative_valid {e e' : Expr F} (he : WF SmartNum.Valid e) (h : e.derivative m x = .ok e') : WF SmartNum.Valid e' :=
  (der_of_derivative he.tree h).wf (numClosed_valid m) he

/-- The loop depends on finitely many limits. -/
theorem loop_outcome (ht : Tree pt) (N : Nat) : ∀ {a b : Expr F}, WF SmartNum.Valid a → WF SmartNum.Valid b →
    ∃ n0, ∀ n ≥ n0, divLoop m (limit m x pt k n) x N a b = divLoop m (outcome m x pt k) x N a b := by
  induction N with
  | zero => intro a b _ _; exact ⟨0, fun n _ => rfl⟩
  | succ N ih =>
    intro a b ha hb
    obtain ⟨-, n1, h1⟩ := outcome_spec (m := m) (x := x) (k := k) ht ha
    obtain ⟨-, n2, h2⟩ := outcome_spec (m := m) (x := x) (k := k) ht hb
    cases da : a.derivative m x with
    | ok a' =>
      cases db : b.derivative m x with
      | ok b' =>
        obtain ⟨n3, h3⟩ := ih (derivative_valid ha da) (derivative_valid hb db)
        refine ⟨max n1 (max n2 n3), fun n hn => ?_⟩
        simp only [divLoop, h1 n (by omega), h2 n (by omega), da, db, LOut.ofOut_ok]
        congr 1; funext A
        congr 1; funext B
        cases A.div B with
        | some z => rfl
        | none => exact h3 n (by omega)
      | err e => exact absurd db (derivative_no_err hb.tree e)
      | panic =>
        refine ⟨max n1 n2, fun n hn => ?_⟩
        simp only [divLoop, h1 n (by omega), h2 n (by omega), da, db]
        rfl
    | err e => exact absurd da (derivative_no_err ha.tree e)
    | panic =>
      refine ⟨max n1 n2, fun n hn => ?_⟩
      simp only [divLoop, h1 n (by omega), h2 n (by omega), da]
      rfl

theorem nth_shift {e e' : Expr F} (h : e.derivative m x = .ok e') (i : Nat) : nthDerivative m e x (i + 1) = nthDerivative m e' x i := by
  induction i with
  | zero => simp [nthDerivative, h]
  | succ i ih => rw [nthDerivative, ih]; rfl

theorem nth_panic {e : Expr F} (h : e.derivative m x = .panic) (i : Nat) : nthDerivative m e x (i + 1) = .panic := by
  induction i with
  | zero => simp [nthDerivative, h]
  | succ i ih => rw [nthDerivative, ih]; rfl

theorem limitIs_iff (ht : Tree pt) {e : Expr F} (he : WF SmartNum.Valid e) {A : LimitExpression F} :
    LimitIs m e x pt k A ↔ outcome m x pt k e = .ok A := outcome_iff ht he (by simp)
theorem limitErr_iff (ht : Tree pt) {e : Expr F} (he : WF SmartNum.Valid e) :
    LimitErr m e x pt k ↔ outcome m x pt k e = .err := outcome_iff ht he (by simp)
theorem limitPanics_iff (ht : Tree pt) {e : Expr F} (he : WF SmartNum.Valid e) :
    LimitPanics m e x pt k ↔ outcome m x pt k e = .panic := outcome_iff ht he (by simp)

theorem attempt_zero {a b : Expr F} {A B : LimitExpression F} :
    Attempt m x pt k a b 0 A B ↔ LimitIs m a x pt k A ∧ LimitIs m b x pt k B := by
  constructor
  · rintro ⟨a', b', h1, h2, h⟩; cases h1; cases h2; exact h
  · rintro h; exact ⟨a, b, rfl, rfl, h⟩

theorem attempt_succ {a b a' b' : Expr F} {i : Nat} {A B : LimitExpression F} (da : a.derivative m x = .ok a')
    (db : b.derivative m x = .ok b') : Attempt m x pt k a b (i + 1) A B ↔ Attempt m x pt k a' b' i A B := by
  unfold Attempt
  rw [nth_shift da, nth_shift db]

theorem noneBefore_zero {a b : Expr F} : NoneBefore m x pt k a b 0 := fun _ h => absurd h (by omega)

theorem noneBefore_succ {a b a' b' : Expr F} {i : Nat} (da : a.derivative m x = .ok a') (db : b.derivative m x = .ok b') :
    NoneBefore m x pt k a b (i + 1) ↔
      (∃ A B, (LimitIs m a x pt k A ∧ LimitIs m b x pt k B) ∧ Indeterminate A B) ∧ NoneBefore m x pt k a' b' i := by
  constructor
  · intro h
    refine ⟨?_, fun j hj => ?_⟩
    · obtain ⟨A, B, h1, h2⟩ := h 0 (by omega); exact ⟨A, B, attempt_zero.1 h1, h2⟩
    · obtain ⟨A, B, h1, h2⟩ := h (j + 1) (by omega); exact ⟨A, B, (attempt_succ da db).1 h1, h2⟩
  · rintro ⟨⟨A, B, h1, h2⟩, h⟩ j hj
    cases j with
    | zero => exact ⟨A, B, attempt_zero.2 h1, h2⟩
    | succ j => obtain ⟨A, B, h1, h2⟩ := h j (by omega); exact ⟨A, B, (attempt_succ da db).2 h1, h2⟩

omit [FloatOps F] in
theorem indeterminate_of_div {A B : LimitExpression F} (hA : A ≠ .boundedFluctuation) (hB : B ≠ .boundedFluctuation)
    (h : A.div B = none) : Indeterminate A B := by
  unfold Indeterminate
  cases A <;> cases B <;> simp_all [LimitExpression.div]

omit [FloatOps F] in
theorem quotient_iff {A B w : LimitExpression F} (hA : A ≠ .boundedFluctuation) (hB : B ≠ .boundedFluctuation) :
    Quotient A B w ↔ A.div B = some w := by
  constructor
  · rintro (h | h | h | h | h)
    · cases A <;> simp_all [LimitExpression.div]
    · cases B <;> simp_all [LimitExpression.div]
    all_goals simp_all [LimitExpression.div]
  · intro h
    cases A <;> cases B <;> simp [LimitExpression.div] at h hA hB
    all_goals first
      | (obtain ⟨h1, rfl⟩ := h; first | exact .zero _ h1 | exact .byZero _ h1)
      | (subst h; first | exact .byInfinity _ (by simp) | exact .infinity _ (by simp) | exact .normal _ _)

theorem not_bf {e : Expr F} (he : Tree e) {A : LimitExpression F} (h : LimitIs m e x pt k A) : A ≠ .boundedFluctuation := by
  obtain ⟨n, hn⟩ := h
  exact limit_not_bf n e _ he hn

/-- What a loop of `N` attempts returns. -/
structure Trace (m : Mode) (x : Variable) (pt : Expr F) (k : UInt64) (N : Nat) (a b : Expr F) (o : LOut (LimitExpression F)) : Prop where
  ok : ∀ w, o = .ok w ↔ ∃ i < N, NoneBefore m x pt k a b i ∧ ∃ A B, Attempt m x pt k a b i A B ∧ A.div B = some w
  err : o = .err ↔ (NoneBefore m x pt k a b N ∧ ∃ a' b', nthDerivative m a x N = .ok a' ∧ nthDerivative m b x N = .ok b') ∨
    ∃ i < N, NoneBefore m x pt k a b i ∧ ∃ a' b', nthDerivative m a x i = .ok a' ∧ nthDerivative m b x i = .ok b' ∧
      (LimitErr m a' x pt k ∨ ∃ A, LimitIs m a' x pt k A ∧ LimitErr m b' x pt k)
  panic : o = .panic ↔ ∃ i ≤ N, NoneBefore m x pt k a b i ∧
    ((¬ ∃ a' b', nthDerivative m a x i = .ok a' ∧ nthDerivative m b x i = .ok b') ∨
      i < N ∧ ∃ a' b', nthDerivative m a x i = .ok a' ∧ nthDerivative m b x i = .ok b' ∧
      (LimitPanics m a' x pt k ∨ ∃ A, LimitIs m a' x pt k A ∧ LimitPanics m b' x pt k))

theorem first {a b : Expr F} (ht : Tree pt) (ha : WF SmartNum.Valid a) (hb : WF SmartNum.Valid b) {i : Nat} (hi : 0 < i)
    (h : NoneBefore m x pt k a b i) :
    ∃ A B, outcome m x pt k a = .ok A ∧ outcome m x pt k b = .ok B ∧ A.div B = none := by
  obtain ⟨A, B, h1, h2⟩ := h 0 hi
  obtain ⟨h1, h3⟩ := attempt_zero.1 h1
  exact ⟨A, B, (limitIs_iff ht ha).1 h1, (limitIs_iff ht hb).1 h3, h2.div⟩

theorem zero_of {a b : Expr F} (ht : Tree pt) (ha : WF SmartNum.Valid a) (hb : WF SmartNum.Valid b)
    (hno : ¬ ∃ A B, outcome m x pt k a = .ok A ∧ outcome m x pt k b = .ok B ∧ A.div B = none) {i : Nat}
    (h : NoneBefore m x pt k a b i) : i = 0 := by
  by_contra h0
  exact hno (first ht ha hb (by omega) h)

theorem trace (ht : Tree pt) (N : Nat) : ∀ {a b : Expr F}, WF SmartNum.Valid a → WF SmartNum.Valid b →
    Trace m x pt k N a b (divLoop m (outcome m x pt k) x N a b) := by
  induction N with
  | zero =>
    intro a b ha hb
    refine ⟨fun w => ⟨fun h => (by cases h), fun ⟨i, hi, _⟩ => absurd hi (by omega)⟩, ?_, ?_⟩
    · exact ⟨fun _ => .inl ⟨noneBefore_zero, a, b, rfl, rfl⟩, fun _ => rfl⟩
    · constructor
      · intro h; cases h
      · rintro ⟨i, hi, -, h | ⟨h, -⟩⟩
        · obtain rfl : i = 0 := by omega
          exact absurd ⟨a, b, rfl, rfl⟩ h
        · omega
  | succ N ih =>
    intro a b ha hb
    -- the cases in which the loop ends at the first attempt
    have stop : ∀ o, divLoop m (outcome m x pt k) x (N + 1) a b = o →
        (¬ ∃ A B, outcome m x pt k a = .ok A ∧ outcome m x pt k b = .ok B ∧ A.div B = none) →
        (∀ w, o = .ok w ↔ ∃ A B, outcome m x pt k a = .ok A ∧ outcome m x pt k b = .ok B ∧ A.div B = some w) →
        (o = .err ↔ (outcome m x pt k a = .err ∨ ∃ A, outcome m x pt k a = .ok A ∧ outcome m x pt k b = .err)) →
        (o = .panic ↔ (outcome m x pt k a = .panic ∨ ∃ A, outcome m x pt k a = .ok A ∧ outcome m x pt k b = .panic)) →
        Trace m x pt k (N + 1) a b (divLoop m (outcome m x pt k) x (N + 1) a b) := by
      intro o ho hno h1 h2 h3
      rw [ho]
      refine ⟨fun w => ?_, ?_, ?_⟩
      · rw [h1]
        constructor
        · rintro ⟨A, B, ha', hb', h⟩
          exact ⟨0, by omega, noneBefore_zero, A, B, attempt_zero.2 ⟨(limitIs_iff ht ha).2 ha', (limitIs_iff ht hb).2 hb'⟩, h⟩
        · rintro ⟨i, -, hi, A, B, h, hw⟩
          obtain rfl := zero_of ht ha hb hno hi
          obtain ⟨g1, g2⟩ := attempt_zero.1 h
          exact ⟨A, B, (limitIs_iff ht ha).1 g1, (limitIs_iff ht hb).1 g2, hw⟩
      · rw [h2]
        constructor
        · rintro h
          refine .inr ⟨0, by omega, noneBefore_zero, a, b, rfl, rfl, ?_⟩
          rcases h with h | ⟨A, g, h⟩
          · exact .inl ((limitErr_iff ht ha).2 h)
          · exact .inr ⟨A, (limitIs_iff ht ha).2 g, (limitErr_iff ht hb).2 h⟩
        · rintro (⟨hi, -⟩ | ⟨i, -, hi, a', b', d1, d2, h⟩)
          · exact absurd (zero_of ht ha hb hno hi) (by omega)
          · obtain rfl := zero_of ht ha hb hno hi
            cases d1; cases d2
            rcases h with h | ⟨A, g, h⟩
            · exact .inl ((limitErr_iff ht ha).1 h)
            · exact .inr ⟨A, (limitIs_iff ht ha).1 g, (limitErr_iff ht hb).1 h⟩
      · rw [h3]
        constructor
        · rintro h
          refine ⟨0, by omega, noneBefore_zero, .inr ⟨by omega, a, b, rfl, rfl, ?_⟩⟩
          rcases h with h | ⟨A, g, h⟩
          · exact .inl ((limitPanics_iff ht ha).2 h)
          · exact .inr ⟨A, (limitIs_iff ht ha).2 g, (limitPanics_iff ht hb).2 h⟩
        · rintro ⟨i, -, hi, h⟩
          obtain rfl := zero_of ht ha hb hno hi
          rcases h with h | ⟨-, a', b', d1, d2, h⟩
          · exact absurd ⟨a, b, rfl, rfl⟩ h
          · cases d1; cases d2
            rcases h with h | ⟨A, g, h⟩
            · exact .inl ((limitPanics_iff ht ha).1 h)
            · exact .inr ⟨A, (limitIs_iff ht ha).1 g, (limitPanics_iff ht hb).1 h⟩
    have fa := (outcome_spec (m := m) (x := x) (k := k) ht ha).1
    have fb := (outcome_spec (m := m) (x := x) (k := k) ht hb).1
    cases oa : outcome m x pt k a with
    | fuel => exact absurd oa fa
    | err => exact stop .err (by simp [divLoop, oa]) (by simp [oa]) (by simp [oa]) (by simp [oa]) (by simp [oa])
    | panic => exact stop .panic (by simp [divLoop, oa]) (by simp [oa]) (by simp [oa]) (by simp [oa]) (by simp [oa])
    | ok A =>
      cases ob : outcome m x pt k b with
      | fuel => exact absurd ob fb
      | err => exact stop .err (by simp [divLoop, oa, ob]) (by simp [ob]) (by simp [ob]) (by simp [oa, ob]) (by simp [oa, ob])
      | panic => exact stop .panic (by simp [divLoop, oa, ob]) (by simp [ob]) (by simp [ob]) (by simp [oa, ob]) (by simp [oa, ob])
      | ok B =>
        cases hq : A.div B with
        | some w => exact stop (.ok w) (by simp [divLoop, oa, ob, hq]) (by simp [oa, ob, hq]) (by simp [oa, ob, hq]) (by simp [oa, ob]) (by simp [oa, ob])
        | none =>
          have lA := (limitIs_iff ht ha).2 oa
          have lB := (limitIs_iff ht hb).2 ob
          have hI := indeterminate_of_div (not_bf ha.tree lA) (not_bf hb.tree lB) hq
          have one : NoneBefore m x pt k a b 1 := by
            intro j hj
            obtain rfl : j = 0 := by omega
            exact ⟨A, B, attempt_zero.2 ⟨lA, lB⟩, hI⟩
          have no0 : ∀ {C D w}, Attempt m x pt k a b 0 C D → C.div D = some w → False := by
            intro C D w h hw
            obtain ⟨g1, g2⟩ := attempt_zero.1 h
            obtain rfl : A = C := by have := (limitIs_iff ht ha).1 g1; rw [oa] at this; cases this; rfl
            obtain rfl : B = D := by have := (limitIs_iff ht hb).1 g2; rw [ob] at this; cases this; rfl
            rw [hq] at hw; cases hw
          have bad : (∀ i, nthDerivative m a x (i + 1) = .panic) ∨ (∃ a', a.derivative m x = .ok a') ∧ (∀ i, nthDerivative m b x (i + 1) = .panic) →
              divLoop m (outcome m x pt k) x (N + 1) a b = .panic → Trace m x pt k (N + 1) a b (divLoop m (outcome m x pt k) x (N + 1) a b) := by
            intro hbad ho
            have hn : ∀ i, ¬ ∃ a' b', nthDerivative m a x (i + 1) = .ok a' ∧ nthDerivative m b x (i + 1) = .ok b' := by
              rintro i ⟨a', b', h1, h2⟩
              rcases hbad with h | ⟨-, h⟩
              · rw [h] at h1; cases h1
              · rw [h] at h2; cases h2
            rw [ho]
            refine ⟨fun w => ⟨fun h => (by cases h), ?_⟩, ⟨fun h => (by cases h), ?_⟩, ⟨fun _ => ⟨1, by omega, one, .inl (hn 0)⟩, fun _ => rfl⟩⟩
            · rintro ⟨i, -, hi, C, D, h, hw⟩
              cases i with
              | zero => exact (no0 h hw).elim
              | succ i => obtain ⟨a', b', h1, h2, -⟩ := h; exact absurd ⟨a', b', h1, h2⟩ (hn i)
            · rintro (⟨-, h⟩ | ⟨i, -, hi, a', b', h1, h2, h⟩)
              · exact absurd h (hn N)
              · cases i with
                | succ i => exact absurd ⟨a', b', h1, h2⟩ (hn i)
                | zero =>
                  cases h1; cases h2
                  rcases h with h | ⟨C, -, h⟩
                  · rw [limitErr_iff ht ha, oa] at h; cases h
                  · rw [limitErr_iff ht hb, ob] at h; cases h
          cases da : a.derivative m x with
          | err e => exact absurd da (derivative_no_err ha.tree e)
          | panic => exact bad (.inl (nth_panic da)) (by simp [divLoop, oa, ob, hq, da])
          | ok a1 =>
            cases db : b.derivative m x with
            | err e => exact absurd db (derivative_no_err hb.tree e)
            | panic => exact bad (.inr ⟨⟨_, da⟩, nth_panic db⟩) (by simp [divLoop, oa, ob, hq, da, db])
            | ok b1 =>
              have T := ih (derivative_valid ha da) (derivative_valid hb db)
              have hl : divLoop m (outcome m x pt k) x (N + 1) a b = divLoop m (outcome m x pt k) x N a1 b1 := by
                simp [divLoop, oa, ob, hq, da, db]
              rw [hl]
              have ns : ∀ i, NoneBefore m x pt k a b (i + 1) ↔ NoneBefore m x pt k a1 b1 i := fun i => by
                rw [noneBefore_succ da db]
                exact ⟨fun h => h.2, fun h => ⟨⟨A, B, ⟨lA, lB⟩, hI⟩, h⟩⟩
              refine ⟨fun w => ?_, ?_, ?_⟩
              · rw [T.ok]
                constructor
                · rintro ⟨i, hi, h1, C, D, h2, h3⟩
                  exact ⟨i + 1, by omega, (ns i).2 h1, C, D, (attempt_succ da db).2 h2, h3⟩
                · rintro ⟨i, hi, h1, C, D, h2, h3⟩
                  cases i with
                  | zero => exact (no0 h2 h3).elim
                  | succ i => exact ⟨i, by omega, (ns i).1 h1, C, D, (attempt_succ da db).1 h2, h3⟩
              · rw [T.err, ns, nth_shift da, nth_shift db]
                refine or_congr_right ?_
                constructor
                · rintro ⟨i, hi, h1, a', b', h2, h3, h⟩
                  exact ⟨i + 1, by omega, (ns i).2 h1, a', b', by rw [nth_shift da, h2], by rw [nth_shift db, h3], h⟩
                · rintro ⟨i, hi, h1, a', b', h2, h3, h⟩
                  cases i with
                  | zero =>
                    cases h2; cases h3
                    rcases h with h | ⟨C, -, h⟩
                    · rw [limitErr_iff ht ha, oa] at h; cases h
                    · rw [limitErr_iff ht hb, ob] at h; cases h
                  | succ i => exact ⟨i, by omega, (ns i).1 h1, a', b', by rw [← nth_shift da, h2], by rw [← nth_shift db, h3], h⟩
              · rw [T.panic]
                constructor
                · rintro ⟨i, hi, h1, h⟩
                  refine ⟨i + 1, by omega, (ns i).2 h1, ?_⟩
                  rw [nth_shift da, nth_shift db]
                  exact h.imp id fun ⟨h2, h3⟩ => ⟨by omega, h3⟩
                · rintro ⟨i, hi, h1, h⟩
                  cases i with
                  | zero =>
                    rcases h with h | ⟨-, a', b', h2, h3, h⟩
                    · exact absurd ⟨a, b, rfl, rfl⟩ h
                    · cases h2; cases h3
                      rcases h with h | ⟨C, -, h⟩
                      · rw [limitPanics_iff ht ha, oa] at h; cases h
                      · rw [limitPanics_iff ht hb, ob] at h; cases h
                  | succ i =>
                    refine ⟨i, by omega, (ns i).1 h1, ?_⟩
                    rw [← nth_shift da, ← nth_shift db]
                    exact h.imp id fun ⟨h2, h3⟩ => ⟨by omega, h3⟩

/-- A limit of a quotient is what the loop makes of the limits of the derivatives, simplified. -/
theorem div_outcome (ht : Tree pt) {a b : Expr F} (ha : WF SmartNum.Valid a) (hb : WF SmartNum.Valid b) {o : LOut (LimitExpression F)} (ho : o ≠ .fuel) :
    (∃ n, limit m x pt k n (a.div b) = o) ↔ (divLoop m (outcome m x pt k) x (k.toNat + 1) a b >>= finish m) = o := by
  obtain ⟨n0, h0⟩ := loop_outcome (m := m) (x := x) (k := k) ht (k.toNat + 1) ha hb
  constructor
  · rintro ⟨n, h⟩
    rw [← h0 (max n n0) (by omega), ← limit_div]
    exact limit_stable ht (.div _ _ ha.tree hb.tree) h ho _ (by omega)
  · rintro h; exact ⟨n0 + 1, by rw [limit_div, h0 n0 le_rfl, h]⟩

omit [FloatOps F] in
theorem indeterminate_iff {A B : LimitExpression F} (hA : A ≠ .boundedFluctuation) (hB : B ≠ .boundedFluctuation) :
    A.div B = none ↔ Indeterminate A B := ⟨indeterminate_of_div hA hB, fun h => h.div⟩

theorem finish_ok {w z : LimitExpression F} : finish m w = .ok z ↔ Returned m w z := by
  cases w with
  | normal c =>
    simp only [finish, Returned, LOut.bind_eq_ok, LOut.ofRes_eq_ok]
    constructor
    · rintro ⟨c', h1, h2⟩; cases h2; exact ⟨c', h1, rfl⟩
    · rintro ⟨c', h1, rfl⟩; exact ⟨c', h1, rfl⟩
  | _ => simp only [finish, Returned]; exact ⟨fun h => by cases h; rfl, fun h => by rw [h]⟩

theorem finish_err (w : LimitExpression F) : finish m w ≠ .err := by
  cases w with
  | normal c => simp only [finish]; cases c.numAggregate m <;> simp [LOut.ofRes]
  | _ => simp [finish]

theorem finish_panic {w : LimitExpression F} : finish m w = .panic ↔ ∃ c, w = .normal c ∧ c.numAggregate m = .panic := by
  cases w with
  | normal c => simp only [finish]; cases h : c.numAggregate m <;> simp [LOut.ofRes, h]
  | _ => simp [finish]

end LHopitalTrace

open LHopitalTrace

/-- **C93** (answers). `limit` of `a / b` returns `z` exactly if one of the attempts number 0 to `order_try`, the first
whose limits are not 0/0 or Infinity/Infinity, finds two limits whose quotient is `z` (simplified). -/
theorem C93_answer (m : Mode) (x : Variable) (pt : Expr F) (k : UInt64) (a b : Expr F) (ha : Built m a) (hb : Built m b)
    (hp : Built m pt) (z : LimitExpression F) :
    LimitIs m (a.div b) x pt k z ↔
      ∃ i ≤ k.toNat, NoneBefore m x pt k a b i ∧ ∃ A B w, Attempt m x pt k a b i A B ∧ Quotient A B w ∧ Returned m w z := by
  have va := ha.mono fun _ h => h.valid
  have vb := hb.mono fun _ h => h.valid
  have T := trace (m := m) (x := x) (k := k) hp.tree (k.toNat + 1) va vb
  unfold LimitIs
  rw [div_outcome hp.tree va vb (by simp)]
  simp only [LOut.bind_eq_ok, T.ok, finish_ok]
  constructor
  · rintro ⟨w, ⟨i, hi, h1, A, B, h2, h3⟩, h4⟩
    obtain ⟨a', b', d1, d2, l1, l2⟩ := h2
    exact ⟨i, by omega, h1, A, B, w, ⟨a', b', d1, d2, l1, l2⟩, (quotient_iff
      (not_bf (nthDerivative_tree ha.tree i d1) l1) (not_bf (nthDerivative_tree hb.tree i d2) l2)).2 h3, h4⟩
  · rintro ⟨i, hi, h1, A, B, w, h2, h3, h4⟩
    obtain ⟨a', b', d1, d2, l1, l2⟩ := h2
    exact ⟨w, ⟨i, by omega, h1, A, B, ⟨a', b', d1, d2, l1, l2⟩, (quotient_iff
      (not_bf (nthDerivative_tree ha.tree i d1) l1) (not_bf (nthDerivative_tree hb.tree i d2) l2)).1 h3⟩, h4⟩

/-- **C93** (`Err`). `limit` of `a / b` gives up exactly if all attempts number 0 to `order_try` are 0/0 or
Infinity/Infinity (and the derivatives of order `order_try + 1`, which are computed in vain, do not panic), or if one of
the limits of the first other attempt gives up. -/
theorem C93_err (m : Mode) (x : Variable) (pt : Expr F) (k : UInt64) (a b : Expr F) (ha : Built m a) (hb : Built m b)
    (hp : Built m pt) :
    LimitErr m (a.div b) x pt k ↔
      (NoneBefore m x pt k a b (k.toNat + 1) ∧
        ∃ a' b', nthDerivative m a x (k.toNat + 1) = .ok a' ∧ nthDerivative m b x (k.toNat + 1) = .ok b') ∨
      ∃ i ≤ k.toNat, NoneBefore m x pt k a b i ∧ ∃ a' b', nthDerivative m a x i = .ok a' ∧ nthDerivative m b x i = .ok b' ∧
        (LimitErr m a' x pt k ∨ ∃ A, LimitIs m a' x pt k A ∧ LimitErr m b' x pt k) := by
  have va := ha.mono fun _ h => h.valid
  have vb := hb.mono fun _ h => h.valid
  have T := trace (m := m) (x := x) (k := k) hp.tree (k.toNat + 1) va vb
  have hs : LimitErr m (a.div b) x pt k ↔ divLoop m (outcome m x pt k) x (k.toNat + 1) a b = .err := by
    unfold LimitErr
    rw [div_outcome hp.tree va vb (by simp)]
    cases h : divLoop m (outcome m x pt k) x (k.toNat + 1) a b <;> simp [finish_err]
  rw [hs, T.err]
  exact or_congr_right (exists_congr fun i => and_congr_left fun _ => by omega)

/-- **C93** (panics). `limit` of `a / b` panics exactly if one of the limits of the first attempt that is not 0/0 or
Infinity/Infinity panics, if a derivative needed for an attempt panics (or those of order `order_try + 1`, which are
computed in vain), or if simplifying the quotient c / d of two finite limits does. -/
theorem C93_panic (m : Mode) (x : Variable) (pt : Expr F) (k : UInt64) (a b : Expr F) (ha : Built m a) (hb : Built m b)
    (hp : Built m pt) :
    LimitPanics m (a.div b) x pt k ↔
      (∃ i ≤ k.toNat + 1, NoneBefore m x pt k a b i ∧
        ¬ ∃ a' b', nthDerivative m a x i = .ok a' ∧ nthDerivative m b x i = .ok b') ∨
      (∃ i ≤ k.toNat, NoneBefore m x pt k a b i ∧ ∃ a' b', nthDerivative m a x i = .ok a' ∧ nthDerivative m b x i = .ok b' ∧
        (LimitPanics m a' x pt k ∨ ∃ A, LimitIs m a' x pt k A ∧ LimitPanics m b' x pt k)) ∨
      (∃ i ≤ k.toNat, NoneBefore m x pt k a b i ∧ ∃ c d, Attempt m x pt k a b i (.normal c) (.normal d) ∧
        (c.div d).numAggregate m = .panic) := by
  have va := ha.mono fun _ h => h.valid
  have vb := hb.mono fun _ h => h.valid
  have T := trace (m := m) (x := x) (k := k) hp.tree (k.toNat + 1) va vb
  have hs : LimitPanics m (a.div b) x pt k ↔ divLoop m (outcome m x pt k) x (k.toNat + 1) a b = .panic ∨
      ∃ c, divLoop m (outcome m x pt k) x (k.toNat + 1) a b = .ok (.normal c) ∧ c.numAggregate m = .panic := by
    unfold LimitPanics
    rw [div_outcome hp.tree va vb (by simp)]
    cases h : divLoop m (outcome m x pt k) x (k.toNat + 1) a b <;> simp [finish_panic]
  rw [hs, T.panic]
  simp only [T.ok]
  constructor
  · rintro (⟨i, hi, h1, h | ⟨h2, h⟩⟩ | ⟨c, ⟨i, hi, h1, A, B, h2, h3⟩, h4⟩)
    · exact .inl ⟨i, hi, h1, h⟩
    · exact .inr (.inl ⟨i, by omega, h1, h⟩)
    · refine .inr (.inr ⟨i, by omega, h1, ?_⟩)
      cases A <;> cases B <;> simp [LimitExpression.div] at h3
      exact ⟨_, _, h2, by rw [h3]; exact h4⟩
  · rintro (⟨i, hi, h1, h⟩ | ⟨i, hi, h1, h⟩ | ⟨i, hi, h1, c, d, h2, h3⟩)
    · exact .inl ⟨i, hi, h1, .inl h⟩
    · exact .inl ⟨i, by omega, h1, .inr ⟨by omega, h⟩⟩
    · exact .inr ⟨_, ⟨i, by omega, h1, _, _, h2, rfl⟩, h3⟩

/-- Non-vacuous: sin(x)/x at 0. Attempt 0 is 0/0, attempt 1 finds the limits of cos(x) and 1, so the answer is Normal(1)
with `order_try` 1 and `Err` with `order_try` 0; x/exp(x) panics at its first attempt. -/
theorem C93_instance (m : Mode) :
    let x : Expr F := newVariable "x"
    Built m x.sin ∧ Built m x ∧ Built m (zero : Expr F) ∧
    NoneBefore m ⟨"x"⟩ zero 1 x.sin x 1 ∧ Attempt m ⟨"x"⟩ zero 1 x.sin x 1 (.normal one) (.normal one) ∧
    Quotient (.normal one) (.normal one) (.normal (one.div one : Expr F)) ∧
    Returned m (.normal (one.div one : Expr F)) (.normal one) ∧
    LimitIs m (x.sin.div x) ⟨"x"⟩ zero 1 (.normal one) ∧
    NoneBefore m ⟨"x"⟩ zero 0 x.sin x (0 + 1) ∧ LimitErr m (x.sin.div x) ⟨"x"⟩ zero 0 ∧
    NoneBefore m ⟨"x"⟩ zero 0 x x.exp 0 ∧ LimitIs m x ⟨"x"⟩ zero 0 .infinitesimal ∧ LimitPanics m x.exp ⟨"x"⟩ zero 0 ∧
    LimitPanics m (x.div x.exp) ⟨"x"⟩ zero 0 := by
  intro x
  have bx : Built m x := .var _
  have b0 : Built m (zero : Expr F) := .num _ (.ofI64 0)
  have l1 : ∀ k, LimitIs m x.sin ⟨"x"⟩ zero k .infinitesimal := fun k => ⟨1, by cases m <;> krfl⟩
  have l2 : ∀ k, LimitIs m x ⟨"x"⟩ zero k .infinitesimal := fun k => ⟨1, by cases m <;> krfl⟩
  have l3 : LimitIs m x.cos ⟨"x"⟩ zero 1 (.normal one) := ⟨1, by cases m <;> krfl⟩
  have l4 : LimitIs m (one : Expr F) ⟨"x"⟩ zero 1 (.normal one) := ⟨1, by cases m <;> krfl⟩
  have d1 : nthDerivative m x.sin ⟨"x"⟩ 1 = .ok x.cos := by cases m <;> krfl
  have d2 : nthDerivative m x ⟨"x"⟩ 1 = .ok one := by cases m <;> krfl
  have none : ∀ k, NoneBefore m ⟨"x"⟩ zero k x.sin x 1 := by
    intro k j hj
    obtain rfl : j = 0 := by omega
    exact ⟨_, _, ⟨_, _, rfl, rfl, l1 k, l2 k⟩, .inr (.inl ⟨rfl, rfl⟩)⟩
  have at1 : Attempt m ⟨"x"⟩ zero 1 x.sin x 1 (.normal one) (.normal one) := ⟨_, _, d1, d2, l3, l4⟩
  have r1 : Returned m (.normal (one.div one : Expr F)) (.normal one) := ⟨_, by cases m <;> krfl, rfl⟩
  have lp : LimitPanics m x.exp ⟨"x"⟩ zero 0 := ⟨1, by cases m <;> krfl⟩
  exact ⟨.sin _ bx, bx, b0, none 1, at1, .normal _ _, r1,
    (C93_answer m _ _ _ _ _ (.sin _ bx) bx b0 _).2 ⟨1, by decide, none 1, _, _, _, at1, .normal _ _, r1⟩,
    none 0, (C93_err m _ _ _ _ _ (.sin _ bx) bx b0).2 (.inl ⟨none 0, _, _, d1, d2⟩),
    fun _ h => absurd h (by omega), l2 0, lp,
    (C93_panic m _ _ _ _ _ bx (.exp _ bx) b0).2 (.inr (.inl ⟨0, by omega, fun _ h => absurd h (by omega), _, _, rfl, rfl,
      .inr ⟨_, l2 0, lp⟩⟩))⟩

end SymRust
