import Verif.Proofs.Deriv
import Verif.Proofs.Subst
import Verif.Model.Taylor
/-! Refinement between build modes, and totality of release builds. -/

namespace SymRust
variable {F : Type} [FloatOps F]
open Expr

/-! ### num_aggregate -/

section
variable {m m' : Mode} (h : m.Le m')
include h

theorem negEvalRule_mono (a : Expr F) : (negEvalRule m [.ok a]).Le (negEvalRule m' [.ok a]) := by
  unfold negEvalRule
  simp only [pop_one, Res.ok_bind]
  split
  · exact (Res.Le.refl _).bind fun n => (SmartNum.neg_mono h n).bind fun _ => Res.Le.refl _
  · exact Res.Le.refl _
theorem addEvalRule_mono (a b : Expr F) : (addEvalRule m [.ok a, .ok b]).Le (addEvalRule m' [.ok a, .ok b]) := by
  unfold addEvalRule
  simp only [pop_one, pop_two, Res.ok_bind]
  split
  · exact (Res.Le.refl _).bind fun n => (Res.Le.refl _).bind fun k =>
      (SmartNum.add_mono h n k).bind fun _ => Res.Le.refl _
  · exact Res.Le.refl _
theorem subEvalRule_mono (a b : Expr F) : (subEvalRule m [.ok a, .ok b]).Le (subEvalRule m' [.ok a, .ok b]) := by
  unfold subEvalRule
  simp only [pop_one, pop_two, Res.ok_bind]
  split
  · exact (Res.Le.refl _).bind fun n => (Res.Le.refl _).bind fun k =>
      (SmartNum.sub_mono h n k).bind fun _ => Res.Le.refl _
  · exact Res.Le.refl _
theorem mulEvalRule_mono (a b : Expr F) : (mulEvalRule m [.ok a, .ok b]).Le (mulEvalRule m' [.ok a, .ok b]) := by
  unfold mulEvalRule
  simp only [pop_one, pop_two, Res.ok_bind]
  split
  · exact (Res.Le.refl _).bind fun n => (Res.Le.refl _).bind fun k =>
      (SmartNum.mul_mono h n k).bind fun _ => Res.Le.refl _
  · exact Res.Le.refl _
theorem divEvalRule_mono (a b : Expr F) : (divEvalRule m [.ok a, .ok b]).Le (divEvalRule m' [.ok a, .ok b]) := by
  unfold divEvalRule
  simp only [pop_one, pop_two, Res.ok_bind]
  split
  · exact (Res.Le.refl _).bind fun n => (Res.Le.refl _).bind fun k =>
      (SmartNum.div_mono h n k).bind fun _ => Res.Le.refl _
  · exact Res.Le.refl _

theorem numAggregate_mono {e : Expr F} (he : Tree e) : (e.numAggregate m).Le (e.numAggregate m') := by
  induction he with
  | num n _ => rw [numAggregate_ofNum, numAggregate_ofNum]; exact Res.Le.refl _
  | var v => rw [numAggregate_ofVar, numAggregate_ofVar]; exact Res.Le.refl _
  | neg a _ ih =>
    rw [numAggregate_neg, numAggregate_neg, negEvalRule_bind, negEvalRule_bind (m := m')]
    exact ih.bind fun a => negEvalRule_mono h a
  | sin a _ ih =>
    rw [numAggregate_sin, numAggregate_sin, sinEvalRule_bind, sinEvalRule_bind (numAggregate m' a)]
    exact ih.bind fun a => Res.Le.refl _
  | cos a _ ih =>
    rw [numAggregate_cos, numAggregate_cos, cosEvalRule_bind, cosEvalRule_bind (numAggregate m' a)]
    exact ih.bind fun a => Res.Le.refl _
  | exp a _ ih =>
    rw [numAggregate_exp, numAggregate_exp, expEvalRule_bind, expEvalRule_bind (numAggregate m' a)]
    exact ih.bind fun a => Res.Le.refl _
  | ln a _ ih =>
    rw [numAggregate_ln, numAggregate_ln, lnEvalRule_bind, lnEvalRule_bind (numAggregate m' a)]
    exact ih.bind fun a => Res.Le.refl _
  | add a b _ _ i j =>
    rw [numAggregate_add, numAggregate_add, addEvalRule_bind, addEvalRule_bind (m := m')]
    exact j.bind fun b => i.bind fun a => addEvalRule_mono h a b
  | sub a b _ _ i j =>
    rw [numAggregate_sub, numAggregate_sub, subEvalRule_bind, subEvalRule_bind (m := m')]
    exact j.bind fun b => i.bind fun a => subEvalRule_mono h a b
  | mul a b _ _ i j =>
    rw [numAggregate_mul, numAggregate_mul, mulEvalRule_bind, mulEvalRule_bind (m := m')]
    exact j.bind fun b => i.bind fun a => mulEvalRule_mono h a b
  | div a b _ _ i j =>
    rw [numAggregate_div, numAggregate_div, divEvalRule_bind, divEvalRule_bind (m := m')]
    exact j.bind fun b => i.bind fun a => divEvalRule_mono h a b
  | pow a b _ _ i j =>
    rw [numAggregate_pow, numAggregate_pow, powEvalRule_bind,
      powEvalRule_bind (numAggregate m' a) (numAggregate m' b)]
    exact j.bind fun b => i.bind fun a => Res.Le.refl _

/-! ### derivative -/

omit [FloatOps F] h in
/-- like `Out.Le.bind`, but the continuation is only compared on actual results -/
theorem Out.Le.bind' {ε α β : Type} {x y : Out ε α} {f g : α → Out ε β} (h : x.Le y)
    (hf : ∀ a, x = .ok a → (f a).Le (g a)) : (x >>= f).Le (y >>= g) := by
  rcases h with h | h
  · subst h; exact .inl rfl
  · subst h
    cases x with
    | ok a => exact hf a rfl
    | err e => exact .inr rfl
    | panic => exact .inr rfl

omit h in
theorem tree_derivative {x : Variable} {e e' : Expr F} (he : Tree e) (h : e.derivative m x = .ok e') :
    Tree e' := (der_of_derivative he h).wf (numClosed_true m) he

omit h in
theorem tree_numAggregate {e e' : Expr F} (he : Tree e) (h : e.numAggregate m = .ok e') :
    Tree e' := (agg_of_numAggregate he h).wf (numClosed_true m) he

theorem derivative_mono {e : Expr F} (he : Tree e) (x : Variable) :
    (e.derivative m x).Le (e.derivative m' x) := by
  have hl : ∀ {e : Expr F}, Tree e → Out.Le ((e.numAggregate m).lift (ε := DerivativeError F))
      (e.numAggregate m').lift := fun he => (numAggregate_mono h he).lift
  induction he with
  | num n _ => rw [derivative_ofNum, derivative_ofNum]; exact Out.Le.refl _
  | var v => rw [derivative_ofVar, derivative_ofVar]; exact Out.Le.refl _
  | neg a ha ih =>
    rw [derivative_neg, derivative_neg]
    exact ih.bind' fun d hd => hl (.neg _ (tree_derivative ha hd))
  | sin a ha ih =>
    rw [derivative_sin, derivative_sin]
    exact ih.bind' fun d hd => hl (.mul _ _ (.cos _ ha) (tree_derivative ha hd))
  | cos a ha ih =>
    rw [derivative_cos, derivative_cos]
    exact ih.bind' fun d hd => hl (.mul _ _ (.neg _ (.sin _ ha)) (tree_derivative ha hd))
  | exp a ha ih =>
    rw [derivative_exp, derivative_exp]
    exact ih.bind' fun d hd => hl (.mul _ _ (tree_derivative ha hd) (.exp _ ha))
  | ln a ha ih =>
    rw [derivative_ln, derivative_ln]
    exact ih.bind' fun d hd => hl (.div _ _ (tree_derivative ha hd) ha)
  | add a b ha hb i j =>
    rw [derivative_add, derivative_add]
    exact j.bind' fun r hr => i.bind' fun l hl' =>
      hl (.add _ _ (tree_derivative ha hl') (tree_derivative hb hr))
  | sub a b ha hb i j =>
    rw [derivative_sub, derivative_sub]
    exact j.bind' fun r hr => i.bind' fun l hl' =>
      hl (.sub _ _ (tree_derivative ha hl') (tree_derivative hb hr))
  | mul a b ha hb i j =>
    rw [derivative_mul, derivative_mul]
    exact j.bind' fun r hr => i.bind' fun l hl' =>
      hl (.add _ _ (.mul _ _ (tree_derivative ha hl') hb) (.mul _ _ ha (tree_derivative hb hr)))
  | div a b ha hb i j =>
    rw [derivative_div, derivative_div]
    exact j.bind' fun r hr => i.bind' fun l hl' =>
      hl (.div _ _ (.sub _ _ (.mul _ _ (tree_derivative ha hl') hb) (.mul _ _ ha (tree_derivative hb hr)))
        (.mul _ _ hb hb))
  | pow a b ha hb i j =>
    rw [derivative_pow, derivative_pow]
    exact j.bind' fun r hr => i.bind' fun l hl' =>
      hl (.mul _ _ (.pow _ _ ha hb) (.add _ _ (.mul _ _ (tree_derivative hb hr) (.ln _ ha))
        (.div _ _ (.mul _ _ hb (tree_derivative ha hl')) ha)))
end

/-! ### Taylor -/

theorem taylorStep_eq (m : Mode) (err : Expr F) (x : Variable) (a : Expr F) (k : UInt64) (r : Expr F)
    (f : SmartNum F) : taylorStep m err x a k r f =
    (SmartNum.ofU64 m (max k 1)).lift >>= fun kk => (f.mul m kk).lift >>= fun f' =>
    ((r.replace x a).numAggregate m).lift >>= fun s => ((s.div (ofNum f')).numAggregate m).lift >>= fun c =>
    (r.derivative m x).mapErr { errExpr := err, reason := "derivative failure" } >>= fun r' =>
      .ok (c, r', f') := by
  unfold taylorStep
  rw [substitute_eq]
  rfl

omit [FloatOps F] in
theorem Out.Le.mapErr {ε ε' α : Type} {x y : Out ε α} (h : x.Le y) (e : ε') :
    (x.mapErr e).Le (y.mapErr e) := by
  rcases h with rfl | rfl
  · exact .inl rfl
  · exact .inr rfl

omit [FloatOps F] in
theorem Out.mapErr_eq_ok {ε ε' α : Type} {x : Out ε α} {e : ε'} {a : α} :
    x.mapErr e = .ok a ↔ x = .ok a := by
  cases x <;> simp [Out.mapErr]

theorem taylorStep_mono {m m' : Mode} (h : m.Le m') {err : Expr F} {x : Variable} {a r : Expr F}
    (ha : Tree a) (hr : Tree r) (k : UInt64) (f : SmartNum F) :
    (taylorStep m err x a k r f).Le (taylorStep m' err x a k r f) := by
  rw [taylorStep_eq, taylorStep_eq]
  refine (SmartNum.ofU64_mono h _).lift.bind fun kk => (SmartNum.mul_mono h f kk).lift.bind fun f' => ?_
  refine (numAggregate_mono h (hr.replace ha x)).lift.bind' fun s hs => ?_
  have ts := tree_numAggregate (hr.replace ha x) (Res.lift_eq_ok.mp hs)
  refine (numAggregate_mono h (.div _ _ ts (.num f' trivial))).lift.bind fun c => ?_
  exact ((derivative_mono h hr x).mapErr _).bind fun r' => Out.Le.refl _

theorem taylorStep_ok {m : Mode} {err : Expr F} {x : Variable} {a r c r' : Expr F} {k : UInt64}
    {f f' : SmartNum F} (h : taylorStep m err x a k r f = .ok (c, r', f')) :
    ∃ kk s, SmartNum.ofU64 m (max k 1) = .ok kk ∧ f.mul m kk = .ok f' ∧
      (r.replace x a).numAggregate m = .ok s ∧ (s.div (ofNum f')).numAggregate m = .ok c ∧
      r.derivative m x = .ok r' := by
  rw [taylorStep_eq] at h
  obtain ⟨kk, h1, h⟩ := Out.bind_eq_ok.mp h
  obtain ⟨f'', h2, h⟩ := Out.bind_eq_ok.mp h
  obtain ⟨s, h3, h⟩ := Out.bind_eq_ok.mp h
  obtain ⟨c', h4, h⟩ := Out.bind_eq_ok.mp h
  obtain ⟨r'', h5, h⟩ := Out.bind_eq_ok.mp h
  cases h
  exact ⟨kk, s, Res.lift_eq_ok.mp h1, Res.lift_eq_ok.mp h2, Res.lift_eq_ok.mp h3, Res.lift_eq_ok.mp h4,
    Out.mapErr_eq_ok.mp h5⟩

theorem taylorStep_wf {m : Mode} {P : SmartNum F → Prop} (hP : NumClosed m P)
    (hU : ∀ v y, SmartNum.ofU64 m v = .ok y → P y)
    {err : Expr F} {x : Variable} {a r c r' : Expr F} {k : UInt64} {f f' : SmartNum F}
    (ha : WF P a) (hr : WF P r) (hf : P f) (h : taylorStep m err x a k r f = .ok (c, r', f')) :
    WF P c ∧ WF P r' ∧ P f' := by
  obtain ⟨kk, s, h1, h2, h3, h4, h5⟩ := taylorStep_ok h
  have pf := hP.mul _ _ _ hf (hU _ _ h1) h2
  have ws := (agg_of_numAggregate (hr.replace ha x).tree h3).wf hP (hr.replace ha x)
  have wd : WF P (s.div (ofNum f')) := .div _ _ ws (.num _ pf)
  exact ⟨(agg_of_numAggregate wd.tree h4).wf hP wd, (der_of_derivative hr.tree h5).wf hP hr, pf⟩

/-- The state after `k` iterations: coefficients, residual, factorial. -/
def taylorState (m : Mode) (e : Expr F) (x : Variable) (a : Expr F) :
    Nat → Out (TaylorExpansionError F) (List (Expr F) × Expr F × SmartNum F)
  | 0 => .ok ([], e, SmartNum.ofI64 1)
  | k + 1 => taylorState m e x a k >>= fun s => taylorStep m e x a (UInt64.ofNat k) s.2.1 s.2.2 >>= fun t =>
      .ok (s.1 ++ [t.1], t.2.1, t.2.2)

omit [FloatOps F] in
theorem Out.bind_assoc {ε α β γ : Type} (x : Out ε α) (f : α → Out ε β) (g : β → Out ε γ) :
    (x >>= f) >>= g = x >>= fun a => f a >>= g := by cases x <;> rfl

theorem taylorLoop_state (m : Mode) (e : Expr F) (x : Variable) (a : Expr F) (n k : Nat) :
    (taylorState m e x a k >>= fun s => taylorLoop m e x a n (UInt64.ofNat k) s.2.1 s.2.2 s.1) =
      taylorState m e x a (k + n) >>= fun s => .ok (s.1, s.2.1) := by
  induction n generalizing k with
  | zero => rfl
  | succ n ih =>
    rw [show k + (n + 1) = (k + 1) + n by omega, ← ih, taylorState, Out.bind_assoc]
    congr 1; funext s
    rw [taylorLoop, Out.bind_assoc]
    congr 1; funext t
    have : UInt64.ofNat k + 1 = UInt64.ofNat (k + 1) := by simp
    rw [this]; rfl

theorem taylorExpansion_state (m : Mode) (e : Expr F) (x : Variable) (a : Expr F) (n : UInt64) :
    e.taylorExpansion m x a n = taylorState m e x a (n.toNat + 1) >>= fun s =>
      .ok { order := n, of := ofVar x, at_ := a, coefficient := s.1, residual := s.2.1 } := by
  have := taylorLoop_state m e x a (n.toNat + 1) 0
  rw [Nat.zero_add] at this
  change taylorLoop m e x a (n.toNat + 1) (UInt64.ofNat 0) e (SmartNum.ofI64 1) [] = _ at this
  unfold taylorExpansion
  rw [show (0 : UInt64) = UInt64.ofNat 0 from rfl, this, Out.bind_assoc]
  rfl

theorem taylorState_wf {m : Mode} {P : SmartNum F → Prop} (hP : NumClosed m P)
    (hU : ∀ v y, SmartNum.ofU64 m v = .ok y → P y)
    {e : Expr F} {x : Variable} {a : Expr F} (ha : WF P a) (he : WF P e) (k : Nat)
    {s : List (Expr F) × Expr F × SmartNum F} (h : taylorState m e x a k = .ok s) :
    (∀ c ∈ s.1, WF P c) ∧ WF P s.2.1 ∧ P s.2.2 := by
  induction k generalizing s with
  | zero => cases h; exact ⟨by simp, he, hP.ofI64 1⟩
  | succ k ih =>
    obtain ⟨s', h1, h⟩ := Out.bind_eq_ok.mp h
    obtain ⟨t, h2, h⟩ := Out.bind_eq_ok.mp h
    cases h
    obtain ⟨i1, i2, i3⟩ := ih h1
    obtain ⟨j1, j2, j3⟩ := taylorStep_wf hP hU ha i2 i3 h2
    refine ⟨?_, j2, j3⟩
    intro c hc
    rcases List.mem_append.mp hc with hc | hc
    · exact i1 c hc
    · rw [List.mem_singleton] at hc; subst hc; exact j1

theorem taylorState_mono {m m' : Mode} (h : m.Le m') {e : Expr F} {x : Variable} {a : Expr F}
    (ha : Tree a) (he : Tree e) (k : Nat) :
    (taylorState m e x a k).Le (taylorState m' e x a k) := by
  induction k with
  | zero => exact Out.Le.refl _
  | succ k ih =>
    refine ih.bind' fun s hs => ?_
    have := (taylorState_wf (numClosed_true m) (fun _ _ _ => trivial) ha he k hs).2.1
    exact (taylorStep_mono h ha this _ _).bind fun _ => Out.Le.refl _

theorem taylorExpansion_mono {m m' : Mode} (h : m.Le m') {e : Expr F} {x : Variable} {a : Expr F}
    (ha : Tree a) (he : Tree e) (n : UInt64) :
    (e.taylorExpansion m x a n).Le (e.taylorExpansion m' x a n) := by
  rw [taylorExpansion_state, taylorExpansion_state]
  exact (taylorState_mono h ha he _).bind fun _ => Out.Le.refl _

/-- `taylor_expansion` with a variable target never returns `Err`. -/
theorem taylorState_no_err {m : Mode} {e : Expr F} {x : Variable} {a : Expr F}
    (ha : Tree a) (he : Tree e) (k : Nat) (err : TaylorExpansionError F) :
    taylorState m e x a k ≠ .err err := by
  have hl : ∀ {α : Type} (r : Res α), r.lift ≠ Out.err err := by intro α r; cases r <;> simp
  induction k with
  | zero => simp [taylorState]
  | succ k ih =>
    rw [taylorState]
    cases hs : taylorState m e x a k with
    | err _ => rw [hs] at ih; simpa using ih
    | panic => simp
    | ok s =>
      have ts := (taylorState_wf (numClosed_true m) (fun _ _ _ => trivial) ha he k hs).2.1
      rw [Out.ok_bind, taylorStep_eq]
      cases SmartNum.ofU64 (F := F) m (max (UInt64.ofNat k) 1) <;> simp
      rename_i kk
      cases s.2.2.mul m kk <;> simp
      cases (s.2.1.replace x a).numAggregate m <;> simp
      rename_i f' u
      cases (u.div (ofNum f')).numAggregate m <;> simp
      have := derivative_no_err (m := m) (x := x) ts
      cases hd : s.2.1.derivative m x <;> simp_all

/-! ### release builds never panic -/

theorem negEvalRule_release {a : Expr F} (ha : Tree a) : ∃ r, negEvalRule .release [.ok a] = .ok r := by
  cases ha with
  | num n _ =>
    obtain ⟨k, hk⟩ := (SmartNum.release_total n n).2.2.2.2
    exact ⟨ofNum k, show (n.neg .release >>= fun z => Res.ok (ofNum z)) = _ by rw [hk]; rfl⟩
  | _ => exact ⟨_, rfl⟩

theorem binRule_release {rule : Mode → List (Res (Expr F)) → Res (Expr F)}
    (op : SmartNum F → SmartNum F → Res (SmartNum F)) (hop : ∀ x y, ∃ z, op x y = .ok z)
    (h1 : ∀ x y, rule .release [.ok (ofNum x), .ok (ofNum y)] = op x y >>= fun z => .ok (ofNum z))
    (h2 : ∀ a b, (a.isNum && b.isNum) = false → ∃ r, rule .release [.ok a, .ok b] = .ok r)
    {a b : Expr F} (ha : Tree a) (hb : Tree b) : ∃ r, rule .release [.ok a, .ok b] = .ok r := by
  cases hn : (a.isNum && b.isNum) with
  | false => exact h2 a b hn
  | true =>
    rw [Bool.and_eq_true] at hn
    obtain ⟨x, rfl⟩ := tree_num ha hn.1
    obtain ⟨y, rfl⟩ := tree_num hb hn.2
    obtain ⟨z, hz⟩ := hop x y
    exact ⟨ofNum z, by rw [h1, hz]; rfl⟩

theorem addEvalRule_release {a b : Expr F} (ha : Tree a) (hb : Tree b) :
    ∃ r, addEvalRule .release [.ok a, .ok b] = .ok r := by
  refine binRule_release (rule := addEvalRule) (SmartNum.add .release) (fun x y => (SmartNum.release_total x y).1)
    (fun x y => rfl) (fun a b h => ?_) ha hb
  unfold addEvalRule; simp only [pop_one, pop_two, Res.ok_bind, h]
  rw [if_neg (by simp)]; split_ifs <;> exact ⟨_, rfl⟩
theorem subEvalRule_release {a b : Expr F} (ha : Tree a) (hb : Tree b) :
    ∃ r, subEvalRule .release [.ok a, .ok b] = .ok r := by
  refine binRule_release (rule := subEvalRule) (SmartNum.sub .release) (fun x y => (SmartNum.release_total x y).2.1)
    (fun x y => rfl) (fun a b h => ?_) ha hb
  unfold subEvalRule; simp only [pop_one, pop_two, Res.ok_bind, h]
  rw [if_neg (by simp)]; split_ifs <;> exact ⟨_, rfl⟩
theorem mulEvalRule_release {a b : Expr F} (ha : Tree a) (hb : Tree b) :
    ∃ r, mulEvalRule .release [.ok a, .ok b] = .ok r := by
  refine binRule_release (rule := mulEvalRule) (SmartNum.mul .release) (fun x y => (SmartNum.release_total x y).2.2.1)
    (fun x y => rfl) (fun a b h => ?_) ha hb
  unfold mulEvalRule; simp only [pop_one, pop_two, Res.ok_bind, h]
  rw [if_neg (by simp)]; split_ifs <;> exact ⟨_, rfl⟩
theorem divEvalRule_release {a b : Expr F} (ha : Tree a) (hb : Tree b) :
    ∃ r, divEvalRule .release [.ok a, .ok b] = .ok r := by
  refine binRule_release (rule := divEvalRule) (SmartNum.div .release)
    (fun x y => (SmartNum.release_total x y).2.2.2.1)
    (fun x y => rfl) (fun a b h => ?_) ha hb
  unfold divEvalRule; simp only [pop_one, pop_two, Res.ok_bind, h]
  rw [if_neg (by simp)]; split_ifs <;> exact ⟨_, rfl⟩
omit [FloatOps F] in
theorem sinEvalRule_total {a : Expr F} (ha : Tree a) : ∃ r, sinEvalRule [.ok a] = .ok r := by
  cases ha with
  | num n _ =>
    by_cases h0 : (n.isZero || n.isPi) = true
    · refine ⟨ofI64 0, ?_⟩
      unfold sinEvalRule; simp only [pop_one, Res.ok_bind, ofNum, root]
      erw [if_pos h0]; rfl
    · refine ⟨(ofNum n).sin, ?_⟩
      unfold sinEvalRule; simp only [pop_one, Res.ok_bind, ofNum, root]
      erw [if_neg h0]; rfl
  | _ => exact ⟨_, rfl⟩
omit [FloatOps F] in
theorem cosEvalRule_total {a : Expr F} (ha : Tree a) : ∃ r, cosEvalRule [.ok a] = .ok r := by
  cases ha with
  | num n _ =>
    by_cases h0 : (n.isZero || n.isPi) = true
    · refine ⟨ofI64 1, ?_⟩
      unfold cosEvalRule; simp only [pop_one, Res.ok_bind, ofNum, root]
      erw [if_pos h0]; rfl
    · refine ⟨(ofNum n).cos, ?_⟩
      unfold cosEvalRule; simp only [pop_one, Res.ok_bind, ofNum, root]
      erw [if_neg h0]; rfl
  | _ => exact ⟨_, rfl⟩
theorem expEvalRule_total {a : Expr F} (ha : Tree a) : ∃ r, expEvalRule [.ok a] = .ok r := by
  cases ha with
  | num n _ =>
    unfold expEvalRule; simp only [pop_one, Res.ok_bind, ofNum, root]
    split_ifs <;> exact ⟨_, rfl⟩
  | _ => exact ⟨_, rfl⟩
omit [FloatOps F] in
theorem lnEvalRule_total {a : Expr F} (ha : Tree a) : ∃ r, lnEvalRule [.ok a] = .ok r := by
  cases ha with
  | num n _ =>
    unfold lnEvalRule; simp only [pop_one, Res.ok_bind, ofNum, root]
    split_ifs <;> exact ⟨_, rfl⟩
  | _ => exact ⟨_, rfl⟩
omit [FloatOps F] in
theorem powEvalRule_total {a b : Expr F} (ha : Tree a) : ∃ r, powEvalRule [.ok a, .ok b] = .ok r := by
  cases ha with
  | num n _ =>
    unfold powEvalRule; simp only [pop_one, pop_two, Res.ok_bind, ofNum, root]
    split_ifs <;> exact ⟨_, rfl⟩
  | _ => exact ⟨_, rfl⟩

theorem numAggregate_release {e : Expr F} (he : Tree e) : ∃ r, e.numAggregate .release = .ok r := by
  induction he with
  | num n _ => exact ⟨_, numAggregate_ofNum _ n⟩
  | var v => exact ⟨_, numAggregate_ofVar _ v⟩
  | neg a ha ih =>
    obtain ⟨r, hr⟩ := ih
    rw [numAggregate_neg, hr]; exact negEvalRule_release (tree_numAggregate ha hr)
  | sin a ha ih =>
    obtain ⟨r, hr⟩ := ih
    rw [numAggregate_sin, hr]; exact sinEvalRule_total (tree_numAggregate ha hr)
  | cos a ha ih =>
    obtain ⟨r, hr⟩ := ih
    rw [numAggregate_cos, hr]; exact cosEvalRule_total (tree_numAggregate ha hr)
  | exp a ha ih =>
    obtain ⟨r, hr⟩ := ih
    rw [numAggregate_exp, hr]; exact expEvalRule_total (tree_numAggregate ha hr)
  | ln a ha ih =>
    obtain ⟨r, hr⟩ := ih
    rw [numAggregate_ln, hr]; exact lnEvalRule_total (tree_numAggregate ha hr)
  | add a b ha hb i j =>
    obtain ⟨r, hr⟩ := i; obtain ⟨s, hs⟩ := j
    rw [numAggregate_add, hr, hs]
    exact addEvalRule_release (tree_numAggregate ha hr) (tree_numAggregate hb hs)
  | sub a b ha hb i j =>
    obtain ⟨r, hr⟩ := i; obtain ⟨s, hs⟩ := j
    rw [numAggregate_sub, hr, hs]
    exact subEvalRule_release (tree_numAggregate ha hr) (tree_numAggregate hb hs)
  | mul a b ha hb i j =>
    obtain ⟨r, hr⟩ := i; obtain ⟨s, hs⟩ := j
    rw [numAggregate_mul, hr, hs]
    exact mulEvalRule_release (tree_numAggregate ha hr) (tree_numAggregate hb hs)
  | div a b ha hb i j =>
    obtain ⟨r, hr⟩ := i; obtain ⟨s, hs⟩ := j
    rw [numAggregate_div, hr, hs]
    exact divEvalRule_release (tree_numAggregate ha hr) (tree_numAggregate hb hs)
  | pow a b ha hb i j =>
    obtain ⟨r, hr⟩ := i; obtain ⟨s, hs⟩ := j
    rw [numAggregate_pow, hr, hs]
    exact powEvalRule_total (tree_numAggregate ha hr)

theorem derivative_release {e : Expr F} (he : Tree e) (x : Variable) :
    ∃ r, e.derivative .release x = .ok r := by
  have hl : ∀ {e : Expr F}, Tree e → ∃ r, ((e.numAggregate .release).lift (ε := DerivativeError F)) = .ok r := by
    intro e he; obtain ⟨r, hr⟩ := numAggregate_release he; exact ⟨r, by rw [hr]; rfl⟩
  induction he with
  | num n _ => exact ⟨_, derivative_ofNum _ x n⟩
  | var v => exact ⟨_, derivative_ofVar _ x v⟩
  | neg a ha ih =>
    obtain ⟨d, hd⟩ := ih
    rw [derivative_neg, hd]; exact hl (.neg _ (tree_derivative ha hd))
  | sin a ha ih =>
    obtain ⟨d, hd⟩ := ih
    rw [derivative_sin, hd]; exact hl (.mul _ _ (.cos _ ha) (tree_derivative ha hd))
  | cos a ha ih =>
    obtain ⟨d, hd⟩ := ih
    rw [derivative_cos, hd]; exact hl (.mul _ _ (.neg _ (.sin _ ha)) (tree_derivative ha hd))
  | exp a ha ih =>
    obtain ⟨d, hd⟩ := ih
    rw [derivative_exp, hd]; exact hl (.mul _ _ (tree_derivative ha hd) (.exp _ ha))
  | ln a ha ih =>
    obtain ⟨d, hd⟩ := ih
    rw [derivative_ln, hd]; exact hl (.div _ _ (tree_derivative ha hd) ha)
  | add a b ha hb i j =>
    obtain ⟨l, hl'⟩ := i; obtain ⟨r, hr⟩ := j
    rw [derivative_add, hr, hl']
    exact hl (.add _ _ (tree_derivative ha hl') (tree_derivative hb hr))
  | sub a b ha hb i j =>
    obtain ⟨l, hl'⟩ := i; obtain ⟨r, hr⟩ := j
    rw [derivative_sub, hr, hl']
    exact hl (.sub _ _ (tree_derivative ha hl') (tree_derivative hb hr))
  | mul a b ha hb i j =>
    obtain ⟨l, hl'⟩ := i; obtain ⟨r, hr⟩ := j
    rw [derivative_mul, hr, hl']
    exact hl (.add _ _ (.mul _ _ (tree_derivative ha hl') hb) (.mul _ _ ha (tree_derivative hb hr)))
  | div a b ha hb i j =>
    obtain ⟨l, hl'⟩ := i; obtain ⟨r, hr⟩ := j
    rw [derivative_div, hr, hl']
    exact hl (.div _ _ (.sub _ _ (.mul _ _ (tree_derivative ha hl') hb) (.mul _ _ ha (tree_derivative hb hr)))
        (.mul _ _ hb hb))
  | pow a b ha hb i j =>
    obtain ⟨l, hl'⟩ := i; obtain ⟨r, hr⟩ := j
    rw [derivative_pow, hr, hl']
    exact hl (.mul _ _ (.pow _ _ ha hb) (.add _ _ (.mul _ _ (tree_derivative hb hr) (.ln _ ha))
        (.div _ _ (.mul _ _ hb (tree_derivative ha hl')) ha)))

theorem taylorState_release {e : Expr F} {x : Variable} {a : Expr F} (ha : Tree a) (he : Tree e) (k : Nat) :
    ∃ s, taylorState .release e x a k = .ok s := by
  induction k with
  | zero => exact ⟨_, rfl⟩
  | succ k ih =>
    obtain ⟨s, hs⟩ := ih
    have ts := (taylorState_wf (numClosed_true .release) (fun _ _ _ => trivial) ha he k hs).2.1
    rw [taylorState, hs, Out.ok_bind, taylorStep_eq]
    obtain ⟨kk, hk⟩ : ∃ kk, SmartNum.ofU64 (F := F) .release (max (UInt64.ofNat k) 1) = .ok kk := ⟨_, rfl⟩
    obtain ⟨f', hf⟩ := (SmartNum.release_total s.2.2 kk).2.2.1
    obtain ⟨u, hu⟩ := numAggregate_release (ts.replace ha x)
    obtain ⟨c, hc⟩ := numAggregate_release (.div _ _ (tree_numAggregate (ts.replace ha x) hu) (.num f' trivial))
    obtain ⟨d, hd⟩ := derivative_release ts x
    rw [hk, Res.lift_ok, Out.ok_bind, hf, Res.lift_ok, Out.ok_bind, hu, Res.lift_ok, Out.ok_bind, hc,
      Res.lift_ok, Out.ok_bind, hd]
    exact ⟨_, rfl⟩

/-! ### display never panics -/

theorem SmartNum.display_total (n : SmartNum F) : ∃ s, n.display = .ok s := by
  unfold SmartNum.display
  split
  · cases h : n.tag <;> simp_all [ConstType.display]
  · exact ⟨_, rfl⟩

theorem toStringRaw_total {e : Expr F} (he : Tree e) (p : Nat) : ∃ s, e.toStringRaw p = .ok s := by
  have un : ∀ (op : AstOperator) (a : Expr F), (∀ p, ∃ s, a.toStringRaw p = .ok s) → ∀ p,
      ∃ s, (Expr.mk (.operator op) [a]).toStringRaw p = .ok s := by
    intro op a ha p
    obtain ⟨s, hs⟩ := ha op.priority
    simp only [toStringRaw, toStringRawList, index, List.length_cons, List.length_nil]
    simp only [List.getElem?_cons_zero, hs]
    simp only [Nat.reduceAdd, OfNat.one_ne_ofNat, if_false, Res.bind, Res.ok_bind]
    split_ifs <;> exact ⟨_, rfl⟩
  have bi : ∀ (op : AstOperator) (a b : Expr F), (∀ p, ∃ s, a.toStringRaw p = .ok s) →
      (∀ p, ∃ s, b.toStringRaw p = .ok s) → ∀ p,
      ∃ s, (Expr.mk (.operator op) [a, b]).toStringRaw p = .ok s := by
    intro op a b ha hb p
    obtain ⟨s, hs⟩ := ha op.priority
    obtain ⟨t, ht⟩ := hb op.priority
    simp only [toStringRaw, toStringRawList, index, List.length_cons, List.length_nil]
    simp only [List.getElem?_cons_zero, List.getElem?_cons_succ, hs, ht]
    simp only [Nat.reduceAdd, if_true, Res.bind, Res.ok_bind]
    split_ifs <;> exact ⟨_, rfl⟩
  induction he generalizing p with
  | num n _ => exact SmartNum.display_total n
  | var v => exact ⟨v.name, rfl⟩
  | neg a _ ih | sin a _ ih | cos a _ ih | exp a _ ih | ln a _ ih => exact un _ a ih p
  | add a b _ _ i j | sub a b _ _ i j | mul a b _ _ i j | div a b _ _ i j | pow a b _ _ i j =>
    exact bi _ a b i j p

end SymRust
