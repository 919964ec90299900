import Verif.Proofs.Limit
import Verif.Spec.Limit
import Verif.Spec.Toy
/-! # Builds, well-formedness, substitution laws, targets, absent variables
(C07, C08, C19, C28, C29, C31, C32) -/

namespace SymRust
variable {F : Type} [FloatOps F]
open Expr

/-! ## C07: debug and release agree -/

/-- C07, numbers: whatever a debug build returns for an operation on numbers, a release build returns the
same. -/
theorem C07_numbers (x y z : SmartNum F) (v : UInt64) (s : Int64) (n d : UInt64) :
    (x.add .debug y = .ok z → x.add .release y = .ok z) ∧
    (x.sub .debug y = .ok z → x.sub .release y = .ok z) ∧
    (x.mul .debug y = .ok z → x.mul .release y = .ok z) ∧
    (x.div .debug y = .ok z → x.div .release y = .ok z) ∧
    (x.neg .debug = .ok z → x.neg .release = .ok z) ∧
    (SmartNum.ofU64 .debug v = .ok z → SmartNum.ofU64 .release v = .ok z) ∧
    (∀ o : Option (SmartNum F), SmartNum.newRational .debug s n d = .ok o → SmartNum.newRational .release s n d = .ok o) ∧
    (∀ r, x.toRational .debug = .ok r → x.toRational .release = .ok r) := by
  have h := Mode.le_release .debug
  exact ⟨SmartNum.add_mono h x y z, SmartNum.sub_mono h x y z, SmartNum.mul_mono h x y z,
    SmartNum.div_mono h x y z, SmartNum.neg_mono h x z, SmartNum.ofU64_mono h v z,
    SmartNum.newRational_mono h s n d, SmartNum.toRational_mono h x⟩

/-- C07, `num_aggregate`. -/
theorem C07_num_aggregate (e e' : Expr F) (he : Built .debug e) (h : e.numAggregate .debug = .ok e') :
    e.numAggregate .release = .ok e' := numAggregate_mono (Mode.le_release _) he.tree e' h

/-- C07, `derivative`: `Ok` and `Err` results agree. -/
theorem C07_derivative (e : Expr F) (x : Variable) (he : Built .debug e)
    (h : e.derivative .debug x ≠ .panic) : e.derivative .release x = e.derivative .debug x := by
  rcases derivative_mono (Mode.le_release _) he.tree x with h' | h'
  · exact absurd h' h
  · exact h'.symm

/-- C07, `derivative` by an expression. -/
theorem C07_derivative_expr (e t : Expr F) (he : Built .debug e)
    (h : e.derivativeExpr .debug t ≠ .panic) : e.derivativeExpr .release t = e.derivativeExpr .debug t := by
  unfold derivativeExpr at *
  cases hv : t.toVariable with
  | none => rfl
  | some v => rw [hv] at h; exact C07_derivative e v he h

/-- C07, `taylor_expansion`: `Ok` and `Err` results agree (both overloads of the target). -/
theorem C07_taylor (e t a : Expr F) (n : UInt64) (he : Built .debug e) (ha : Built .debug a)
    (h : e.taylorExpansionExpr .debug t a n ≠ .panic) :
    e.taylorExpansionExpr .release t a n = e.taylorExpansionExpr .debug t a n := by
  unfold taylorExpansionExpr at *
  cases hv : t.toVariable with
  | none => rfl
  | some v =>
    rw [hv] at h
    rcases taylorExpansion_mono (Mode.le_release .debug) ha.tree he.tree (x := v) n with h' | h'
    · exact absurd h' h
    · exact h'.symm

/-- C07, `limit`: `Ok` and `Err` results agree. -/
theorem C07_limit (e pt : Expr F) (x : Variable) (k : UInt64) (he : Built .debug e) (ht : Built .debug pt) :
    (∀ z, LimitIs .debug e x pt k z → LimitIs .release e x pt k z) ∧
    (LimitErr .debug e x pt k → LimitErr .release e x pt k) := by
  have key : ∀ n, LOut.Le (fun b => b = .panic) (limit .debug x pt k n e) (limit .release x pt k n e) :=
    fun n => limit_le (S := fun b => b = .panic) (.inr ⟨Mode.le_release _, rfl⟩) (.inl rfl) (.inl rfl)
      ht.tree he.tree
  constructor
  · rintro z ⟨n, hn⟩
    rcases key n with h | ⟨b, rfl, h⟩
    · exact ⟨n, h ▸ hn⟩
    · rw [h] at hn; cases hn
  · rintro ⟨n, hn⟩
    rcases key n with h | ⟨b, rfl, h⟩
    · exact ⟨n, h ▸ hn⟩
    · rw [h] at hn; cases hn

/-- C07 is about runs that return: `y / 10^10` has a derivative in debug only without the division -/
example : (((newVariable "y" : Expr Unit).div (ofI64 10)).derivative .debug ⟨"y"⟩ ≠ .panic) ∧
    ((newVariable "y" : Expr Unit).div (ofI64 10000000000)).derivative .debug ⟨"y"⟩ = .panic ∧
    ((newVariable "y" : Expr Unit).div (ofI64 10000000000)).derivative .release ⟨"y"⟩ ≠ .panic := by
  decide +kernel

/-- C07: the result of a run in which nothing wraps (`strict`: it would stop at any overflow and at any cast that changes
the number) is the result in every build.  So what other properties say of such runs they say of both builds. -/
theorem C07_wrap_free (m : Mode) (e a : Expr F) (he : Tree e) (ha : Tree a) (x : Variable) (n : UInt64) :
    (∀ e', e.numAggregate .strict = .ok e' → e.numAggregate m = .ok e') ∧
    (∀ d, e.derivative .strict x = .ok d → e.derivative m x = .ok d) ∧
    (∀ t, e.taylorExpansion .strict x a n = .ok t → e.taylorExpansion m x a n = .ok t) ∧
    ∀ z, LimitIs .strict e x a n z → LimitIs m e x a n z := by
  refine ⟨fun e' h => numAggregate_mono (Mode.strict_le _) he e' h, fun d h => ?_, fun t h => ?_, ?_⟩
  · rcases derivative_mono (Mode.strict_le m) he x with h' | h'
    · rw [h] at h'; cases h'
    · exact h'.symm.trans h
  · rcases taylorExpansion_mono (Mode.strict_le m) ha he (x := x) n with h' | h'
    · rw [h] at h'; cases h'
    · exact h'.symm.trans h
  · rintro z ⟨j, hj⟩
    rcases limit_le (S := fun b => b = .panic) (m := .strict) (m' := m) (x := x) (n := j) (n' := j)
      (.inr ⟨Mode.strict_le _, rfl⟩) (.inl rfl) (.inl rfl) ha he with h | ⟨b, rfl, h⟩
    · exact ⟨j, h ▸ hj⟩
    · rw [h] at hj; cases hj

/-- C07: the same for operations on numbers. -/
theorem C07_wrap_free_numbers (m : Mode) (x y z : SmartNum F) (v : UInt64) (s : Int64) (n d : UInt64) :
    (x.add .strict y = .ok z → x.add m y = .ok z) ∧ (x.sub .strict y = .ok z → x.sub m y = .ok z) ∧
    (x.mul .strict y = .ok z → x.mul m y = .ok z) ∧ (x.div .strict y = .ok z → x.div m y = .ok z) ∧
    (x.neg .strict = .ok z → x.neg m = .ok z) ∧ (SmartNum.ofU64 .strict v = .ok z → SmartNum.ofU64 m v = .ok z) ∧
    (∀ o : Option (SmartNum F), SmartNum.newRational .strict s n d = .ok o → SmartNum.newRational m s n d = .ok o) ∧
    (∀ r, x.toRational .strict = .ok r → x.toRational m = .ok r) := by
  have h := Mode.strict_le m
  exact ⟨SmartNum.add_mono h x y z, SmartNum.sub_mono h x y z, SmartNum.mul_mono h x y z,
    SmartNum.div_mono h x y z, SmartNum.neg_mono h x z, SmartNum.ofU64_mono h v z,
    SmartNum.newRational_mono h s n d, SmartNum.toRational_mono h x⟩

example : ((newVariable "y" : Expr Unit).div (ofI64 10)).derivative .strict ⟨"y"⟩ ≠ .panic := by decide +kernel

/-! ## C08: release builds do not panic -/

/-- C08: `num_aggregate`, `substitute`, `derivative`, `taylor_expansion` by a variable and `to_string`
return `Ok` on every expression in a release build. -/
theorem C08_release_total (e v a : Expr F) (x : Variable) (n : UInt64) (he : Built .release e)
    (ha : Built .release a) :
    (∃ r, e.numAggregate .release = .ok r) ∧ (∃ r, e.substitute x v = .ok r) ∧
    (∃ r, e.derivative .release x = .ok r) ∧ (∃ r, e.taylorExpansion .release x a n = .ok r) ∧
    (∃ s, e.display = .ok s) := by
  refine ⟨numAggregate_release he.tree, ⟨_, substitute_eq e x v⟩, derivative_release he.tree x, ?_,
    toStringRaw_total he.tree 0⟩
  obtain ⟨s, hs⟩ := taylorState_release ha.tree he.tree (x := x) (n.toNat + 1)
  exact ⟨_, by rw [taylorExpansion_state, hs]; rfl⟩

/-- C08 for targets given as expressions: never a panic (a non-variable is an `Err`). -/
theorem C08_release_total_expr (e t v a : Expr F) (n : UInt64) (he : Built .release e)
    (ha : Built .release a) :
    e.substituteExpr t v ≠ .panic ∧ e.derivativeExpr .release t ≠ .panic ∧
    e.taylorExpansionExpr .release t a n ≠ .panic := by
  unfold substituteExpr derivativeExpr taylorExpansionExpr
  cases t.toVariable with
  | none => simp
  | some x =>
    obtain ⟨-, ⟨r, h1⟩, ⟨s, h2⟩, ⟨u, h3⟩, -⟩ := C08_release_total e v a x n he ha
    simp only [h1, h2, h3]; simp

/-- Numbers in a release build: no operation panics. -/
theorem C08_numbers (x y : SmartNum F) : (∃ z, x.add .release y = .ok z) ∧ (∃ z, x.sub .release y = .ok z) ∧
    (∃ z, x.mul .release y = .ok z) ∧ (∃ z, x.div .release y = .ok z) ∧ ∃ z, x.neg .release = .ok z :=
  SmartNum.release_total x y

/-! ## C19: well-formedness -/

/-- C19: results of `num_aggregate`, `substitute` and `derivative` are expressions that the public
constructors can build, from reachable numbers. -/
theorem C19_closed (m : Mode) (e v e' : Expr F) (x : Variable) (he : Built m e) (hv : Built m v) :
    (e.numAggregate m = .ok e' → Built m e') ∧ (e.substitute x v = .ok e' → Built m e') ∧
    (e.derivative m x = .ok e' → Built m e') := by
  refine ⟨fun h => (agg_of_numAggregate he.tree h).wf (numClosed_reachable m) he, fun h => ?_,
    fun h => (der_of_derivative he.tree h).wf (numClosed_reachable m) he⟩
  rw [substitute_eq] at h; cases h
  exact WF.replace he hv x

/-- C19: every coefficient, the residual, the variable and the point of an expansion are well-formed. -/
theorem C19_taylor (m : Mode) (e a : Expr F) (x : Variable) (n : UInt64) (he : Built m e) (ha : Built m a)
    (t : PartialExpansion F) (h : e.taylorExpansion m x a n = .ok t) :
    (∀ c ∈ t.coefficient, Built m c) ∧ Built m t.residual ∧ Built m t.of ∧ Built m t.at_ := by
  rw [taylorExpansion_state] at h
  obtain ⟨s, hs, h⟩ := Out.bind_eq_ok.mp h
  cases h
  obtain ⟨h1, h2, -⟩ := taylorState_wf (numClosed_reachable m) (fun v y hy => .ofU64 v y hy) ha he _ hs
  exact ⟨h1, h2, .var _, ha⟩

/-- C19: the expression in a finite limit is well-formed. -/
theorem C19_limit (m : Mode) (e pt : Expr F) (x : Variable) (k : UInt64) (he : Built m e) (ht : Built m pt)
    (z : Expr F) (h : LimitIs m e x pt k (.normal z)) : Built m z := by
  obtain ⟨n, hn⟩ := h
  exact limit_wf (numClosed_reachable m) ht he hn

/-- The operators with one operand: symbol, priority, kind. -/
def unaryOps : List AstOperator :=
  [⟨"-", 1, .neg⟩, ⟨"sin", 5, .sin⟩, ⟨"cos", 5, .cos⟩, ⟨"exp", 5, .exp⟩, ⟨"ln", 5, .ln⟩]
/-- The operators with two operands: symbol, priority, kind. -/
def binaryOps : List AstOperator :=
  [⟨"+", 2, .add⟩, ⟨"-", 2, .sub⟩, ⟨"*", 3, .mul⟩, ⟨"/", 4, .div⟩, ⟨"^", 4, .pow⟩]

/-- What well-formed means, read off the tree: an inner node has one of the ten operators with its symbol,
priority and number of children, a leaf has no children, and the children are again well-formed. -/
theorem C19_meaning (P : SmartNum F → Prop) (r : AstNode F) (c : List (Expr F)) (h : WF P (.mk r c)) :
    (∀ a ∈ c, WF P a) ∧ ((∃ n, r = .operand (.num n) ∧ P n ∧ c = []) ∨ (∃ v, r = .operand (.var v) ∧ c = []) ∨
      (∃ op ∈ unaryOps, r = .operator op ∧ c.length = 1) ∨
      (∃ op ∈ binaryOps, r = .operator op ∧ c.length = 2)) := by
  generalize hx : Expr.mk r c = e at h
  cases h with
  | num n hn => cases hx; exact ⟨by simp, .inl ⟨n, rfl, hn, rfl⟩⟩
  | var v => cases hx; exact ⟨by simp, .inr (.inl ⟨_, rfl, rfl⟩)⟩
  | neg a ha | sin a ha | cos a ha | exp a ha | ln a ha =>
    injection hx with h1 h2; subst h1; subst h2
    exact ⟨by simpa using ha, .inr (.inr (.inl ⟨_, by simp [unaryOps, genOpNeg, genOpSin, genOpCos, genOpExp, genOpLn], rfl, rfl⟩))⟩
  | add a b ha hb | sub a b ha hb | mul a b ha hb | div a b ha hb | pow a b ha hb =>
    injection hx with h1 h2; subst h1; subst h2
    exact ⟨by simpa using ⟨ha, hb⟩, .inr (.inr (.inr ⟨_, by simp [binaryOps, genOpAdd, genOpSub, genOpMul, genOpDiv, genOpPow], rfl, rfl⟩))⟩

/-- a derivative that succeeds on a built expression with every kind of operator -/
example : ∃ e : Expr Unit, Built .debug e ∧ e.derivative .debug ⟨"x"⟩ ≠ .panic ∧ size e = 16 :=
  ⟨((((ofVar ⟨"x"⟩).sin.mul (ofVar ⟨"y"⟩).cos).sub ((ofVar ⟨"x"⟩).exp.div (ofI64 2))).add
    ((ofVar ⟨"x"⟩).ln.pow (ofI64 3)).neg),
    .add _ _ (.sub _ _ (.mul _ _ (.sin _ (.var _)) (.cos _ (.var _))) (.div _ _ (.exp _ (.var _)) (.num _ (.ofI64 2))))
      (.neg _ (.pow _ _ (.ln _ (.var _)) (.num _ (.ofI64 3)))),
    by decide +kernel, by decide +kernel⟩

/-! ## C28: laws of substitution -/

/-- C28: substituting a variable that does not occur, or a variable for itself, changes nothing. -/
theorem C28_trivial (m : Mode) (e v : Expr F) (x : Variable) (he : Built m e) :
    (¬ Occurs x e → e.substitute x v = .ok e) ∧ e.substitute x (ofVar x) = .ok e := by
  rw [substitute_eq, substitute_eq]
  exact ⟨fun h => by rw [replace_of_not_occurs v h], by rw [replace_self he.tree]⟩

/-- C28: the variables of the result. -/
theorem C28_variables (m : Mode) (e v e' : Expr F) (x y : Variable) (_he : Built m e)
    (h : e.substitute x v = .ok e') :
    Occurs y e' ↔ (Occurs y e ∧ y ≠ x) ∨ (Occurs x e ∧ Occurs y v) := by
  rw [substitute_eq] at h; cases h
  rw [occurs_replace]

/-- C28: substitutions of different variables into expressions without those variables commute. -/
theorem C28_commute (m : Mode) (e v w a b c d : Expr F) (x y : Variable) (_he : Built m e) (hxy : x ≠ y)
    (hv : ¬ Occurs y v) (hw : ¬ Occurs x w) (h1 : e.substitute x v = .ok a) (h2 : a.substitute y w = .ok b)
    (h3 : e.substitute y w = .ok c) (h4 : c.substitute x v = .ok d) : b = d := by
  rw [substitute_eq] at h1 h2 h3 h4
  cases h1; cases h2; cases h3; cases h4
  exact replace_comm e hxy hv hw

/-- C28: the size: each of the `count x e` leaves `x` (of size 1) is exchanged for `v`. -/
theorem C28_size (m : Mode) (e v e' : Expr F) (x : Variable) (he : Built m e)
    (h : e.substitute x v = .ok e') : size e' + count x e = size e + count x e * size v := by
  rw [substitute_eq] at h; cases h
  exact size_replace he.tree x v

example : (((newVariable "x" : Expr Unit).add (newVariable "y")).mul (newVariable "x")).substitute ⟨"x"⟩ (newVariable "z").sin
    = .ok (((newVariable "z").sin.add (newVariable "y")).mul (newVariable "z").sin) := by decide +kernel

/-! ## C29: targets -/

/-- An expression is a variable exactly when it was built as one. -/
theorem toVariable_iff (m : Mode) (t : Expr F) (ht : Built m t) (x : Variable) :
    t.toVariable = some x ↔ t = ofVar x := by
  have ht := ht.tree
  constructor
  · intro h
    cases ht <;> first | (cases h; done) | skip
    · cases h; rfl
  · rintro rfl; rfl

/-- C29: with a variable as target the overloads agree with the `Variable` overloads, which never return
`Err`. -/
theorem C29_variable (m : Mode) (e v a : Expr F) (x : Variable) (n : UInt64) (he : Built m e) (ha : Built m a) :
    e.substituteExpr (ofVar x) v = e.substitute x v ∧ e.derivativeExpr m (ofVar x) = e.derivative m x ∧
    e.taylorExpansionExpr m (ofVar x) a n = e.taylorExpansion m x a n ∧
    (∀ err, e.substitute x v ≠ .err err) ∧ (∀ err, e.derivative m x ≠ .err err) ∧
    (∀ err, e.taylorExpansion m x a n ≠ .err err) := by
  refine ⟨rfl, rfl, rfl, ?_, derivative_no_err he.tree, ?_⟩
  · intro err; rw [substitute_eq]; simp
  · intro err h
    rw [taylorExpansion_state] at h
    cases hs : taylorState m e x a (n.toNat + 1) with
    | ok s => rw [hs] at h; cases h
    | panic => rw [hs] at h; cases h
    | err e' => exact taylorState_no_err ha.tree he.tree _ e' hs

/-- C29: with a target that is not a variable all three return `Err` (naming the target), and `limit`
panics. -/
theorem C29_not_variable (m : Mode) (e t v a : Expr F) (n k : UInt64) (f : Nat) (ht : Built m t)
    (h : ∀ x, t ≠ ofVar x) :
    e.substituteExpr t v = .err {} ∧ e.derivativeExpr m t = .err ⟨t⟩ ∧
    e.taylorExpansionExpr m t a n = .err ⟨t, "not a variable"⟩ ∧ limitExpr m t a k f e = .panic := by
  have : t.toVariable = none := by
    cases hv : t.toVariable with
    | none => rfl
    | some x => exact absurd ((toVariable_iff m t ht x).mp hv) (h x)
  simp [substituteExpr, derivativeExpr, taylorExpansionExpr, limitExpr, this]

/-- C29: the texts of these errors; those of derivative and expansion name the target as `to_string` shows it. -/
theorem C29_error_text (m : Mode) (e t v a : Expr F) (n : UInt64) (ht : Built m t) (h : ∀ x, t ≠ ofVar x) (s : String)
    (hs : t.display = .ok s) (se : SubstituteError) (d : DerivativeError F) (te : TaylorExpansionError F)
    (_ : e.substituteExpr t v = .err se)
    (hd : e.derivativeExpr m t = .err d) (hte : e.taylorExpansionExpr m t a n = .err te) :
    se.display = "Cannot perform substitution" ∧ d.display = .ok (s ++ " cannot be used as a variable") ∧
    te.display = .ok ("Cannot expand " ++ s ++ " due to not a variable") := by
  obtain ⟨-, h1, h2, -⟩ := C29_not_variable m e t t a n 0 0 ht h
  rw [h1] at hd
  rw [h2] at hte
  cases hd; cases hte
  have : "Cannot expand " ++ s ++ " due to " ++ "not a variable" = "Cannot expand " ++ s ++ " due to not a variable" := by
    rw [String.append_assoc]; rfl
  simp only [DerivativeError.display, TaylorExpansionError.display, hs, ← this]
  exact ⟨rfl, rfl, rfl⟩

example : Built (F := F) .debug (ofI64 3) ∧ ∀ x, (ofI64 3 : Expr F) ≠ ofVar x :=
  ⟨.num _ (.ofI64 3), fun x h => by cases h⟩

/-! ## C31, C32: variables of derivatives -/

/-- C31: the derivative by a variable that does not occur is the literal 0. -/
theorem C31_absent_zero (m : Mode) (e e' : Expr F) (x : Variable) (he : Built m e) (hx : ¬ Occurs x e)
    (h : e.derivative m x = .ok e') : e' = ofI64 0 := derivative_absent he.tree hx h

/-- C32: every variable of the derivative occurs in the expression. -/
theorem C32_no_new_variables (m : Mode) (e e' : Expr F) (x y : Variable) (he : Built m e)
    (h : e.derivative m x = .ok e') (hy : Occurs y e') : Occurs y e :=
  (der_of_derivative he.tree h).occurs hy

/-- `sin(y)^y / 7` does not contain `x`, and its derivative by `x` is computed -/
example : (((newVariable "y" : Expr Unit).sin.pow (newVariable "y")).div (ofI64 7)).derivative .debug ⟨"x"⟩
    = .ok (ofI64 0) := by decide +kernel

end SymRust
