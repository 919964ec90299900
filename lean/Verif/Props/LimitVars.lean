import Verif.Props.LimitShape
import Verif.Props.Taylor
import Verif.Proofs.Kernel
/-! # Which variables occur in limits and expansions: property C86 -/

namespace SymRust
variable {F : Type} [FloatOps F]
open Expr

section
variable {m : Mode} {x : Variable} {pt : Expr F} {k : UInt64} {W : Variable → Prop}

/-- A tree all of whose variables satisfy `W`. -/
def TreeIn (W : Variable → Prop) (e : Expr F) : Prop := Tree e ∧ ∀ v, Occurs v e → W v

/-- The expression in a Normal answer. -/
def LimIn (W : Variable → Prop) : LimitExpression F → Prop
  | .normal c => TreeIn W c
  | _ => True

omit [FloatOps F] in
theorem TreeIn.bin {W : Variable → Prop} {a b : Expr F} (ha : TreeIn W a) (hb : TreeIn W b) :
    TreeIn W (a.add b) ∧ TreeIn W (a.mul b) ∧ TreeIn W (a.div b) := by
  refine ⟨⟨.add _ _ ha.1 hb.1, ?_⟩, ⟨.mul _ _ ha.1 hb.1, ?_⟩, ⟨.div _ _ ha.1 hb.1, ?_⟩⟩
  · intro v h; rw [occurs_add] at h; exact h.elim (ha.2 v) (hb.2 v)
  · intro v h; rw [occurs_mul] at h; exact h.elim (ha.2 v) (hb.2 v)
  · intro v h; rw [occurs_div] at h; exact h.elim (ha.2 v) (hb.2 v)

omit [FloatOps F] in
theorem TreeIn.one : TreeIn W (Expr.one : Expr F) := ⟨.num _ trivial, fun v h => by simp [Expr.one] at h⟩

omit [FloatOps F] in
theorem lim_add {a b z : LimitExpression F} (ha : LimIn W a) (hb : LimIn W b) (h : a.add b = some z) : LimIn W z := by
  cases a <;> cases b <;> simp only [LimitExpression.add, Option.some.injEq, reduceCtorEq] at h <;> subst h <;>
    first | trivial | exact ha | exact hb | exact (ha.bin hb).1

omit [FloatOps F] in
theorem lim_mul {a b z : LimitExpression F} (ha : LimIn W a) (hb : LimIn W b) (h : a.mul b = some z) : LimIn W z := by
  cases a <;> cases b <;> simp only [LimitExpression.mul, Option.some.injEq, reduceCtorEq] at h <;> subst h <;>
    first | trivial | exact ha | exact hb | exact (ha.bin hb).2.1

omit [FloatOps F] in
theorem lim_div {a b z : LimitExpression F} (ha : LimIn W a) (hb : LimIn W b) (h : a.div b = some z) : LimIn W z := by
  cases a <;> cases b <;> simp only [LimitExpression.div] at h <;> (try split_ifs at h) <;>
    first
    | (cases h; done)
    | (cases h; trivial)
    | (cases h; exact (ha.bin hb).2.2)

theorem lim_finish {a z : LimitExpression F} (ha : LimIn W a) (h : finish m a = .ok z) : LimIn W z := by
  cases a with
  | normal e =>
    simp only [finish, LOut.bind_eq_ok, LOut.ofRes_eq_ok] at h
    obtain ⟨c, h1, h⟩ := h
    cases h
    exact ⟨tree_numAggregate ha.1 h1, fun v hv => ha.2 v ((agg_of_numAggregate ha.1 h1).occurs hv)⟩
  | _ => cases h; trivial

/-- The variables of an answer: those of the point, and those allowed in the expression other than `x`. -/
def AnswerVar (x : Variable) (pt : Expr F) (W : Variable → Prop) (v : Variable) : Prop :=
  Occurs v pt ∨ (v ≠ x ∧ W v)

theorem lim_subst {e : Expr F} {z : LimitExpression F} (ht : Tree pt) (he : TreeIn W e)
    (h : substLimit m e x pt = .ok z) : LimIn (AnswerVar x pt W) z := by
  rw [substLimit_eq] at h
  simp only [LOut.bind_eq_ok, LOut.ofRes_eq_ok] at h
  obtain ⟨c, h1, h⟩ := h
  split_ifs at h <;> cases h
  · trivial
  · have tr := WF.replace he.1 ht x
    refine ⟨tree_numAggregate tr h1, fun v hv => ?_⟩
    rcases occurs_replace.1 ((agg_of_numAggregate tr h1).occurs hv) with ⟨h2, h3⟩ | ⟨-, h3⟩
    · exact .inr ⟨h3, he.2 v h2⟩
    · exact .inl h3

theorem TreeIn.derivative {e e' : Expr F} (he : TreeIn W e) (h : e.derivative m x = .ok e') : TreeIn W e' :=
  ⟨tree_derivative he.1 h, fun v hv => he.2 v ((der_of_derivative he.1 h).occurs hv)⟩

theorem lim_divLoop {rec : LimitFn F} {V : Variable → Prop} (hr : ∀ e z, TreeIn W e → rec e = .ok z → LimIn V z)
    (j : Nat) {l r : Expr F} (hl : TreeIn W l) (hr' : TreeIn W r) {z : LimitExpression F}
    (h : divLoop m rec x j l r = .ok z) : LimIn V z := by
  induction j generalizing l r with
  | zero => cases h
  | succ j ih =>
    simp only [divLoop, LOut.bind_eq_ok] at h
    obtain ⟨a, ha, b, hb, h⟩ := h
    cases hd : a.div b with
    | some w =>
      rw [hd] at h; cases h
      exact lim_div (hr _ _ hl ha) (hr _ _ hr' hb) hd
    | none =>
      rw [hd] at h
      simp only [LOut.bind_eq_ok, LOut.ofOut_eq_ok] at h
      obtain ⟨l', h1, r', h2, h⟩ := h
      exact ih (hl.derivative h1) (hr'.derivative h2) h

theorem lim_vars (ht : Tree pt) (n : ℕ) : ∀ (e : Expr F) (z : LimitExpression F), TreeIn W e →
    limit m x pt k n e = .ok z → LimIn (AnswerVar x pt W) z := by
  induction n with
  | zero => intro e z _ h; cases h
  | succ n ih =>
    rintro e z ⟨he, hv⟩ h
    have one : TreeIn W (Expr.one : Expr F) := .one
    cases he with
    | num v hn => rw [limit_ofNum] at h; cases h; exact ⟨.num _ hn, fun w hw => by simp at hw⟩
    | var v =>
      rw [limit_ofVar, LOut.bind_eq_ok] at h
      obtain ⟨a, h1, h⟩ := h
      refine lim_finish ?_ h
      split_ifs at h1 with h2 h3 <;> cases h1
      · trivial
      · exact ⟨ht, fun w hw => .inl hw⟩
      · refine ⟨.var _, fun w hw => .inr ?_⟩
        rw [occurs_ofVar] at hw
        subst hw
        exact ⟨fun h => h2 (by rw [h]), hv _ (by simp)⟩
    | neg a _ => rw [limit_neg] at h; cases h
    | exp a _ => cases h
    | ln a _ => cases h
    | pow a b _ _ => cases h
    | sub a b ha hb =>
      rw [limit_sub, LOut.bind_eq_ok] at h
      obtain ⟨w, h1, h⟩ := h
      refine lim_finish (ih _ _ ⟨.add _ _ ha (.neg _ hb), fun v h => hv v ?_⟩ h1) h
      simpa using h
    | sin a ha =>
      rw [limit_sin, LOut.bind_eq_ok] at h
      obtain ⟨w, h1, h⟩ := h
      refine lim_finish ?_ h
      split_ifs at h1
      · cases h1; trivial
      · exact lim_subst ht ⟨.sin _ ha, hv⟩ h1
    | cos a ha =>
      rw [limit_cos, LOut.bind_eq_ok] at h
      obtain ⟨w, h1, h⟩ := h
      exact lim_finish (lim_subst ht ⟨.cos _ ha, hv⟩ h1) h
    | div a b ha hb =>
      have ha : TreeIn W a := ⟨ha, fun v h => hv v (by simp [h])⟩
      have hb : TreeIn W b := ⟨hb, fun v h => hv v (by simp [h])⟩
      rw [limit_div, LOut.bind_eq_ok] at h
      obtain ⟨w, h1, h⟩ := h
      exact lim_finish (lim_divLoop ih _ ha hb h1) h
    | add a b ha hb =>
      have ha : TreeIn W a := ⟨ha, fun v h => hv v (by simp [h])⟩
      have hb : TreeIn W b := ⟨hb, fun v h => hv v (by simp [h])⟩
      rw [limit_add, LOut.bind_eq_ok] at h
      obtain ⟨w, h1, h⟩ := h
      refine lim_finish ?_ h
      simp only [addBody, LOut.bind_eq_ok] at h1
      obtain ⟨r, hr, l, hl, h1⟩ := h1
      cases hd : l.add r with
      | some w => rw [hd] at h1; cases h1; exact lim_add (ih _ _ ha hl) (ih _ _ hb hr) hd
      | none =>
        rw [hd] at h1
        exact ih _ _ ((((ha.bin hb).2.2.bin one).1.bin (one.bin hb).2.2).2.2) h1
    | mul a b ha hb =>
      have ha : TreeIn W a := ⟨ha, fun v h => hv v (by simp [h])⟩
      have hb : TreeIn W b := ⟨hb, fun v h => hv v (by simp [h])⟩
      rw [limit_mul, LOut.bind_eq_ok] at h
      obtain ⟨w, h1, h⟩ := h
      refine lim_finish ?_ h
      simp only [mulBody, LOut.bind_eq_ok] at h1
      obtain ⟨r, hr, l, hl, h1⟩ := h1
      cases hd : l.mul r with
      | some w => rw [hd] at h1; cases h1; exact lim_mul (ih _ _ ha hl) (ih _ _ hb hr) hd
      | none =>
        rw [hd] at h1; simp only at h1
        split_ifs at h1
        · exact ih _ _ (hb.bin (one.bin ha).2.2).2.2 h1
        · exact ih _ _ (ha.bin (one.bin hb).2.2).2.2 h1

end

/-- C86: every variable of a limit occurs in the point, or in the expression and is not the variable that was sent to the
point. -/
theorem C86_limit (m : Mode) (e pt c : Expr F) (x y : Variable) (k : UInt64) (he : Built m e) (ht : Built m pt)
    (h : LimitIs m e x pt k (.normal c)) (hy : Occurs y c) : Occurs y pt ∨ (y ≠ x ∧ Occurs y e) := by
  obtain ⟨n, h⟩ := h
  exact (lim_vars (W := fun v => Occurs v e) ht.tree n e _ ⟨he.tree, fun _ h => h⟩ h).2 y hy

theorem nthDerivative_in {m : Mode} {W : Variable → Prop} {x : Variable} {e : Expr F} (he : TreeIn W e) (k : ℕ) :
    ∀ {d : Expr F}, nthDerivative m e x k = .ok d → TreeIn W d := by
  induction k with
  | zero => intro d h; cases h; exact he
  | succ k ih =>
    intro d h
    rw [nthDerivative] at h
    obtain ⟨d', h1, h2⟩ := Out.bind_eq_ok.mp h
    exact (ih h1).derivative h2

/-- C86: every variable of a coefficient occurs in the point, or in the expression and is not the variable of the
expansion; every variable of the residual occurs in the expression. -/
theorem C86_taylor (m : Mode) (e a : Expr F) (x y : Variable) (n : UInt64) (t : PartialExpansion F) (he : Built m e)
    (ha : Built m a) (h : e.taylorExpansion m x a n = .ok t) :
    (∀ c ∈ t.coefficient, Occurs y c → Occurs y a ∨ (y ≠ x ∧ Occurs y e)) ∧
    (Occurs y t.residual → Occurs y e) := by
  obtain ⟨h1, -, -, -, h2, h3⟩ := C33_shape m e a x n t h
  have hW : TreeIn (fun v => Occurs v e) e := ⟨he.tree, fun _ h => h⟩
  refine ⟨fun c hc hy => ?_, fun hy => (nthDerivative_in hW _ h2).2 y hy⟩
  obtain ⟨k, hk, hc⟩ := List.mem_iff_getElem.1 hc
  obtain ⟨d, s, v, c', g1, g2, g3, g4, g5, -⟩ := h3 k (by omega)
  rw [List.getElem?_eq_getElem hk, hc] at g5
  cases g5
  have hd := nthDerivative_in hW k g1
  rw [substitute_eq] at g2
  cases g2
  have ts := WF.replace hd.1 ha.tree x
  have tv := tree_numAggregate ts g3
  have := (agg_of_numAggregate (.div _ _ tv (.num _ trivial)) g4).occurs hy
  rw [occurs_div, occurs_ofNum, or_false] at this
  rcases occurs_replace.1 ((agg_of_numAggregate ts g3).occurs this) with ⟨h4, h5⟩ | ⟨-, h4⟩
  · exact .inr ⟨h5, hd.2 y h4⟩
  · exact .inl h4

/-- C86: so the answers do not mention x at all if the point does not. -/
theorem C86_eliminated (m : Mode) (e pt : Expr F) (x : Variable) (he : Built m e) (ht : Built m pt)
    (hx : ¬ Occurs x pt) :
    (∀ k c, LimitIs m e x pt k (.normal c) → ¬ Occurs x c) ∧
    (∀ n t, e.taylorExpansion m x pt n = .ok t → ∀ c ∈ t.coefficient, ¬ Occurs x c) := by
  refine ⟨fun k c h hc => ?_, fun n t h c hc ho => ?_⟩
  · rcases C86_limit m e pt c x x k he ht h hc with h | h
    · exact hx h
    · exact h.1 rfl
  · rcases (C86_taylor m e pt x x n t he ht h).1 c hc ho with h | h
    · exact hx h
    · exact h.1 rfl

/-- C86, non-vacuous: the limit of y * x + cos(x) as x tends to the expression z is y * z + cos(z), in every build and
for every order; the expansion of y * sin(x) at z to order 1 has the coefficients (y * sin(z)) / 1 and
(y * cos(z)) / 1.  y and z occur, x does not. -/
theorem C86_instance (m : Mode) (k : UInt64) :
    let x : Expr F := newVariable "x"
    let y : Expr F := newVariable "y"
    let z : Expr F := newVariable "z"
    Built m ((y.mul x).add x.cos) ∧ Built m (y.mul x.sin) ∧ Built m z ∧ ¬ Occurs ⟨"x"⟩ z ∧
    LimitIs m ((y.mul x).add x.cos) ⟨"x"⟩ z k (.normal ((y.mul z).add z.cos)) ∧
    ∃ t, (y.mul x.sin).taylorExpansion m ⟨"x"⟩ z 1 = .ok t ∧
      t.coefficient = [(y.mul z.sin).div one, (y.mul z.cos).div one] ∧ t.residual = y.mul x.sin.neg := by
  intro x y z
  have bx : Built m x := .var _
  have bY : Built m y := .var _
  have bz : Built m z := .var _
  have hz : z = ofVar ⟨"z"⟩ := rfl
  refine ⟨.add _ _ (.mul _ _ bY bx) (.cos _ bx), .mul _ _ bY (.sin _ bx), bz, by simp [hz], ⟨3, by cases m <;> krfl⟩, ?_⟩
  cases m <;> exact ⟨⟨1, x, z, [(y.mul z.sin).div one, (y.mul z.cos).div one], y.mul x.sin.neg⟩, by krfl, rfl, rfl⟩

end SymRust
