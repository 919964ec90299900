import Verif.Proofs.Modes
import Verif.Spec.Toy
/-! # Display by priority, predicates and extraction (C46, C48) -/

namespace SymRust
variable {F : Type} [FloatOps F]
open Expr

/-! ## C46 -/

/-- The text of an operand inside an operator of priority `p`: in parentheses exactly when its root is an
operator of lower priority. -/
def inside (p : Nat) (a : Expr F) (s : String) : String :=
  match a.root with
  | .operand _ => s
  | .operator op => if op.priority < p then "(" ++ s ++ ")" else s

theorem toStringRaw_inside {a : Expr F} (ha : Tree a) {s : String} (h : a.display = .ok s) (p : Nat) :
    a.toStringRaw p = .ok (inside p a s) := by
  unfold Expr.display at h
  obtain ⟨r, c⟩ := a
  cases r with
  | operand o => simpa [toStringRaw, inside, root] using h
  | operator op =>
    unfold toStringRaw at *
    dsimp only at h ⊢
    simp only [Nat.not_lt_zero, if_false] at h
    by_cases hl : c.length = 2
    all_goals
      simp only [hl, if_true, if_false] at h ⊢
      obtain ⟨me, h1, h2⟩ := Res.bind_eq_ok.mp h
      cases h2
      rw [h1]
      simp only [Res.ok_bind, inside, root]
      split_ifs <;> rfl

theorem display_un (op : AstOperator) {a : Expr F} (ha : Tree a) {s : String} (h : a.display = .ok s) :
    (Expr.mk (.operator op) [a]).display = .ok (op.symbol ++ inside op.priority a s) := by
  have := toStringRaw_inside ha h op.priority
  unfold Expr.display
  simp only [toStringRaw, toStringRawList, index, List.length_cons, List.length_nil]
  simp only [List.getElem?_cons_zero, this]
  simp only [Nat.reduceAdd, OfNat.one_ne_ofNat, if_false, Res.bind, Res.ok_bind, Nat.not_lt_zero]
  rfl

theorem display_bin (op : AstOperator) {a b : Expr F} (ha : Tree a) (hb : Tree b) {s t : String}
    (h : a.display = .ok s) (h' : b.display = .ok t) :
    (Expr.mk (.operator op) [a, b]).display =
      .ok (inside op.priority a s ++ " " ++ op.symbol ++ " " ++ inside op.priority b t) := by
  have h1 := toStringRaw_inside ha h op.priority
  have h2 := toStringRaw_inside hb h' op.priority
  unfold Expr.display
  simp only [toStringRaw, toStringRawList, index, List.length_cons, List.length_nil]
  simp only [List.getElem?_cons_zero, List.getElem?_cons_succ, h1, h2]
  simp only [Nat.reduceAdd, if_true, Res.bind, Res.ok_bind, Nat.not_lt_zero, if_false]
  rfl

/-- C46: `to_string` of an expression built with the API never panics. -/
theorem C46_never_panics (m : Mode) (e : Expr F) (he : Built m e) : ∃ s, e.display = .ok s :=
  toStringRaw_total he.tree 0

/-- C46: how each operator is printed, with the numbers that decide about parentheses:
1 unary minus, 2 for + and -, 3 for *, 4 for / and ^, 5 for functions. -/
theorem C46_operators (m : Mode) (a b : Expr F) (ha : Built m a) (hb : Built m b) (s t : String)
    (hs : a.display = .ok s) (ht : b.display = .ok t) :
    a.neg.display = .ok ("-" ++ inside 1 a s) ∧
    (a.add b).display = .ok (inside 2 a s ++ " + " ++ inside 2 b t) ∧
    (a.sub b).display = .ok (inside 2 a s ++ " - " ++ inside 2 b t) ∧
    (a.mul b).display = .ok (inside 3 a s ++ " * " ++ inside 3 b t) ∧
    (a.div b).display = .ok (inside 4 a s ++ " / " ++ inside 4 b t) ∧
    (a.pow b).display = .ok (inside 4 a s ++ " ^ " ++ inside 4 b t) ∧
    a.sin.display = .ok ("sin" ++ inside 5 a s) ∧ a.cos.display = .ok ("cos" ++ inside 5 a s) ∧
    a.exp.display = .ok ("exp" ++ inside 5 a s) ∧ a.ln.display = .ok ("ln" ++ inside 5 a s) := by
  have e : ∀ u v w x : String, u ++ " " ++ v ++ " " ++ w = u ++ (" " ++ v ++ " ") ++ w := by
    intro u v w _; simp [String.append_assoc]
  have bin : ∀ op : AstOperator, (Expr.mk (.operator op) [a, b]).display =
      .ok (inside op.priority a s ++ (" " ++ op.symbol ++ " ") ++ inside op.priority b t) := by
    intro op; rw [display_bin op ha.tree hb.tree hs ht]; simp [String.append_assoc]
  exact ⟨display_un genOpNeg ha.tree hs, bin genOpAdd, bin genOpSub, bin genOpMul, bin genOpDiv, bin genOpPow,
    display_un genOpSin ha.tree hs, display_un genOpCos ha.tree hs, display_un genOpExp ha.tree hs,
    display_un genOpLn ha.tree hs⟩

/-- C46: leaves. -/
theorem C46_leaves (x : Variable) (n : SmartNum F) : (ofVar x : Expr F).display = .ok x.name ∧
    (ofNum n).display = n.display := ⟨rfl, rfl⟩

example : (((newVariable "x" : Expr Unit).add (newVariable "y")).mul ((newVariable "x").pow (ofI64 2)).neg).display =
    .ok "(x + y) * (-x ^ 2)" := by decide +kernel

/-! ## C48 -/

/-- C48: the predicates and extractions on a number leaf agree with the stored number; on a float
`to_rational` answers `None`; `to_variable` answers `None`. -/
theorem C48_number (m : Mode) (n : SmartNum F) :
    (ofNum n).toSmartNum = .ok n ∧ (ofNum n).toRational m = n.toRational m ∧
    (ofNum n).isNum = true ∧ (ofNum n).isOperand = true ∧ (ofNum n).isOperator = false ∧
    (ofNum n).isZero = n.isZero ∧ (ofNum n).isOne = n.isOne ∧ (ofNum n).isPi = n.isPi ∧ (ofNum n).isE = n.isE ∧
    (ofNum n).toVariable = none ∧ (n.toRational m = .ok none ↔ ¬ n.NonFloat) := by
  refine ⟨rfl, rfl, rfl, rfl, rfl, rfl, rfl, rfl, rfl, rfl, ?_⟩
  unfold SmartNum.toRational SmartNum.NonFloat
  cases n.value with
  | integer v => simp only [Res.bind_eq_ok]; constructor
                 · rintro ⟨r, -, h⟩; cases h
                 · intro h; exact absurd (fun f hf => by cases hf) h
  | rational r => constructor
                  · intro h; cases h
                  · intro h; exact absurd (fun f hf => by cases hf) h
  | real f => simp

/-- C48: on a variable all number predicates are false and extraction fails, `to_variable` inverts `from`. -/
theorem C48_variable (m : Mode) (x : Variable) :
    (∃ err, (ofVar x : Expr F).toSmartNum = .error err) ∧ (ofVar x : Expr F).toRational m = .ok none ∧
    (ofVar x : Expr F).isNum = false ∧ (ofVar x : Expr F).isOperand = true ∧ (ofVar x : Expr F).isOperator = false ∧
    (ofVar x : Expr F).isZero = false ∧ (ofVar x : Expr F).isOne = false ∧ (ofVar x : Expr F).isPi = false ∧
    (ofVar x : Expr F).isE = false ∧ (ofVar x : Expr F).toVariable = some x :=
  ⟨⟨_, rfl⟩, rfl, rfl, rfl, rfl, rfl, rfl, rfl, rfl, rfl⟩

/-- C48: on every operator node all predicates but `is_operator` are false and extraction fails. -/
theorem C48_operator (m : Mode) (op : AstOperator) (c : List (Expr F)) :
    (∃ err, (Expr.mk (.operator op) c).toSmartNum = .error err) ∧ (Expr.mk (.operator op) c).toRational m = .ok none ∧
    (Expr.mk (.operator op) c).isNum = false ∧ (Expr.mk (.operator op) c).isOperand = false ∧
    (Expr.mk (.operator op) c).isOperator = true ∧ (Expr.mk (.operator op) c).isZero = false ∧
    (Expr.mk (.operator op) c).isOne = false ∧ (Expr.mk (.operator op) c).isPi = false ∧
    (Expr.mk (.operator op) c).isE = false ∧ (Expr.mk (.operator op) c).toVariable = none :=
  ⟨⟨_, rfl⟩, rfl, rfl, rfl, rfl, rfl, rfl, rfl, rfl, rfl⟩

/-- C48: extraction succeeds exactly on number leaves: an expression from which a number is extracted is
that number. -/
theorem C48_extract_iff (m : Mode) (e : Expr F) (he : Built m e) (n : SmartNum F) :
    e.toSmartNum = .ok n ↔ e = ofNum n := by
  constructor
  · intro h
    have he := he.tree
    cases he <;> first | (cases h; done) | skip
    cases h; rfl
  · rintro rfl; rfl

/-- C48: what a failed extraction reports: a text, and a source (the error of the operand) exactly for variables. -/
theorem C48_error (m : Mode) (e : Expr F) (he : Built m e) (err : ExprIsNotNumError) (h : e.toSmartNum = .error err) :
    err.display = "This expression is not a number!" ∧
    ((∃ s, err.source = some s ∧ s.display = "operand is not a number!") ↔ ∃ x, e = ofVar x) ∧
    (err.source = none ↔ e.isOperator = true) := by
  refine ⟨rfl, ?_⟩
  cases e with
  | mk root child =>
    cases root with
    | operator op =>
      cases h
      exact ⟨⟨(by rintro ⟨s, h, -⟩; cases h), (by rintro ⟨x, h⟩; cases h)⟩, (by simp [isOperator, Expr.root])⟩
    | operand o =>
      cases o with
      | num n => cases h
      | var x =>
        cases h
        have : (Expr.mk (.operand (.var x)) child : Expr F) = ofVar x := by
          have ht := he.tree
          cases ht; rfl
        exact ⟨⟨fun _ => ⟨x, this⟩, fun _ => ⟨_, rfl, rfl⟩⟩, (by simp [isOperator, Expr.root])⟩

/-- C48: and a rational is extracted exactly from the numbers that are not floats. -/
theorem C48_rational_iff (m : Mode) (e : Expr F) (he : Built m e) (r : RationalNum)
    (h : e.toRational m = .ok (some r)) : ∃ n : SmartNum F, e = ofNum n ∧ n.NonFloat ∧ n.toRational m = .ok (some r) := by
  have he := he.tree
  cases he <;> first | (cases h; done) | skip
  rename_i n _
  refine ⟨n, rfl, fun f hf => ?_, h⟩
  change n.toRational m = _ at h
  unfold SmartNum.toRational at h
  rw [hf] at h; cases h

end SymRust
