import Verif.Proofs.Deriv
import Verif.Proofs.Subst
import Verif.Model.Taylor
import Verif.Model.Limit
import Verif.Proofs.Limit
/-! The program commutes with any map of the float type that commutes with the float arithmetic. -/

namespace SymRust
variable {F G : Type} [FloatOps F] [FloatOps G]
open Expr

/-- `h` commutes with the arithmetic. -/
structure FloatHom (h : F → G) : Prop where
  add : ∀ a b, h (FloatOps.add a b) = FloatOps.add (h a) (h b)
  sub : ∀ a b, h (FloatOps.sub a b) = FloatOps.sub (h a) (h b)
  mul : ∀ a b, h (FloatOps.mul a b) = FloatOps.mul (h a) (h b)
  div : ∀ a b, h (FloatOps.div a b) = FloatOps.div (h a) (h b)
  neg : ∀ a, h (FloatOps.neg a) = FloatOps.neg (h a)
  ofI64 : ∀ a, h (FloatOps.ofI64 a) = FloatOps.ofI64 a
  ofU64 : ∀ a, h (FloatOps.ofU64 a) = FloatOps.ofU64 a
  pi : h FloatOps.pi = FloatOps.pi
  e : h FloatOps.e = FloatOps.e

section defs
omit [FloatOps F] [FloatOps G]

def Res.map {α β : Type} (f : α → β) : Res α → Res β
  | .ok a => .ok (f a)
  | .panic => .panic
@[simp] theorem Res.map_ok {α β : Type} (f : α → β) (a : α) : Res.map f (.ok a) = .ok (f a) := rfl
@[simp] theorem Res.map_panic {α β : Type} (f : α → β) : Res.map f .panic = .panic := rfl
theorem Res.map_bind {α β γ : Type} (f : β → γ) (r : Res α) (k : α → Res β) :
    Res.map f (r >>= k) = r >>= fun a => Res.map f (k a) := by cases r <;> rfl
theorem Res.bind_map {α β γ : Type} (f : α → β) (r : Res α) (k : β → Res γ) :
    (Res.map f r >>= k) = r >>= fun a => k (f a) := by cases r <;> rfl
theorem Res.map_eq_ok {α β : Type} {f : α → β} {r : Res α} {b : β} : Res.map f r = .ok b ↔ ∃ a, r = .ok a ∧ f a = b := by
  cases r <;> simp

def SmartNumVal.map (h : F → G) : SmartNumVal F → SmartNumVal G
  | .integer v => .integer v
  | .rational v => .rational v
  | .real v => .real (h v)

def SmartNum.map (h : F → G) (x : SmartNum F) : SmartNum G := { value := x.value.map h, tag := x.tag }

mutual
/-- Apply `g` to each number of an expression. -/
def Expr.mapNum (g : SmartNum F → SmartNum G) : Expr F → Expr G
  | .mk (.operand (.num n)) c => .mk (.operand (.num (g n))) (mapNumList g c)
  | .mk (.operand (.var v)) c => .mk (.operand (.var v)) (mapNumList g c)
  | .mk (.operator op) c => .mk (.operator op) (mapNumList g c)
def Expr.mapNumList (g : SmartNum F → SmartNum G) : List (Expr F) → List (Expr G)
  | [] => []
  | e :: es => mapNum g e :: mapNumList g es
end

theorem mapNumList_eq (g : SmartNum F → SmartNum G) (l : List (Expr F)) : mapNumList g l = l.map (mapNum g) := by
  induction l with
  | nil => simp [mapNumList]
  | cons a l ih => simp [mapNumList, ih]

section
variable (g : SmartNum F → SmartNum G) (a b : Expr F)
@[simp] theorem mapNum_ofNum (n : SmartNum F) : (ofNum n).mapNum g = ofNum (g n) := by
  simp [ofNum, mapNum, mapNumList]
@[simp] theorem mapNum_ofVar (v : Variable) : (ofVar v : Expr F).mapNum g = ofVar v := by
  simp [ofVar, newVariable, mapNum, mapNumList]
@[simp] theorem mapNum_neg : a.neg.mapNum g = (a.mapNum g).neg := by simp [Expr.neg, mapNum, mapNumList]
@[simp] theorem mapNum_sin : a.sin.mapNum g = (a.mapNum g).sin := by simp [Expr.sin, mapNum, mapNumList]
@[simp] theorem mapNum_cos : a.cos.mapNum g = (a.mapNum g).cos := by simp [Expr.cos, mapNum, mapNumList]
@[simp] theorem mapNum_exp : a.exp.mapNum g = (a.mapNum g).exp := by simp [Expr.exp, mapNum, mapNumList]
@[simp] theorem mapNum_ln : a.ln.mapNum g = (a.mapNum g).ln := by simp [Expr.ln, mapNum, mapNumList]
@[simp] theorem mapNum_add : (a.add b).mapNum g = (a.mapNum g).add (b.mapNum g) := by
  simp [Expr.add, mapNum, mapNumList]
@[simp] theorem mapNum_sub : (a.sub b).mapNum g = (a.mapNum g).sub (b.mapNum g) := by
  simp [Expr.sub, mapNum, mapNumList]
@[simp] theorem mapNum_mul : (a.mul b).mapNum g = (a.mapNum g).mul (b.mapNum g) := by
  simp [Expr.mul, mapNum, mapNumList]
@[simp] theorem mapNum_div : (a.div b).mapNum g = (a.mapNum g).div (b.mapNum g) := by
  simp [Expr.div, mapNum, mapNumList]
@[simp] theorem mapNum_pow : (a.pow b).mapNum g = (a.mapNum g).pow (b.mapNum g) := by
  simp [Expr.pow, mapNum, mapNumList]
theorem child_mapNum : (a.mapNum g).child = a.child.map (mapNum g) := by
  rcases a with ⟨_ | (_ | _), c⟩ <;> simp [mapNum, Expr.child, mapNumList_eq]
theorem isNum_mapNum : (a.mapNum g).isNum = a.isNum := by
  rcases a with ⟨_ | (_ | _), c⟩ <;> simp [mapNum, isNum, Expr.root, AstOperand.isNum]
end

/-- Apply `h` to each float of an expression. -/
def Expr.map (h : F → G) : Expr F → Expr G := mapNum (SmartNum.map h)

theorem SmartNum.map_ofI64 (h : F → G) (v : Int64) : (SmartNum.ofI64 v : SmartNum F).map h = .ofI64 v := by
  simp [ofI64, ofVal, SmartNumVal.ofI64, SmartNum.map, SmartNumVal.map, SmartNumVal.isOne, SmartNumVal.isZero]
@[simp] theorem Expr.map_ofI64 (h : F → G) (v : Int64) : (Expr.ofI64 v : Expr F).map h = .ofI64 v := by
  rw [Expr.ofI64, Expr.map, mapNum_ofNum, SmartNum.map_ofI64]; rfl

variable (h : F → G)
theorem SmartNumVal.isZero_map (x : SmartNumVal F) : (x.map h).isZero = x.isZero := by cases x <;> rfl
theorem SmartNumVal.isOne_map (x : SmartNumVal F) : (x.map h).isOne = x.isOne := by cases x <;> rfl
@[simp] theorem SmartNum.isZero_map (x : SmartNum F) : (x.map h).isZero = x.isZero := rfl
@[simp] theorem SmartNum.isOne_map (x : SmartNum F) : (x.map h).isOne = x.isOne := rfl
@[simp] theorem SmartNum.isPi_map (x : SmartNum F) : (x.map h).isPi = x.isPi := rfl
@[simp] theorem SmartNum.isE_map (x : SmartNum F) : (x.map h).isE = x.isE := rfl

section
variable (a b : Expr F)
@[simp] theorem map_ofNum (n : SmartNum F) : (ofNum n).map h = ofNum (n.map h) := mapNum_ofNum _ _
@[simp] theorem map_ofVar (v : Variable) : (ofVar v : Expr F).map h = ofVar v := mapNum_ofVar _ _
@[simp] theorem map_neg : a.neg.map h = (a.map h).neg := mapNum_neg _ _
@[simp] theorem map_sin : a.sin.map h = (a.map h).sin := mapNum_sin _ _
@[simp] theorem map_cos : a.cos.map h = (a.map h).cos := mapNum_cos _ _
@[simp] theorem map_exp : a.exp.map h = (a.map h).exp := mapNum_exp _ _
@[simp] theorem map_ln : a.ln.map h = (a.map h).ln := mapNum_ln _ _
@[simp] theorem map_add : (a.add b).map h = (a.map h).add (b.map h) := mapNum_add _ _ _
@[simp] theorem map_sub : (a.sub b).map h = (a.map h).sub (b.map h) := mapNum_sub _ _ _
@[simp] theorem map_mul : (a.mul b).map h = (a.map h).mul (b.map h) := mapNum_mul _ _ _
@[simp] theorem map_div : (a.div b).map h = (a.map h).div (b.map h) := mapNum_div _ _ _
@[simp] theorem map_pow : (a.pow b).map h = (a.map h).pow (b.map h) := mapNum_pow _ _ _
@[simp] theorem isNum_map : (a.map h).isNum = a.isNum := isNum_mapNum _ _
@[simp] theorem isZero_map : (a.map h).isZero = a.isZero := by
  rcases a with ⟨_ | (_ | _), c⟩ <;> simp [Expr.map, mapNum, isZero, Expr.root, AstOperand.isZero]
@[simp] theorem isOne_map : (a.map h).isOne = a.isOne := by
  rcases a with ⟨_ | (_ | _), c⟩ <;> simp [Expr.map, mapNum, isOne, Expr.root, AstOperand.isOne]
@[simp] theorem isPi_map : (a.map h).isPi = a.isPi := by
  rcases a with ⟨_ | (_ | _), c⟩ <;> simp [Expr.map, mapNum, isPi, Expr.root, AstOperand.isPi]
@[simp] theorem isE_map : (a.map h).isE = a.isE := by
  rcases a with ⟨_ | (_ | _), c⟩ <;> simp [Expr.map, mapNum, isE, Expr.root, AstOperand.isE]
theorem numUnwrap_map : (a.map h).numUnwrap = a.numUnwrap.map (SmartNum.map h) := by
  rcases a with ⟨_ | (_ | _), c⟩ <;>
    simp [Expr.map, mapNum, numUnwrap, toSmartNum, Expr.root, AstOperand.toSmartNum]
theorem child_map : (a.map h).child = a.child.map (Expr.map h) := child_mapNum _ _
end

theorem pop_map {α β : Type} (f : α → β) (l : List α) : pop (l.map f) = (pop l).map (Prod.map f (List.map f)) := by
  unfold pop
  rw [List.getLast?_map]
  cases l.getLast? <;> simp [List.map_dropLast]
end defs

variable {h : F → G} (H : FloatHom h)
include H

/-! ### numbers -/

theorem RationalNum.toF64_map (x : RationalNum) : h x.toF64 = x.toF64 := by
  simp [toF64, H.div, H.mul, H.ofI64, H.ofU64]

theorem SmartNumVal.neg_map (m : Mode) (x : SmartNumVal F) : (x.map h).neg m = (x.neg m).map (SmartNumVal.map h) := by
  cases x <;> simp [SmartNumVal.map, SmartNumVal.neg, Res.map_bind, H.neg]
theorem SmartNumVal.add_map (m : Mode) (x y : SmartNumVal F) :
    (x.map h).add m (y.map h) = (x.add m y).map (SmartNumVal.map h) := by
  cases x <;> cases y <;>
    simp [SmartNumVal.map, SmartNumVal.add, Res.map_bind, H.add, H.ofI64, RationalNum.toF64_map H]
theorem SmartNumVal.sub_map (m : Mode) (x y : SmartNumVal F) :
    (x.map h).sub m (y.map h) = (x.sub m y).map (SmartNumVal.map h) := by
  cases x <;> cases y <;>
    simp [SmartNumVal.map, SmartNumVal.sub, Res.map_bind, H.sub, H.ofI64, RationalNum.toF64_map H]
theorem SmartNumVal.mul_map (m : Mode) (x y : SmartNumVal F) :
    (x.map h).mul m (y.map h) = (x.mul m y).map (SmartNumVal.map h) := by
  unfold SmartNumVal.mul
  rw [isZero_map, isZero_map]
  split
  · simp [SmartNumVal.map]
  · cases x <;> cases y <;>
      simp [SmartNumVal.map, Res.map_bind, H.mul, H.ofI64, RationalNum.toF64_map H]
theorem SmartNumVal.div_map (m : Mode) (x y : SmartNumVal F) :
    (x.map h).div m (y.map h) = (x.div m y).map (SmartNumVal.map h) := by
  unfold SmartNumVal.div
  rw [isZero_map]
  split
  · simp [SmartNumVal.map]
  · cases x <;> cases y <;>
      simp [SmartNumVal.map, Res.map_bind, H.div, H.ofI64, RationalNum.toF64_map H]

omit H [FloatOps F] [FloatOps G] in
theorem SmartNum.wrapVal_map (x : SmartNumVal F) : wrapVal (x.map h) = (wrapVal x).map h := by
  unfold wrapVal
  rw [SmartNumVal.isZero_map, SmartNumVal.isOne_map]
  split
  · rfl
  · split <;> rfl

theorem SmartNum.neg_map (m : Mode) (x : SmartNum F) : (x.map h).neg m = (x.neg m).map (SmartNum.map h) := by
  simp only [SmartNum.neg, Res.pure_eq, Res.map_bind, Res.map_ok]
  rw [SmartNum.map, SmartNumVal.neg_map H, Res.bind_map]; simp [wrapVal_map]
theorem SmartNum.add_map (m : Mode) (x y : SmartNum F) :
    (x.map h).add m (y.map h) = (x.add m y).map (SmartNum.map h) := by
  have hv := SmartNumVal.add_map H m x.value y.value
  cases hx : x.isZero <;> cases hy : y.isZero <;>
    simp [SmartNum.add, hx, hy, Res.map_bind]
  change (SmartNumVal.add m (x.value.map h) (y.value.map h) >>= _) = _
  rw [hv, Res.bind_map]; simp [wrapVal_map]
theorem SmartNum.sub_map (m : Mode) (x y : SmartNum F) :
    (x.map h).sub m (y.map h) = (x.sub m y).map (SmartNum.map h) := by
  have hv := SmartNumVal.sub_map H m x.value y.value
  cases hx : x.isZero <;> cases hy : y.isZero <;>
    simp [SmartNum.sub, hx, hy, Res.map_bind, neg_map H]
  change (SmartNumVal.sub m (x.value.map h) (y.value.map h) >>= _) = _
  rw [hv, Res.bind_map]; simp [wrapVal_map]
theorem SmartNum.mul_map (m : Mode) (x y : SmartNum F) :
    (x.map h).mul m (y.map h) = (x.mul m y).map (SmartNum.map h) := by
  have hv := SmartNumVal.mul_map H m x.value y.value
  cases hx : x.isOne <;> cases hy : y.isOne <;>
    simp [SmartNum.mul, hx, hy, Res.map_bind]
  change (SmartNumVal.mul m (x.value.map h) (y.value.map h) >>= _) = _
  rw [hv, Res.bind_map]; simp [wrapVal_map]
theorem SmartNum.div_map (m : Mode) (x y : SmartNum F) :
    (x.map h).div m (y.map h) = (x.div m y).map (SmartNum.map h) := by
  simp only [SmartNum.div, Res.pure_eq, Res.map_bind, Res.map_ok]
  rw [SmartNum.map, SmartNum.map, SmartNumVal.div_map H, Res.bind_map]; simp [wrapVal_map]

theorem SmartNum.pi_map : (SmartNum.pi : SmartNum F).map h = SmartNum.pi := by
  simp [SmartNum.map, SmartNum.pi, SmartNumVal.map, H.pi]
theorem SmartNum.e_map : (SmartNum.e : SmartNum F).map h = SmartNum.e := by
  simp [SmartNum.map, SmartNum.e, SmartNumVal.map, H.e]
theorem Expr.e_map : (Expr.e : Expr F).map h = Expr.e := by
  rw [Expr.e, map_ofNum, SmartNum.e_map H]; rfl

/-! ### `num_aggregate` -/

theorem negEvalRule_map (m : Mode) (a : Expr F) :
    negEvalRule m [.ok (a.map h)] = (negEvalRule m [.ok a]).map (Expr.map h) := by
  unfold negEvalRule
  simp only [pop_one, Res.ok_bind, isNum_map, numUnwrap_map, child_map, pop_map]
  split
  · simp only [Res.bind_map, Res.map_bind, SmartNum.neg_map H, Res.pure_eq, Res.map_ok, map_ofNum]
  · rcases a with ⟨op | (_ | _), c⟩
    · simp only [Expr.map, mapNum, Expr.root, Expr.child]
      cases op.descriptor <;> simp [Res.bind_map, Res.map_bind, Expr.neg, mapNum, mapNumList]
    all_goals simp [Expr.map, mapNum, Expr.root, Expr.neg, mapNumList]

theorem addEvalRule_map (m : Mode) (a b : Expr F) :
    addEvalRule m [.ok (a.map h), .ok (b.map h)] = (addEvalRule m [.ok a, .ok b]).map (Expr.map h) := by
  unfold addEvalRule
  simp only [pop_one, pop_two, Res.ok_bind, isNum_map, isZero_map, numUnwrap_map]
  split_ifs <;> simp [Res.bind_map, Res.map_bind, SmartNum.add_map H]
theorem subEvalRule_map (m : Mode) (a b : Expr F) :
    subEvalRule m [.ok (a.map h), .ok (b.map h)] = (subEvalRule m [.ok a, .ok b]).map (Expr.map h) := by
  unfold subEvalRule
  simp only [pop_one, pop_two, Res.ok_bind, isNum_map, isZero_map, numUnwrap_map]
  split_ifs <;> simp [Res.bind_map, Res.map_bind, SmartNum.sub_map H]
theorem mulEvalRule_map (m : Mode) (a b : Expr F) :
    mulEvalRule m [.ok (a.map h), .ok (b.map h)] = (mulEvalRule m [.ok a, .ok b]).map (Expr.map h) := by
  unfold mulEvalRule
  simp only [pop_one, pop_two, Res.ok_bind, isNum_map, isZero_map, isOne_map, numUnwrap_map]
  split_ifs <;> simp [Res.bind_map, Res.map_bind, SmartNum.mul_map H]
theorem divEvalRule_map (m : Mode) (a b : Expr F) :
    divEvalRule m [.ok (a.map h), .ok (b.map h)] = (divEvalRule m [.ok a, .ok b]).map (Expr.map h) := by
  unfold divEvalRule
  simp only [pop_one, pop_two, Res.ok_bind, isNum_map, isZero_map, numUnwrap_map]
  split_ifs <;> simp [Res.bind_map, Res.map_bind, SmartNum.div_map H]

omit H [FloatOps F] [FloatOps G] in
theorem sinEvalRule_map (a : Expr F) : sinEvalRule [.ok (a.map h)] = (sinEvalRule [.ok a]).map (Expr.map h) := by
  unfold sinEvalRule
  simp only [pop_one, Res.ok_bind]
  rcases a with ⟨op | (n | _), c⟩
  · simp [Expr.map, mapNum, Expr.root, Expr.sin, mapNumList]
  · simp only [Expr.map, mapNum, Expr.root, AstOperand.isZero, AstOperand.isPi, SmartNum.isZero_map, SmartNum.isPi_map]
    have h0 : mapNum (SmartNum.map h) (Expr.ofI64 0) = Expr.ofI64 0 := map_ofI64 h 0
    have h1 : mapNum (SmartNum.map h) (Expr.ofI64 1) = Expr.ofI64 1 := map_ofI64 h 1
    rcases Bool.eq_false_or_eq_true n.isZero with hz | hz <;> rcases Bool.eq_false_or_eq_true n.isPi with ho | ho <;>
      simp [hz, ho, h0, h1, Expr.sin, mapNum, mapNumList]
  · simp [Expr.map, mapNum, Expr.root, Expr.sin, mapNumList, AstOperand.isZero, AstOperand.isPi]
omit H [FloatOps F] [FloatOps G] in
theorem cosEvalRule_map (a : Expr F) : cosEvalRule [.ok (a.map h)] = (cosEvalRule [.ok a]).map (Expr.map h) := by
  unfold cosEvalRule
  simp only [pop_one, Res.ok_bind]
  rcases a with ⟨op | (n | _), c⟩
  · simp [Expr.map, mapNum, Expr.root, Expr.cos, mapNumList]
  · simp only [Expr.map, mapNum, Expr.root, AstOperand.isZero, AstOperand.isPi, SmartNum.isZero_map, SmartNum.isPi_map]
    have h0 : mapNum (SmartNum.map h) (Expr.ofI64 0) = Expr.ofI64 0 := map_ofI64 h 0
    have h1 : mapNum (SmartNum.map h) (Expr.ofI64 1) = Expr.ofI64 1 := map_ofI64 h 1
    rcases Bool.eq_false_or_eq_true n.isZero with hz | hz <;> rcases Bool.eq_false_or_eq_true n.isPi with ho | ho <;>
      simp [hz, ho, h0, h1, Expr.cos, mapNum, mapNumList]
  · simp [Expr.map, mapNum, Expr.root, Expr.cos, mapNumList, AstOperand.isZero, AstOperand.isPi]
theorem expEvalRule_map (a : Expr F) : expEvalRule [.ok (a.map h)] = (expEvalRule [.ok a]).map (Expr.map h) := by
  unfold expEvalRule
  simp only [pop_one, Res.ok_bind, child_map, pop_map]
  rcases a with ⟨op | (n | _), c⟩
  · simp only [Expr.map, mapNum, Expr.root, Expr.child]
    cases op.descriptor <;> simp [Res.bind_map, Res.map_bind, Expr.exp, mapNum, mapNumList]
  · simp only [Expr.map, mapNum, Expr.root, SmartNum.isZero_map, SmartNum.isOne_map]
    have h0 : mapNum (SmartNum.map h) (Expr.ofI64 0) = Expr.ofI64 0 := map_ofI64 h 0
    have h1 : mapNum (SmartNum.map h) (Expr.ofI64 1) = Expr.ofI64 1 := map_ofI64 h 1
    have h2 : mapNum (SmartNum.map h) Expr.e = Expr.e := Expr.e_map H
    rcases Bool.eq_false_or_eq_true n.isZero with hz | hz <;> rcases Bool.eq_false_or_eq_true n.isOne with ho | ho <;>
      simp [hz, ho, h0, h1, Expr.exp, mapNum, mapNumList, h2]
  · simp [Expr.map, mapNum, Expr.root, Expr.exp, mapNumList]
omit H [FloatOps F] [FloatOps G] in
theorem lnEvalRule_map (a : Expr F) : lnEvalRule [.ok (a.map h)] = (lnEvalRule [.ok a]).map (Expr.map h) := by
  unfold lnEvalRule
  simp only [pop_one, Res.ok_bind, child_map, pop_map]
  rcases a with ⟨op | (n | _), c⟩
  · simp only [Expr.map, mapNum, Expr.root, Expr.child]
    cases op.descriptor <;> simp [Res.bind_map, Res.map_bind, Expr.ln, mapNum, mapNumList]
  · simp only [Expr.map, mapNum, Expr.root, SmartNum.isE_map, SmartNum.isOne_map]
    have h0 : mapNum (SmartNum.map h) (Expr.ofI64 0) = Expr.ofI64 0 := map_ofI64 h 0
    have h1 : mapNum (SmartNum.map h) (Expr.ofI64 1) = Expr.ofI64 1 := map_ofI64 h 1
    rcases Bool.eq_false_or_eq_true n.isE with hz | hz <;> rcases Bool.eq_false_or_eq_true n.isOne with ho | ho <;>
      simp [hz, ho, h0, h1, Expr.ln, mapNum, mapNumList, Expr.one, Expr.zero]
  · simp [Expr.map, mapNum, Expr.root, Expr.ln, mapNumList]
omit H [FloatOps F] [FloatOps G] in
theorem powEvalRule_map (a b : Expr F) :
    powEvalRule [.ok (a.map h), .ok (b.map h)] = (powEvalRule [.ok a, .ok b]).map (Expr.map h) := by
  unfold powEvalRule
  simp only [pop_one, pop_two, Res.ok_bind, child_map, pop_map]
  rcases a with ⟨op | (n | _), c⟩
  · simp only [Expr.map, mapNum, Expr.root, Expr.child]
    cases op.descriptor <;> simp [Res.bind_map, Res.map_bind, Expr.pow, mapNum, mapNumList]
  · simp only [Expr.map, mapNum, Expr.root, SmartNum.isZero_map, SmartNum.isOne_map]
    have h0 : mapNum (SmartNum.map h) (Expr.ofI64 0) = Expr.ofI64 0 := map_ofI64 h 0
    have h1 : mapNum (SmartNum.map h) (Expr.ofI64 1) = Expr.ofI64 1 := map_ofI64 h 1
    rcases Bool.eq_false_or_eq_true n.isZero with hz | hz <;> rcases Bool.eq_false_or_eq_true n.isOne with ho | ho <;>
      simp [hz, ho, h0, h1, Expr.pow, mapNum, mapNumList]
  · simp [Expr.map, mapNum, Expr.root, Expr.pow, mapNumList]

theorem numAggregate_map (m : Mode) {e : Expr F} (he : Tree e) :
    (e.map h).numAggregate m = (e.numAggregate m).map (Expr.map h) := by
  induction he with
  | num n _ => simp [numAggregate_ofNum]
  | var v => simp [numAggregate_ofVar]
  | neg a _ i =>
    rw [map_neg, numAggregate_neg, numAggregate_neg, i, negEvalRule_bind, negEvalRule_bind (a.numAggregate m)]
    simp only [Res.bind_map, Res.map_bind, negEvalRule_map H]
  | sin a _ i =>
    rw [map_sin, numAggregate_sin, numAggregate_sin, i, sinEvalRule_bind, sinEvalRule_bind (a.numAggregate m)]
    simp only [Res.bind_map, Res.map_bind, sinEvalRule_map]
  | cos a _ i =>
    rw [map_cos, numAggregate_cos, numAggregate_cos, i, cosEvalRule_bind, cosEvalRule_bind (a.numAggregate m)]
    simp only [Res.bind_map, Res.map_bind, cosEvalRule_map]
  | exp a _ i =>
    rw [map_exp, numAggregate_exp, numAggregate_exp, i, expEvalRule_bind, expEvalRule_bind (a.numAggregate m)]
    simp only [Res.bind_map, Res.map_bind, expEvalRule_map H]
  | ln a _ i =>
    rw [map_ln, numAggregate_ln, numAggregate_ln, i, lnEvalRule_bind, lnEvalRule_bind (a.numAggregate m)]
    simp only [Res.bind_map, Res.map_bind, lnEvalRule_map]
  | add a b _ _ i j =>
    rw [map_add, numAggregate_add, numAggregate_add, i, j, addEvalRule_bind,
      addEvalRule_bind (a.numAggregate m)]
    simp only [Res.bind_map, Res.map_bind, addEvalRule_map H]
  | sub a b _ _ i j =>
    rw [map_sub, numAggregate_sub, numAggregate_sub, i, j, subEvalRule_bind,
      subEvalRule_bind (a.numAggregate m)]
    simp only [Res.bind_map, Res.map_bind, subEvalRule_map H]
  | mul a b _ _ i j =>
    rw [map_mul, numAggregate_mul, numAggregate_mul, i, j, mulEvalRule_bind,
      mulEvalRule_bind (a.numAggregate m)]
    simp only [Res.bind_map, Res.map_bind, mulEvalRule_map H]
  | div a b _ _ i j =>
    rw [map_div, numAggregate_div, numAggregate_div, i, j, divEvalRule_bind,
      divEvalRule_bind (a.numAggregate m)]
    simp only [Res.bind_map, Res.map_bind, divEvalRule_map H]
  | pow a b _ _ i j =>
    rw [map_pow, numAggregate_pow, numAggregate_pow, i, j, powEvalRule_bind,
      powEvalRule_bind (a.numAggregate m)]
    simp only [Res.bind_map, Res.map_bind, powEvalRule_map]

omit H [FloatOps F] [FloatOps G] in
theorem tree_map {e : Expr F} (he : Tree e) : Tree (e.map h) := by
  induction he with
  | num n _ => rw [map_ofNum]; exact .num _ trivial
  | var v => rw [map_ofVar]; exact .var _
  | neg a _ i => rw [map_neg]; exact .neg _ i
  | sin a _ i => rw [map_sin]; exact .sin _ i
  | cos a _ i => rw [map_cos]; exact .cos _ i
  | exp a _ i => rw [map_exp]; exact .exp _ i
  | ln a _ i => rw [map_ln]; exact .ln _ i
  | add a b _ _ i j => rw [map_add]; exact .add _ _ i j
  | sub a b _ _ i j => rw [map_sub]; exact .sub _ _ i j
  | mul a b _ _ i j => rw [map_mul]; exact .mul _ _ i j
  | div a b _ _ i j => rw [map_div]; exact .div _ _ i j
  | pow a b _ _ i j => rw [map_pow]; exact .pow _ _ i j

/-! ### `derivative` -/

section
omit H [FloatOps F] [FloatOps G]

def Out.bimap {ε ε' α β : Type} (g : ε → ε') (f : α → β) : Out ε α → Out ε' β
  | .ok a => .ok (f a)
  | .err e => .err (g e)
  | .panic => .panic
section
variable {ε ε' α β : Type} (g : ε → ε') (f : α → β)
@[simp] theorem Out.bimap_ok (a : α) : Out.bimap g f (.ok a) = .ok (f a) := rfl
@[simp] theorem Out.bimap_err (e : ε) : Out.bimap g f (.err e) = .err (g e) := rfl
@[simp] theorem Out.bimap_panic : Out.bimap g f .panic = .panic := rfl
theorem Out.bimap_lift (r : Res α) : Out.bimap g f r.lift = (r.map f).lift := by cases r <;> rfl
theorem Out.bimap_eq_ok {x : Out ε α} {b : β} : Out.bimap g f x = .ok b ↔ ∃ a, x = .ok a ∧ f a = b := by
  cases x <;> simp
end

def DerivativeError.map (h : F → G) (x : DerivativeError F) : DerivativeError G := { errSrc := x.errSrc.map h }
def TaylorExpansionError.map (h : F → G) (x : TaylorExpansionError F) : TaylorExpansionError G :=
  { errExpr := x.errExpr.map h, reason := x.reason }

def PartialExpansion.map (h : F → G) (p : PartialExpansion F) : PartialExpansion G :=
  { order := p.order, of := p.of.map h, at_ := p.at_.map h, coefficient := p.coefficient.map (Expr.map h),
    residual := p.residual.map h }

def LOut.map {α β : Type} (f : α → β) : LOut α → LOut β
  | .ok a => .ok (f a)
  | .err => .err
  | .panic => .panic
  | .fuel => .fuel
section
variable {α β γ : Type} (f : α → β)
@[simp] theorem LOut.map_ok (a : α) : LOut.map f (.ok a) = .ok (f a) := rfl
@[simp] theorem LOut.map_err : LOut.map f .err = .err := rfl
@[simp] theorem LOut.map_panic : LOut.map f .panic = .panic := rfl
@[simp] theorem LOut.map_fuel : LOut.map f .fuel = .fuel := rfl
theorem LOut.map_ofRes (r : Res α) : LOut.map f (.ofRes r) = .ofRes (r.map f) := by cases r <;> rfl
theorem LOut.map_ofOut {ε ε' : Type} (g : ε → ε') (r : Out ε α) :
    LOut.map f (.ofOut r) = .ofOut (r.bimap g f) := by cases r <;> rfl
theorem LOut.map_eq_ok {x : LOut α} {b : β} : LOut.map f x = .ok b ↔ ∃ a, x = .ok a ∧ f a = b := by
  cases x <;> simp
theorem LOut.map_bind_eq {δ : Type} (g : β → δ) {x : LOut α} {k : α → LOut γ} {k' : β → LOut δ} (g' : γ → δ)
    (hk : ∀ a, x = .ok a → k' (f a) = LOut.map g' (k a)) :
    (LOut.map f x >>= k') = LOut.map g' (x >>= k) := by
  cases x with
  | ok a => exact hk a rfl
  | _ => rfl
end

def LimitExpression.map (h : F → G) : LimitExpression F → LimitExpression G
  | .infinitesimal => .infinitesimal
  | .infinity => .infinity
  | .boundedFluctuation => .boundedFluctuation
  | .normal e => .normal (e.map h)

theorem LimitExpression.add_map (h : F → G) (a b : LimitExpression F) :
    (a.map h).add (b.map h) = (a.add b).map (LimitExpression.map h) := by
  cases a <;> cases b <;> simp [LimitExpression.map, LimitExpression.add]
theorem LimitExpression.mul_map (h : F → G) (a b : LimitExpression F) :
    (a.map h).mul (b.map h) = (a.mul b).map (LimitExpression.map h) := by
  cases a <;> cases b <;> simp [LimitExpression.map, LimitExpression.mul]
theorem LimitExpression.div_map (h : F → G) (a b : LimitExpression F) :
    (a.map h).div (b.map h) = (a.div b).map (LimitExpression.map h) := by
  cases a <;> cases b <;> simp [LimitExpression.map, LimitExpression.div] <;> split_ifs <;> rfl
theorem limIsZero_map (h : F → G) (a : LimitExpression F) : limIsZero (a.map h) = limIsZero a := by
  cases a <;> simp [LimitExpression.map, limIsZero]
end

section
omit [FloatOps G]
omit H in
theorem derivative_tree {m : Mode} {x : Variable} {e d : Expr F} (he : Tree e) (hd : e.derivative m x = .ok d) : Tree d :=
  (der_of_derivative he hd).wf (numClosed_true m) he

omit H in
theorem numAggregate_tree {m : Mode} {e d : Expr F} (he : Tree e) (hd : e.numAggregate m = .ok d) : Tree d :=
  (agg_of_numAggregate he hd).wf (numClosed_true m) he
end

theorem der_bind1 {m : Mode} {A : Out (DerivativeError F) (Expr F)} {K : Expr F → Expr F} {K' : Expr G → Expr G}
    (hA : ∀ a, A = .ok a → Tree a) (hT : ∀ l, Tree l → Tree (K l)) (hK : ∀ l, (K l).map h = K' (l.map h)) :
    (A.bimap (DerivativeError.map h) (Expr.map h) >>= fun l => ((K' l).numAggregate m).lift) =
      Out.bimap (DerivativeError.map h) (Expr.map h) (A >>= fun l => ((K l).numAggregate m).lift) := by
  cases A with
  | err e => rfl
  | panic => rfl
  | ok a => simp only [Out.bimap_ok, Out.ok_bind, Out.bimap_lift, ← hK, numAggregate_map H m (hT _ (hA _ rfl))]

theorem der_bind2 {m : Mode} {A B : Out (DerivativeError F) (Expr F)} {K : Expr F → Expr F → Expr F}
    {K' : Expr G → Expr G → Expr G} (hA : ∀ a, A = .ok a → Tree a) (hB : ∀ a, B = .ok a → Tree a)
    (hT : ∀ l r, Tree l → Tree r → Tree (K l r)) (hK : ∀ l r, (K l r).map h = K' (l.map h) (r.map h)) :
    (B.bimap (DerivativeError.map h) (Expr.map h) >>= fun r => A.bimap (DerivativeError.map h) (Expr.map h) >>= fun l =>
      ((K' l r).numAggregate m).lift) =
    Out.bimap (DerivativeError.map h) (Expr.map h) (B >>= fun r => A >>= fun l => ((K l r).numAggregate m).lift) := by
  cases B with
  | err e => rfl
  | panic => rfl
  | ok b =>
    simp only [Out.bimap_ok, Out.ok_bind]
    exact der_bind1 (K := fun l => K l b) (K' := fun l => K' l (b.map h)) H hA (fun l hl => hT l b hl (hB b rfl))
      fun l => hK l b

theorem derivative_map (m : Mode) (x : Variable) {e : Expr F} (he : Tree e) :
    (e.map h).derivative m x = Out.bimap (DerivativeError.map h) (Expr.map h) (e.derivative m x) := by
  induction he with
  | num n _ => simp [derivative_ofNum]
  | var v =>
    simp only [map_ofVar, derivative_ofVar]
    split_ifs <;> simp
  | neg a ta i =>
    rw [map_neg, derivative_neg, derivative_neg, i]
    exact der_bind1 H (K := Expr.neg) (fun _ => derivative_tree ta) (fun _ => .neg _) fun _ => map_neg _ _
  | sin a ta i =>
    rw [map_sin, derivative_sin, derivative_sin, i]
    exact der_bind1 H (K := fun d => a.cos.mul d) (fun _ => derivative_tree ta) (fun _ => .mul _ _ (.cos _ ta))
      fun _ => by simp
  | cos a ta i =>
    rw [map_cos, derivative_cos, derivative_cos, i]
    exact der_bind1 H (K := fun d => a.sin.neg.mul d) (fun _ => derivative_tree ta)
      (fun _ => .mul _ _ (.neg _ (.sin _ ta))) fun _ => by simp
  | exp a ta i =>
    rw [map_exp, derivative_exp, derivative_exp, i]
    exact der_bind1 H (K := fun d => d.mul a.exp) (fun _ => derivative_tree ta) (fun _ hl => .mul _ _ hl (.exp _ ta))
      fun _ => by simp
  | ln a ta i =>
    rw [map_ln, derivative_ln, derivative_ln, i]
    exact der_bind1 H (K := fun d => d.div a) (fun _ => derivative_tree ta) (fun _ hl => .div _ _ hl ta)
      fun _ => by simp
  | add a b ta tb i j =>
    rw [map_add, derivative_add, derivative_add, i, j]
    exact der_bind2 H (K := fun l r => l.add r) (fun _ => derivative_tree ta) (fun _ => derivative_tree tb)
      (fun _ _ => .add _ _) fun _ _ => by simp
  | sub a b ta tb i j =>
    rw [map_sub, derivative_sub, derivative_sub, i, j]
    exact der_bind2 H (K := fun l r => l.sub r) (fun _ => derivative_tree ta) (fun _ => derivative_tree tb)
      (fun _ _ => .sub _ _) fun _ _ => by simp
  | mul a b ta tb i j =>
    rw [map_mul, derivative_mul, derivative_mul, i, j]
    exact der_bind2 H (K := fun l r => (l.mul b).add (a.mul r)) (fun _ => derivative_tree ta) (fun _ => derivative_tree tb)
      (fun _ _ hl hr => .add _ _ (.mul _ _ hl tb) (.mul _ _ ta hr)) fun _ _ => by simp
  | div a b ta tb i j =>
    rw [map_div, derivative_div, derivative_div, i, j]
    exact der_bind2 H (K := fun l r => ((l.mul b).sub (a.mul r)).div (b.mul b)) (fun _ => derivative_tree ta)
      (fun _ => derivative_tree tb)
      (fun _ _ hl hr => .div _ _ (.sub _ _ (.mul _ _ hl tb) (.mul _ _ ta hr)) (.mul _ _ tb tb)) fun _ _ => by simp
  | pow a b ta tb i j =>
    rw [map_pow, derivative_pow, derivative_pow, i, j]
    exact der_bind2 H (K := fun l r => (a.pow b).mul ((r.mul a.ln).add ((b.mul l).div a)))
      (fun _ => derivative_tree ta) (fun _ => derivative_tree tb)
      (fun _ _ hl hr => .mul _ _ (.pow _ _ ta tb) (.add _ _ (.mul _ _ hr (.ln _ ta)) (.div _ _ (.mul _ _ tb hl) ta)))
      fun _ _ => by simp

/-! ### `substitute` and `taylor_expansion` -/

omit H [FloatOps F] [FloatOps G] in
theorem replace_map {e : Expr F} (he : Tree e) (x : Variable) (v : Expr F) :
    (e.map h).replace x (v.map h) = (e.replace x v).map h := by
  induction he with
  | var y => by_cases hy : y = x <;> simp [hy]
  | _ => simp_all

theorem taylorStep_map (m : Mode) (x : Variable) (k : UInt64) {err a r : Expr F} (ha : Tree a) (hr : Tree r)
    (f : SmartNum F) : taylorStep m (err.map h) x (a.map h) k (r.map h) (f.map h) =
      Out.bimap (TaylorExpansionError.map h) (fun t => (t.1.map h, t.2.1.map h, t.2.2.map h))
        (taylorStep m err x a k r f) := by
  unfold taylorStep
  have hu : SmartNum.ofU64 (F := G) m (max k 1) = (SmartNum.ofU64 (F := F) m (max k 1)).map (SmartNum.map h) := by
    simp only [SmartNum.ofU64, SmartNumVal.ofU64]
    cases castI64 m (max k 1) with
    | panic => rfl
    | ok i => exact congrArg Res.ok (SmartNum.map_ofI64 h i).symm
  rw [hu]
  cases SmartNum.ofU64 (F := F) m (max k 1) with
  | panic => rfl
  | ok kk =>
    simp only [Res.map_ok, Res.lift_ok, Out.ok_bind, SmartNum.mul_map H]
    cases f.mul m kk with
    | panic => rfl
    | ok f' =>
      simp only [Res.map_ok, Res.lift_ok, Out.ok_bind, substitute_eq, Out.mapErr_ok, replace_map hr]
      have tr : Tree (r.replace x a) := WF.replace hr ha x
      rw [numAggregate_map H m tr]
      cases hs : (r.replace x a).numAggregate m with
      | panic => rfl
      | ok s =>
        simp only [Res.map_ok, Res.lift_ok, Out.ok_bind]
        have ts : Tree (s.div (ofNum f')) := .div _ _ (numAggregate_tree tr hs) (.num _ trivial)
        rw [← map_ofNum, ← map_div, numAggregate_map H m ts]
        cases (s.div (ofNum f')).numAggregate m with
        | panic => rfl
        | ok c =>
          simp only [Res.map_ok, Res.lift_ok, Out.ok_bind]
          rw [derivative_map H m x hr]
          cases r.derivative m x <;> rfl

theorem taylorState_map (m : Mode) (x : Variable) {e a : Expr F} (he : Tree e) (ha : Tree a) (k : Nat) :
    taylorState m (e.map h) x (a.map h) k =
      Out.bimap (TaylorExpansionError.map h) (fun s => (s.1.map (Expr.map h), s.2.1.map h, s.2.2.map h))
        (taylorState m e x a k) := by
  induction k with
  | zero => simp [taylorState, SmartNum.map_ofI64]
  | succ k ih =>
    rw [taylorState, taylorState, ih]
    cases hs : taylorState m e x a k with
    | err _ => rfl
    | panic => rfl
    | ok s =>
      simp only [Out.bimap_ok, Out.ok_bind]
      have ws := taylorState_wf (numClosed_true m) (fun _ _ _ => trivial) ha he k hs
      rw [taylorStep_map H m x _ ha ws.2.1]
      cases taylorStep m e x a (UInt64.ofNat k) s.2.1 s.2.2 with
      | ok t => simp
      | err _ => rfl
      | panic => rfl

theorem taylorExpansion_map (m : Mode) (x : Variable) {e a : Expr F} (he : Tree e) (ha : Tree a) (n : UInt64) :
    (e.map h).taylorExpansion m x (a.map h) n =
      Out.bimap (TaylorExpansionError.map h) (PartialExpansion.map h) (e.taylorExpansion m x a n) := by
  rw [taylorExpansion_state, taylorExpansion_state, taylorState_map H m x he ha]
  cases taylorState m e x a (n.toNat + 1) with
  | ok s => simp [PartialExpansion.map]
  | err _ => rfl
  | panic => rfl

/-! ### `limit` -/

theorem finish_map (m : Mode) {z : LimitExpression F} (hz : LimWF (fun _ => True) z) :
    finish m (z.map h) = (finish m z).map (LimitExpression.map h) := by
  cases z with
  | normal e =>
    simp only [LimitExpression.map, finish]
    rw [numAggregate_map H m hz]
    cases e.numAggregate m <;> rfl
  | _ => rfl

theorem substLimit_map (m : Mode) (x : Variable) {e pt : Expr F} (he : Tree e) (hp : Tree pt) :
    substLimit m (e.map h) x (pt.map h) = (substLimit m e x pt).map (LimitExpression.map h) := by
  rw [substLimit_eq, substLimit_eq, replace_map he, numAggregate_map H m (WF.replace he hp x)]
  cases (e.replace x pt).numAggregate m with
  | panic => rfl
  | ok z =>
    simp only [Res.map_ok, LOut.ofRes_ok, LOut.ok_bind, isZero_map]
    rcases Bool.eq_false_or_eq_true z.isZero with hz | hz <;> simp [hz, LimitExpression.map]

theorem bind_finish_map {m : Mode} {X : LOut (LimitExpression F)} {X' : LOut (LimitExpression G)}
    (hX : X' = X.map (LimitExpression.map h)) (hw : ∀ z, X = .ok z → LimWF (fun _ => True) z) :
    (X' >>= finish m) = (X >>= finish m).map (LimitExpression.map h) := by
  subst hX
  cases X with
  | ok z => exact finish_map H m (hw z rfl)
  | _ => rfl

theorem divLoop_map (m : Mode) (x : Variable) {rec : LimitFn F} {rec' : LimitFn G}
    (hr : ∀ e, Tree e → rec' (e.map h) = (rec e).map (LimitExpression.map h)) (j : Nat) {l r : Expr F}
    (hl : Tree l) (hr' : Tree r) :
    divLoop m rec' x j (l.map h) (r.map h) = (divLoop m rec x j l r).map (LimitExpression.map h) := by
  induction j generalizing l r with
  | zero => rfl
  | succ j ih =>
    rw [divLoop, divLoop, hr _ hl, hr _ hr']
    cases rec l with
    | ok a =>
      cases rec r with
      | ok b =>
        simp only [LOut.map_ok, LOut.ok_bind, LimitExpression.div_map]
        cases a.div b with
        | some z => rfl
        | none =>
          simp only [Option.map_none]
          rw [derivative_map H m x hl, derivative_map H m x hr']
          cases hl' : l.derivative m x with
          | ok l' =>
            cases hr'' : r.derivative m x with
            | ok r' => exact ih (derivative_tree hl hl') (derivative_tree hr' hr'')
            | _ => rfl
          | _ => rfl
      | _ => rfl
    | _ => rfl

theorem limit_map (m : Mode) (x : Variable) {pt : Expr F} (hp : Tree pt) (k : UInt64) (n : Nat) {e : Expr F}
    (he : Tree e) :
    limit m x (pt.map h) k n (e.map h) = (limit m x pt k n e).map (LimitExpression.map h) := by
  induction n generalizing e with
  | zero => rfl
  | succ n ih =>
    have one : Tree (Expr.one : Expr F) := .num _ trivial
    have hone : (Expr.one : Expr F).map h = Expr.one := map_ofI64 h 1
    have wf : ∀ {e : Expr F}, Tree e → ∀ {z : LimitExpression F}, limit m x pt k n e = .ok z → LimWF (fun _ => True) z :=
      fun he _ hz => limit_wf (numClosed_true m) hp he hz
    cases he with
    | num v hv => simp [limit_ofNum, LimitExpression.map]
    | var v =>
      rw [map_ofVar, limit_ofVar, limit_ofVar]
      refine bind_finish_map H ?_ ?_
      · rw [isZero_map]
        split_ifs <;> simp [LimitExpression.map]
      · intro z hz
        split_ifs at hz <;> cases hz
        · trivial
        · exact hp
        · exact .var _
    | neg a _ => rw [map_neg, limit_neg, limit_neg]; rfl
    | exp a _ => rw [map_exp, limit_exp, limit_exp]; rfl
    | ln a _ => rw [map_ln, limit_ln, limit_ln]; rfl
    | pow a b _ _ => rw [map_pow, limit_pow, limit_pow]; rfl
    | sub a b ha hb =>
      rw [map_sub, limit_sub, limit_sub]
      refine bind_finish_map H ?_ fun z => wf (.add _ _ ha (.neg _ hb))
      rw [← map_neg, ← map_add]
      exact ih (.add _ _ ha (.neg _ hb))
    | sin a ha =>
      rw [map_sin, limit_sin, limit_sin]
      refine bind_finish_map H ?_ ?_
      · rw [isZero_map]
        split_ifs
        · rfl
        · rw [← map_sin]; exact substLimit_map H m x (.sin _ ha) hp
      · intro z hz
        split_ifs at hz
        · cases hz; trivial
        · exact substLimit_wf (numClosed_true m) hp (.sin _ ha) hz
    | cos a ha =>
      rw [map_cos, limit_cos, limit_cos]
      refine bind_finish_map H ?_ fun z hz => substLimit_wf (numClosed_true m) hp (.cos _ ha) hz
      rw [← map_cos]; exact substLimit_map H m x (.cos _ ha) hp
    | div a b ha hb =>
      rw [map_div, limit_div, limit_div]
      exact bind_finish_map H (divLoop_map H m x (fun e he => ih he) _ ha hb)
        fun z hz => divLoop_wf (numClosed_true m) (fun e z he hz => wf he hz) _ ha hb hz
    | add a b ha hb =>
      rw [map_add, limit_add, limit_add]
      have t : Tree (((a.div b).add Expr.one).div (Expr.one.div b)) :=
        .div _ _ (.add _ _ (.div _ _ ha hb) one) (.div _ _ one hb)
      refine bind_finish_map H ?_ ?_
      · unfold addBody
        rw [ih ha, ih hb]
        cases limit m x pt k n b with
        | ok r =>
          cases limit m x pt k n a with
          | ok l =>
            simp only [LOut.map_ok, LOut.ok_bind, LimitExpression.add_map]
            cases l.add r with
            | some z => rfl
            | none =>
              have := ih t
              simp only [map_div, map_add, hone] at this
              exact this
          | _ => rfl
        | _ => rfl
      · intro z h1
        simp only [addBody, LOut.bind_eq_ok] at h1
        obtain ⟨r, hr, l, hl, h1⟩ := h1
        cases hd : l.add r with
        | some w => rw [hd] at h1; cases h1; exact (wf ha hl).add (wf hb hr) hd
        | none => rw [hd] at h1; exact wf t h1
    | mul a b ha hb =>
      rw [map_mul, limit_mul, limit_mul]
      have t1 : Tree (b.div (Expr.one.div a)) := .div _ _ hb (.div _ _ one ha)
      have t2 : Tree (a.div (Expr.one.div b)) := .div _ _ ha (.div _ _ one hb)
      refine bind_finish_map H ?_ ?_
      · unfold mulBody
        rw [ih ha, ih hb]
        cases limit m x pt k n b with
        | ok r =>
          cases limit m x pt k n a with
          | ok l =>
            simp only [LOut.map_ok, LOut.ok_bind, LimitExpression.mul_map]
            cases l.mul r with
            | some z => rfl
            | none =>
              have i1 := ih t1
              have i2 := ih t2
              simp only [map_div, hone] at i1 i2
              simp only [Option.map_none, limIsZero_map]
              rcases Bool.eq_false_or_eq_true (limIsZero r) with hz | hz <;> simp [hz, i1, i2]
          | _ => rfl
        | _ => rfl
      · intro z h1
        simp only [mulBody, LOut.bind_eq_ok] at h1
        obtain ⟨r, hr, l, hl, h1⟩ := h1
        cases hd : l.mul r with
        | some w => rw [hd] at h1; cases h1; exact (wf ha hl).mul (wf hb hr) hd
        | none =>
          rw [hd] at h1; simp only at h1
          split_ifs at h1
          · exact wf t1 h1
          · exact wf t2 h1

end SymRust
