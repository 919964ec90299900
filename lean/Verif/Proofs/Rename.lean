import Verif.Spec.Rename
import Verif.Proofs.Map
/-! The program commutes with injective renamings of the variables. -/

namespace SymRust
variable {F : Type} [FloatOps F]
open Expr

section defs
omit [FloatOps F]
variable (σ : Variable → Variable)

theorem renameList_eq (l : List (Expr F)) : renameList σ l = l.map (rename σ) := by
  induction l with
  | nil => simp [renameList]
  | cons a l ih => simp [renameList, ih]

section
variable (a b : Expr F)
@[simp] theorem rename_ofNum (n : SmartNum F) : (ofNum n).rename σ = ofNum n := by
  simp [ofNum, rename, renameList]
@[simp] theorem rename_ofVar (v : Variable) : (ofVar v : Expr F).rename σ = ofVar (σ v) := by
  simp [ofVar, newVariable, rename, renameList]
@[simp] theorem rename_neg : a.neg.rename σ = (a.rename σ).neg := by simp [Expr.neg, rename, renameList]
@[simp] theorem rename_sin : a.sin.rename σ = (a.rename σ).sin := by simp [Expr.sin, rename, renameList]
@[simp] theorem rename_cos : a.cos.rename σ = (a.rename σ).cos := by simp [Expr.cos, rename, renameList]
@[simp] theorem rename_exp : a.exp.rename σ = (a.rename σ).exp := by simp [Expr.exp, rename, renameList]
@[simp] theorem rename_ln : a.ln.rename σ = (a.rename σ).ln := by simp [Expr.ln, rename, renameList]
@[simp] theorem rename_add : (a.add b).rename σ = (a.rename σ).add (b.rename σ) := by
  simp [Expr.add, rename, renameList]
@[simp] theorem rename_sub : (a.sub b).rename σ = (a.rename σ).sub (b.rename σ) := by
  simp [Expr.sub, rename, renameList]
@[simp] theorem rename_mul : (a.mul b).rename σ = (a.rename σ).mul (b.rename σ) := by
  simp [Expr.mul, rename, renameList]
@[simp] theorem rename_div : (a.div b).rename σ = (a.rename σ).div (b.rename σ) := by
  simp [Expr.div, rename, renameList]
@[simp] theorem rename_pow : (a.pow b).rename σ = (a.rename σ).pow (b.rename σ) := by
  simp [Expr.pow, rename, renameList]
@[simp] theorem rename_ofI64 (v : Int64) : (Expr.ofI64 v : Expr F).rename σ = .ofI64 v := rename_ofNum σ _
theorem child_rename : (a.rename σ).child = a.child.map (rename σ) := by
  rcases a with ⟨_ | (_ | _), c⟩ <;> simp [rename, Expr.child, renameList_eq]
@[simp] theorem isNum_rename : (a.rename σ).isNum = a.isNum := by
  rcases a with ⟨_ | (_ | _), c⟩ <;> simp [rename, isNum, Expr.root, AstOperand.isNum]
@[simp] theorem isZero_rename : (a.rename σ).isZero = a.isZero := by
  rcases a with ⟨_ | (_ | _), c⟩ <;> simp [rename, isZero, Expr.root, AstOperand.isZero]
@[simp] theorem isOne_rename : (a.rename σ).isOne = a.isOne := by
  rcases a with ⟨_ | (_ | _), c⟩ <;> simp [rename, isOne, Expr.root, AstOperand.isOne]
@[simp] theorem isPi_rename : (a.rename σ).isPi = a.isPi := by
  rcases a with ⟨_ | (_ | _), c⟩ <;> simp [rename, isPi, Expr.root, AstOperand.isPi]
@[simp] theorem isE_rename : (a.rename σ).isE = a.isE := by
  rcases a with ⟨_ | (_ | _), c⟩ <;> simp [rename, isE, Expr.root, AstOperand.isE]
@[simp] theorem numUnwrap_rename : (a.rename σ).numUnwrap = a.numUnwrap := by
  rcases a with ⟨_ | (_ | _), c⟩ <;> simp [rename, numUnwrap, toSmartNum, Expr.root, AstOperand.toSmartNum]
end
end defs

variable {σ : Variable → Variable}

/-! ### `num_aggregate` -/

theorem negEvalRule_rename (m : Mode) (a : Expr F) :
    negEvalRule m [.ok (a.rename σ)] = (negEvalRule m [.ok a]).map (Expr.rename σ) := by
  unfold negEvalRule
  simp only [pop_one, Res.ok_bind, isNum_rename, numUnwrap_rename, child_rename, pop_map]
  split
  · simp only [Res.bind_map, Res.map_bind, Res.pure_eq, Res.map_ok, rename_ofNum]
  · rcases a with ⟨op | (_ | _), c⟩
    · simp only [rename, Expr.root, Expr.child]
      cases op.descriptor <;> simp [Res.bind_map, Res.map_bind, Expr.neg, rename, renameList]
    all_goals simp [rename, Expr.root, Expr.neg, renameList]

theorem addEvalRule_rename (m : Mode) (a b : Expr F) :
    addEvalRule m [.ok (a.rename σ), .ok (b.rename σ)] = (addEvalRule m [.ok a, .ok b]).map (Expr.rename σ) := by
  unfold addEvalRule
  simp only [pop_one, pop_two, Res.ok_bind, isNum_rename, isZero_rename, numUnwrap_rename]
  split_ifs <;> simp [Res.bind_map, Res.map_bind]
theorem subEvalRule_rename (m : Mode) (a b : Expr F) :
    subEvalRule m [.ok (a.rename σ), .ok (b.rename σ)] = (subEvalRule m [.ok a, .ok b]).map (Expr.rename σ) := by
  unfold subEvalRule
  simp only [pop_one, pop_two, Res.ok_bind, isNum_rename, isZero_rename, numUnwrap_rename]
  split_ifs <;> simp [Res.bind_map, Res.map_bind]
theorem mulEvalRule_rename (m : Mode) (a b : Expr F) :
    mulEvalRule m [.ok (a.rename σ), .ok (b.rename σ)] = (mulEvalRule m [.ok a, .ok b]).map (Expr.rename σ) := by
  unfold mulEvalRule
  simp only [pop_one, pop_two, Res.ok_bind, isNum_rename, isZero_rename, isOne_rename, numUnwrap_rename]
  split_ifs <;> simp [Res.bind_map, Res.map_bind]
theorem divEvalRule_rename (m : Mode) (a b : Expr F) :
    divEvalRule m [.ok (a.rename σ), .ok (b.rename σ)] = (divEvalRule m [.ok a, .ok b]).map (Expr.rename σ) := by
  unfold divEvalRule
  simp only [pop_one, pop_two, Res.ok_bind, isNum_rename, isZero_rename, numUnwrap_rename]
  split_ifs <;> simp [Res.bind_map, Res.map_bind]

theorem sinEvalRule_rename (a : Expr F) : sinEvalRule [.ok (a.rename σ)] = (sinEvalRule [.ok a]).map (Expr.rename σ) := by
  unfold sinEvalRule
  simp only [pop_one, Res.ok_bind]
  rcases a with ⟨op | (n | _), c⟩
  · simp [rename, Expr.root, Expr.sin, renameList]
  · simp only [rename, Expr.root, AstOperand.isZero, AstOperand.isPi]
    have h0 : rename σ (Expr.ofI64 0 : Expr F) = Expr.ofI64 0 := rename_ofI64 σ 0
    have h1 : rename σ (Expr.ofI64 1 : Expr F) = Expr.ofI64 1 := rename_ofI64 σ 1
    rcases Bool.eq_false_or_eq_true n.isZero with hz | hz <;> rcases Bool.eq_false_or_eq_true n.isPi with ho | ho <;>
      simp [hz, ho, h0, h1, Expr.sin, rename, renameList]
  · simp [rename, Expr.root, Expr.sin, renameList, AstOperand.isZero, AstOperand.isPi]
theorem cosEvalRule_rename (a : Expr F) : cosEvalRule [.ok (a.rename σ)] = (cosEvalRule [.ok a]).map (Expr.rename σ) := by
  unfold cosEvalRule
  simp only [pop_one, Res.ok_bind]
  rcases a with ⟨op | (n | _), c⟩
  · simp [rename, Expr.root, Expr.cos, renameList]
  · simp only [rename, Expr.root, AstOperand.isZero, AstOperand.isPi]
    have h0 : rename σ (Expr.ofI64 0 : Expr F) = Expr.ofI64 0 := rename_ofI64 σ 0
    have h1 : rename σ (Expr.ofI64 1 : Expr F) = Expr.ofI64 1 := rename_ofI64 σ 1
    rcases Bool.eq_false_or_eq_true n.isZero with hz | hz <;> rcases Bool.eq_false_or_eq_true n.isPi with ho | ho <;>
      simp [hz, ho, h0, h1, Expr.cos, rename, renameList]
  · simp [rename, Expr.root, Expr.cos, renameList, AstOperand.isZero, AstOperand.isPi]
theorem expEvalRule_rename (a : Expr F) : expEvalRule [.ok (a.rename σ)] = (expEvalRule [.ok a]).map (Expr.rename σ) := by
  unfold expEvalRule
  simp only [pop_one, Res.ok_bind, child_rename, pop_map]
  rcases a with ⟨op | (n | _), c⟩
  · simp only [rename, Expr.root, Expr.child]
    cases op.descriptor <;> simp [Res.bind_map, Res.map_bind, Expr.exp, rename, renameList]
  · simp only [rename, Expr.root]
    have h0 : rename σ (Expr.ofI64 0 : Expr F) = Expr.ofI64 0 := rename_ofI64 σ 0
    have h1 : rename σ (Expr.ofI64 1 : Expr F) = Expr.ofI64 1 := rename_ofI64 σ 1
    have h2 : rename σ (Expr.e : Expr F) = Expr.e := rename_ofNum σ _
    rcases Bool.eq_false_or_eq_true n.isZero with hz | hz <;> rcases Bool.eq_false_or_eq_true n.isOne with ho | ho <;>
      simp [hz, ho, h0, h1, Expr.exp, rename, renameList, h2]
  · simp [rename, Expr.root, Expr.exp, renameList]
theorem lnEvalRule_rename (a : Expr F) : lnEvalRule [.ok (a.rename σ)] = (lnEvalRule [.ok a]).map (Expr.rename σ) := by
  unfold lnEvalRule
  simp only [pop_one, Res.ok_bind, child_rename, pop_map]
  rcases a with ⟨op | (n | _), c⟩
  · simp only [rename, Expr.root, Expr.child]
    cases op.descriptor <;> simp [Res.bind_map, Res.map_bind, Expr.ln, rename, renameList]
  · simp only [rename, Expr.root]
    have h0 : rename σ (Expr.ofI64 0 : Expr F) = Expr.ofI64 0 := rename_ofI64 σ 0
    have h1 : rename σ (Expr.ofI64 1 : Expr F) = Expr.ofI64 1 := rename_ofI64 σ 1
    rcases Bool.eq_false_or_eq_true n.isE with hz | hz <;> rcases Bool.eq_false_or_eq_true n.isOne with ho | ho <;>
      simp [hz, ho, h0, h1, Expr.ln, rename, renameList, Expr.one, Expr.zero]
  · simp [rename, Expr.root, Expr.ln, renameList]
theorem powEvalRule_rename (a b : Expr F) :
    powEvalRule [.ok (a.rename σ), .ok (b.rename σ)] = (powEvalRule [.ok a, .ok b]).map (Expr.rename σ) := by
  unfold powEvalRule
  simp only [pop_one, pop_two, Res.ok_bind, child_rename, pop_map]
  rcases a with ⟨op | (n | _), c⟩
  · simp only [rename, Expr.root, Expr.child]
    cases op.descriptor <;> simp [Res.bind_map, Res.map_bind, Expr.pow, rename, renameList]
  · simp only [rename, Expr.root]
    have h0 : rename σ (Expr.ofI64 0 : Expr F) = Expr.ofI64 0 := rename_ofI64 σ 0
    have h1 : rename σ (Expr.ofI64 1 : Expr F) = Expr.ofI64 1 := rename_ofI64 σ 1
    rcases Bool.eq_false_or_eq_true n.isZero with hz | hz <;> rcases Bool.eq_false_or_eq_true n.isOne with ho | ho <;>
      simp [hz, ho, h0, h1, Expr.pow, rename, renameList]
  · simp [rename, Expr.root, Expr.pow, renameList]

theorem numAggregate_rename (m : Mode) {e : Expr F} (he : Tree e) :
    (e.rename σ).numAggregate m = (e.numAggregate m).map (Expr.rename σ) := by
  induction he with
  | num n _ => simp [numAggregate_ofNum]
  | var v => simp [numAggregate_ofVar]
  | neg a _ i =>
    rw [rename_neg, numAggregate_neg, numAggregate_neg, i, negEvalRule_bind, negEvalRule_bind (a.numAggregate m)]
    simp only [Res.bind_map, Res.map_bind, negEvalRule_rename]
  | sin a _ i =>
    rw [rename_sin, numAggregate_sin, numAggregate_sin, i, sinEvalRule_bind, sinEvalRule_bind (a.numAggregate m)]
    simp only [Res.bind_map, Res.map_bind, sinEvalRule_rename]
  | cos a _ i =>
    rw [rename_cos, numAggregate_cos, numAggregate_cos, i, cosEvalRule_bind, cosEvalRule_bind (a.numAggregate m)]
    simp only [Res.bind_map, Res.map_bind, cosEvalRule_rename]
  | exp a _ i =>
    rw [rename_exp, numAggregate_exp, numAggregate_exp, i, expEvalRule_bind, expEvalRule_bind (a.numAggregate m)]
    simp only [Res.bind_map, Res.map_bind, expEvalRule_rename]
  | ln a _ i =>
    rw [rename_ln, numAggregate_ln, numAggregate_ln, i, lnEvalRule_bind, lnEvalRule_bind (a.numAggregate m)]
    simp only [Res.bind_map, Res.map_bind, lnEvalRule_rename]
  | add a b _ _ i j =>
    rw [rename_add, numAggregate_add, numAggregate_add, i, j, addEvalRule_bind,
      addEvalRule_bind (a.numAggregate m)]
    simp only [Res.bind_map, Res.map_bind, addEvalRule_rename]
  | sub a b _ _ i j =>
    rw [rename_sub, numAggregate_sub, numAggregate_sub, i, j, subEvalRule_bind,
      subEvalRule_bind (a.numAggregate m)]
    simp only [Res.bind_map, Res.map_bind, subEvalRule_rename]
  | mul a b _ _ i j =>
    rw [rename_mul, numAggregate_mul, numAggregate_mul, i, j, mulEvalRule_bind,
      mulEvalRule_bind (a.numAggregate m)]
    simp only [Res.bind_map, Res.map_bind, mulEvalRule_rename]
  | div a b _ _ i j =>
    rw [rename_div, numAggregate_div, numAggregate_div, i, j, divEvalRule_bind,
      divEvalRule_bind (a.numAggregate m)]
    simp only [Res.bind_map, Res.map_bind, divEvalRule_rename]
  | pow a b _ _ i j =>
    rw [rename_pow, numAggregate_pow, numAggregate_pow, i, j, powEvalRule_bind,
      powEvalRule_bind (a.numAggregate m)]
    simp only [Res.bind_map, Res.map_bind, powEvalRule_rename]

theorem tree_rename {e : Expr F} (he : Tree e) : Tree (e.rename σ) := by
  induction he with
  | num n _ => rw [rename_ofNum]; exact .num _ trivial
  | var v => rw [rename_ofVar]; exact .var _
  | neg a _ i => rw [rename_neg]; exact .neg _ i
  | sin a _ i => rw [rename_sin]; exact .sin _ i
  | cos a _ i => rw [rename_cos]; exact .cos _ i
  | exp a _ i => rw [rename_exp]; exact .exp _ i
  | ln a _ i => rw [rename_ln]; exact .ln _ i
  | add a b _ _ i j => rw [rename_add]; exact .add _ _ i j
  | sub a b _ _ i j => rw [rename_sub]; exact .sub _ _ i j
  | mul a b _ _ i j => rw [rename_mul]; exact .mul _ _ i j
  | div a b _ _ i j => rw [rename_div]; exact .div _ _ i j
  | pow a b _ _ i j => rw [rename_pow]; exact .pow _ _ i j

/-! ### `derivative` -/

theorem der_bind1_rename {m : Mode} {A : Out (DerivativeError F) (Expr F)} {K : Expr F → Expr F} {K' : Expr F → Expr F}
    (hA : ∀ a, A = .ok a → Tree a) (hT : ∀ l, Tree l → Tree (K l)) (hK : ∀ l, (K l).rename σ = K' (l.rename σ)) :
    (A.bimap (DerivativeError.rename σ) (Expr.rename σ) >>= fun l => ((K' l).numAggregate m).lift) =
      Out.bimap (DerivativeError.rename σ) (Expr.rename σ) (A >>= fun l => ((K l).numAggregate m).lift) := by
  cases A with
  | err e => rfl
  | panic => rfl
  | ok a => simp only [Out.bimap_ok, Out.ok_bind, Out.bimap_lift, ← hK, numAggregate_rename m (hT _ (hA _ rfl))]

theorem der_bind2_rename {m : Mode} {A B : Out (DerivativeError F) (Expr F)} {K : Expr F → Expr F → Expr F}
    {K' : Expr F → Expr F → Expr F} (hA : ∀ a, A = .ok a → Tree a) (hB : ∀ a, B = .ok a → Tree a)
    (hT : ∀ l r, Tree l → Tree r → Tree (K l r)) (hK : ∀ l r, (K l r).rename σ = K' (l.rename σ) (r.rename σ)) :
    (B.bimap (DerivativeError.rename σ) (Expr.rename σ) >>= fun r => A.bimap (DerivativeError.rename σ) (Expr.rename σ) >>= fun l =>
      ((K' l r).numAggregate m).lift) =
    Out.bimap (DerivativeError.rename σ) (Expr.rename σ) (B >>= fun r => A >>= fun l => ((K l r).numAggregate m).lift) := by
  cases B with
  | err e => rfl
  | panic => rfl
  | ok b =>
    simp only [Out.bimap_ok, Out.ok_bind]
    exact der_bind1_rename (K := fun l => K l b) (K' := fun l => K' l (b.rename σ)) hA (fun l hl => hT l b hl (hB b rfl))
      fun l => hK l b

theorem derivative_rename (hσ : Function.Injective σ) (m : Mode) (x : Variable) {e : Expr F} (he : Tree e) :
    (e.rename σ).derivative m (σ x) = Out.bimap (DerivativeError.rename σ) (Expr.rename σ) (e.derivative m x) := by
  induction he with
  | num n _ => simp [derivative_ofNum]
  | var v =>
    rw [rename_ofVar, derivative_ofVar, derivative_ofVar]
    by_cases hv : v = x
    · subst hv; simp
    · have : ¬ x = v := fun h => hv h.symm
      simp [hσ.eq_iff, this]
  | neg a ta i =>
    rw [rename_neg, derivative_neg, derivative_neg, i]
    exact der_bind1_rename (K := Expr.neg) (fun _ => derivative_tree ta) (fun _ => .neg _) fun _ => rename_neg _ _
  | sin a ta i =>
    rw [rename_sin, derivative_sin, derivative_sin, i]
    exact der_bind1_rename (K := fun d => a.cos.mul d) (fun _ => derivative_tree ta) (fun _ => .mul _ _ (.cos _ ta))
      fun _ => by simp
  | cos a ta i =>
    rw [rename_cos, derivative_cos, derivative_cos, i]
    exact der_bind1_rename (K := fun d => a.sin.neg.mul d) (fun _ => derivative_tree ta)
      (fun _ => .mul _ _ (.neg _ (.sin _ ta))) fun _ => by simp
  | exp a ta i =>
    rw [rename_exp, derivative_exp, derivative_exp, i]
    exact der_bind1_rename (K := fun d => d.mul a.exp) (fun _ => derivative_tree ta) (fun _ hl => .mul _ _ hl (.exp _ ta))
      fun _ => by simp
  | ln a ta i =>
    rw [rename_ln, derivative_ln, derivative_ln, i]
    exact der_bind1_rename (K := fun d => d.div a) (fun _ => derivative_tree ta) (fun _ hl => .div _ _ hl ta)
      fun _ => by simp
  | add a b ta tb i j =>
    rw [rename_add, derivative_add, derivative_add, i, j]
    exact der_bind2_rename (K := fun l r => l.add r) (fun _ => derivative_tree ta) (fun _ => derivative_tree tb)
      (fun _ _ => .add _ _) fun _ _ => by simp
  | sub a b ta tb i j =>
    rw [rename_sub, derivative_sub, derivative_sub, i, j]
    exact der_bind2_rename (K := fun l r => l.sub r) (fun _ => derivative_tree ta) (fun _ => derivative_tree tb)
      (fun _ _ => .sub _ _) fun _ _ => by simp
  | mul a b ta tb i j =>
    rw [rename_mul, derivative_mul, derivative_mul, i, j]
    exact der_bind2_rename (K := fun l r => (l.mul b).add (a.mul r)) (fun _ => derivative_tree ta) (fun _ => derivative_tree tb)
      (fun _ _ hl hr => .add _ _ (.mul _ _ hl tb) (.mul _ _ ta hr)) fun _ _ => by simp
  | div a b ta tb i j =>
    rw [rename_div, derivative_div, derivative_div, i, j]
    exact der_bind2_rename (K := fun l r => ((l.mul b).sub (a.mul r)).div (b.mul b)) (fun _ => derivative_tree ta)
      (fun _ => derivative_tree tb)
      (fun _ _ hl hr => .div _ _ (.sub _ _ (.mul _ _ hl tb) (.mul _ _ ta hr)) (.mul _ _ tb tb)) fun _ _ => by simp
  | pow a b ta tb i j =>
    rw [rename_pow, derivative_pow, derivative_pow, i, j]
    exact der_bind2_rename (K := fun l r => (a.pow b).mul ((r.mul a.ln).add ((b.mul l).div a)))
      (fun _ => derivative_tree ta) (fun _ => derivative_tree tb)
      (fun _ _ hl hr => .mul _ _ (.pow _ _ ta tb) (.add _ _ (.mul _ _ hr (.ln _ ta)) (.div _ _ (.mul _ _ tb hl) ta)))
      fun _ _ => by simp

/-! ### `substitute` and `taylor_expansion` -/

theorem replace_rename (hσ : Function.Injective σ) {e : Expr F} (he : Tree e) (x : Variable) (v : Expr F) :
    (e.rename σ).replace (σ x) (v.rename σ) = (e.replace x v).rename σ := by
  induction he with
  | var y => by_cases hy : y = x <;> simp [hy, hσ.eq_iff]
  | _ => simp_all

theorem taylorStep_rename (hσ : Function.Injective σ) (m : Mode) (x : Variable) (k : UInt64) {err a r : Expr F} (ha : Tree a) (hr : Tree r)
    (f : SmartNum F) : taylorStep m (err.rename σ) (σ x) (a.rename σ) k (r.rename σ) f =
      Out.bimap (TaylorExpansionError.rename σ) (fun t => (t.1.rename σ, t.2.1.rename σ, t.2.2))
        (taylorStep m err x a k r f) := by
  unfold taylorStep
  cases SmartNum.ofU64 (F := F) m (max k 1) with
  | panic => rfl
  | ok kk =>
    simp only [Res.map_ok, Res.lift_ok, Out.ok_bind]
    cases f.mul m kk with
    | panic => rfl
    | ok f' =>
      simp only [Res.map_ok, Res.lift_ok, Out.ok_bind, substitute_eq, Out.mapErr_ok, replace_rename hσ hr]
      have tr : Tree (r.replace x a) := WF.replace hr ha x
      rw [numAggregate_rename m tr]
      cases hs : (r.replace x a).numAggregate m with
      | panic => rfl
      | ok s =>
        simp only [Res.map_ok, Res.lift_ok, Out.ok_bind]
        have ts : Tree (s.div (ofNum f')) := .div _ _ (numAggregate_tree tr hs) (.num _ trivial)
        rw [show (s.rename σ).div (ofNum f') = (s.div (ofNum f')).rename σ by simp, numAggregate_rename m ts]
        cases (s.div (ofNum f')).numAggregate m with
        | panic => rfl
        | ok c =>
          simp only [Res.map_ok, Res.lift_ok, Out.ok_bind]
          rw [derivative_rename hσ m x hr]
          cases r.derivative m x <;> rfl

theorem taylorState_rename (hσ : Function.Injective σ) (m : Mode) (x : Variable) {e a : Expr F} (he : Tree e) (ha : Tree a) (k : Nat) :
    taylorState m (e.rename σ) (σ x) (a.rename σ) k =
      Out.bimap (TaylorExpansionError.rename σ) (fun s => (s.1.map (Expr.rename σ), s.2.1.rename σ, s.2.2))
        (taylorState m e x a k) := by
  induction k with
  | zero => simp [taylorState]
  | succ k ih =>
    rw [taylorState, taylorState, ih]
    cases hs : taylorState m e x a k with
    | err _ => rfl
    | panic => rfl
    | ok s =>
      simp only [Out.bimap_ok, Out.ok_bind]
      have ws := taylorState_wf (numClosed_true m) (fun _ _ _ => trivial) ha he k hs
      rw [taylorStep_rename hσ m x _ ha ws.2.1]
      cases taylorStep m e x a (UInt64.ofNat k) s.2.1 s.2.2 with
      | ok t => simp
      | err _ => rfl
      | panic => rfl

theorem taylorExpansion_rename (hσ : Function.Injective σ) (m : Mode) (x : Variable) {e a : Expr F} (he : Tree e) (ha : Tree a) (n : UInt64) :
    (e.rename σ).taylorExpansion m (σ x) (a.rename σ) n =
      Out.bimap (TaylorExpansionError.rename σ) (PartialExpansion.rename σ) (e.taylorExpansion m x a n) := by
  rw [taylorExpansion_state, taylorExpansion_state, taylorState_rename hσ m x he ha]
  cases taylorState m e x a (n.toNat + 1) with
  | ok s => simp [PartialExpansion.rename]
  | err _ => rfl
  | panic => rfl

/-! ### `limit` -/

theorem LimitExpression.add_rename (a b : LimitExpression F) :
    (a.rename σ).add (b.rename σ) = (a.add b).map (LimitExpression.rename σ) := by
  cases a <;> cases b <;> simp [LimitExpression.rename, LimitExpression.add]
theorem LimitExpression.mul_rename (a b : LimitExpression F) :
    (a.rename σ).mul (b.rename σ) = (a.mul b).map (LimitExpression.rename σ) := by
  cases a <;> cases b <;> simp [LimitExpression.rename, LimitExpression.mul]
theorem LimitExpression.div_rename (a b : LimitExpression F) :
    (a.rename σ).div (b.rename σ) = (a.div b).map (LimitExpression.rename σ) := by
  cases a <;> cases b <;> simp [LimitExpression.rename, LimitExpression.div] <;> split_ifs <;> rfl
theorem limIsZero_rename (a : LimitExpression F) : limIsZero (a.rename σ) = limIsZero a := by
  cases a <;> simp [LimitExpression.rename, limIsZero]


theorem finish_rename (m : Mode) {z : LimitExpression F} (hz : LimWF (fun _ => True) z) :
    finish m (z.rename σ) = (finish m z).map (LimitExpression.rename σ) := by
  cases z with
  | normal e =>
    simp only [LimitExpression.rename, finish]
    rw [numAggregate_rename m hz]
    cases e.numAggregate m <;> rfl
  | _ => rfl

theorem substLimit_rename (hσ : Function.Injective σ) (m : Mode) (x : Variable) {e pt : Expr F} (he : Tree e) (hp : Tree pt) :
    substLimit m (e.rename σ) (σ x) (pt.rename σ) = (substLimit m e x pt).map (LimitExpression.rename σ) := by
  rw [substLimit_eq, substLimit_eq, replace_rename hσ he, numAggregate_rename m (WF.replace he hp x)]
  cases (e.replace x pt).numAggregate m with
  | panic => rfl
  | ok z =>
    simp only [Res.map_ok, LOut.ofRes_ok, LOut.ok_bind, isZero_rename]
    rcases Bool.eq_false_or_eq_true z.isZero with hz | hz <;> simp [hz, LimitExpression.rename]

theorem bind_finish_rename {m : Mode} {X : LOut (LimitExpression F)} {X' : LOut (LimitExpression F)}
    (hX : X' = X.map (LimitExpression.rename σ)) (hw : ∀ z, X = .ok z → LimWF (fun _ => True) z) :
    (X' >>= finish m) = (X >>= finish m).map (LimitExpression.rename σ) := by
  subst hX
  cases X with
  | ok z => exact finish_rename m (hw z rfl)
  | _ => rfl

theorem divLoop_rename (hσ : Function.Injective σ) (m : Mode) (x : Variable) {rec : LimitFn F} {rec' : LimitFn F}
    (hr : ∀ e, Tree e → rec' (e.rename σ) = (rec e).map (LimitExpression.rename σ)) (j : Nat) {l r : Expr F}
    (hl : Tree l) (hr' : Tree r) :
    divLoop m rec' (σ x) j (l.rename σ) (r.rename σ) = (divLoop m rec x j l r).map (LimitExpression.rename σ) := by
  induction j generalizing l r with
  | zero => rfl
  | succ j ih =>
    rw [divLoop, divLoop, hr _ hl, hr _ hr']
    cases rec l with
    | ok a =>
      cases rec r with
      | ok b =>
        simp only [LOut.map_ok, LOut.ok_bind, LimitExpression.div_rename]
        cases a.div b with
        | some z => rfl
        | none =>
          simp only [Option.map_none]
          rw [derivative_rename hσ m x hl, derivative_rename hσ m x hr']
          cases hl' : l.derivative m x with
          | ok l' =>
            cases hr'' : r.derivative m x with
            | ok r' => exact ih (derivative_tree hl hl') (derivative_tree hr' hr'')
            | _ => rfl
          | _ => rfl
      | _ => rfl
    | _ => rfl

theorem limit_rename (hσ : Function.Injective σ) (m : Mode) (x : Variable) {pt : Expr F} (hp : Tree pt) (k : UInt64) (n : Nat) {e : Expr F}
    (he : Tree e) :
    limit m (σ x) (pt.rename σ) k n (e.rename σ) = (limit m x pt k n e).map (LimitExpression.rename σ) := by
  induction n generalizing e with
  | zero => rfl
  | succ n ih =>
    have one : Tree (Expr.one : Expr F) := .num _ trivial
    have hone : (Expr.one : Expr F).rename σ = Expr.one := rename_ofI64 σ 1
    have wf : ∀ {e : Expr F}, Tree e → ∀ {z : LimitExpression F}, limit m x pt k n e = .ok z → LimWF (fun _ => True) z :=
      fun he _ hz => limit_wf (numClosed_true m) hp he hz
    cases he with
    | num v hv => simp [limit_ofNum, LimitExpression.rename]
    | var v =>
      rw [rename_ofVar, limit_ofVar, limit_ofVar]
      refine bind_finish_rename ?_ ?_
      · rw [isZero_rename]
        simp only [hσ.eq_iff]
        split_ifs <;> simp [LimitExpression.rename]
      · intro z hz
        split_ifs at hz <;> cases hz
        · trivial
        · exact hp
        · exact .var _
    | neg a _ => rw [rename_neg, limit_neg, limit_neg]; rfl
    | exp a _ => rw [rename_exp, limit_exp, limit_exp]; rfl
    | ln a _ => rw [rename_ln, limit_ln, limit_ln]; rfl
    | pow a b _ _ => rw [rename_pow, limit_pow, limit_pow]; rfl
    | sub a b ha hb =>
      rw [rename_sub, limit_sub, limit_sub]
      refine bind_finish_rename ?_ fun z => wf (.add _ _ ha (.neg _ hb))
      rw [← rename_neg, ← rename_add]
      exact ih (.add _ _ ha (.neg _ hb))
    | sin a ha =>
      rw [rename_sin, limit_sin, limit_sin]
      refine bind_finish_rename ?_ ?_
      · rw [isZero_rename]
        split_ifs
        · rfl
        · rw [← rename_sin]; exact substLimit_rename hσ m x (.sin _ ha) hp
      · intro z hz
        split_ifs at hz
        · cases hz; trivial
        · exact substLimit_wf (numClosed_true m) hp (.sin _ ha) hz
    | cos a ha =>
      rw [rename_cos, limit_cos, limit_cos]
      refine bind_finish_rename ?_ fun z hz => substLimit_wf (numClosed_true m) hp (.cos _ ha) hz
      rw [← rename_cos]; exact substLimit_rename hσ m x (.cos _ ha) hp
    | div a b ha hb =>
      rw [rename_div, limit_div, limit_div]
      exact bind_finish_rename (divLoop_rename hσ m x (fun e he => ih he) _ ha hb)
        fun z hz => divLoop_wf (numClosed_true m) (fun e z he hz => wf he hz) _ ha hb hz
    | add a b ha hb =>
      rw [rename_add, limit_add, limit_add]
      have t : Tree (((a.div b).add Expr.one).div (Expr.one.div b)) :=
        .div _ _ (.add _ _ (.div _ _ ha hb) one) (.div _ _ one hb)
      refine bind_finish_rename ?_ ?_
      · unfold addBody
        rw [ih ha, ih hb]
        cases limit m x pt k n b with
        | ok r =>
          cases limit m x pt k n a with
          | ok l =>
            simp only [LOut.map_ok, LOut.ok_bind, LimitExpression.add_rename]
            cases l.add r with
            | some z => rfl
            | none =>
              have := ih t
              simp only [rename_div, rename_add, hone] at this
              exact this
          | _ => rfl
        | _ => rfl
      · intro z h1
        simp only [addBody, LOut.bind_eq_ok] at h1
        obtain ⟨r, hr, l, hl, h1⟩ := h1
        cases hd : l.add r with
        | some w => rw [hd] at h1; cases h1; exact (wf ha hl).add (wf hb hr) hd
        | none => rw [hd] at h1; exact wf t h1
    | mul a b ha hb =>
      rw [rename_mul, limit_mul, limit_mul]
      have t1 : Tree (b.div (Expr.one.div a)) := .div _ _ hb (.div _ _ one ha)
      have t2 : Tree (a.div (Expr.one.div b)) := .div _ _ ha (.div _ _ one hb)
      refine bind_finish_rename ?_ ?_
      · unfold mulBody
        rw [ih ha, ih hb]
        cases limit m x pt k n b with
        | ok r =>
          cases limit m x pt k n a with
          | ok l =>
            simp only [LOut.map_ok, LOut.ok_bind, LimitExpression.mul_rename]
            cases l.mul r with
            | some z => rfl
            | none =>
              have i1 := ih t1
              have i2 := ih t2
              simp only [rename_div, hone] at i1 i2
              simp only [Option.map_none, limIsZero_rename]
              rcases Bool.eq_false_or_eq_true (limIsZero r) with hz | hz <;> simp [hz, i1, i2]
          | _ => rfl
        | _ => rfl
      · intro z h1
        simp only [mulBody, LOut.bind_eq_ok] at h1
        obtain ⟨r, hr, l, hl, h1⟩ := h1
        cases hd : l.mul r with
        | some w => rw [hd] at h1; cases h1; exact (wf ha hl).mul (wf hb hr) hd
        | none =>
          rw [hd] at h1; simp only at h1
          split_ifs at h1
          · exact wf t1 h1
          · exact wf t2 h1

end SymRust
