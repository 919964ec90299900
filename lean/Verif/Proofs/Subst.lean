import Verif.Proofs.Expr
import Verif.Spec.Subst
import Verif.Model.Substitute
/-! `substitute` is `replace`, and the laws of `replace`. -/

namespace SymRust
variable {F : Type}
open Expr

theorem Variable.name_eq {x y : Variable} : x.name = y.name ↔ x = y := by
  constructor
  · intro h; cases x; cases y; simp_all
  · intro h; rw [h]

mutual
theorem substitute_eq (e : Expr F) (x : Variable) (v : Expr F) :
    e.substitute x v = .ok (e.replace x v) := by
  cases e with
  | mk r c =>
    cases r with
    | operand o =>
      cases o with
      | num n => simp [substitute, replace]
      | var y => simp only [substitute, replace, Variable.name_eq]; split <;> rfl
    | operator op =>
      simp only [substitute, replace, substituteList_eq c x v]; rfl
theorem substituteList_eq (l : List (Expr F)) (x : Variable) (v : Expr F) :
    collect (substituteList l x v) = .ok (replaceList l x v) := by
  cases l with
  | nil => simp [substituteList, collect, replaceList]
  | cons e es => simp [substituteList, collect, replaceList, substitute_eq e x v, substituteList_eq es x v]
end

section
variable (x : Variable) (v a b : Expr F)
@[simp] theorem replace_ofNum (n : SmartNum F) : (ofNum n).replace x v = ofNum n := by simp [ofNum, replace]
@[simp] theorem replace_ofI64 (n : Int64) : (ofI64 n).replace x v = ofI64 n := replace_ofNum x v _
@[simp] theorem replace_ofVar (y : Variable) :
    (ofVar y).replace x v = if y = x then v else ofVar y := by simp [ofVar, newVariable, replace]
@[simp] theorem replace_neg : a.neg.replace x v = (a.replace x v).neg := by simp [Expr.neg, replace, replaceList]
@[simp] theorem replace_sin : a.sin.replace x v = (a.replace x v).sin := by simp [Expr.sin, replace, replaceList]
@[simp] theorem replace_cos : a.cos.replace x v = (a.replace x v).cos := by simp [Expr.cos, replace, replaceList]
@[simp] theorem replace_exp : a.exp.replace x v = (a.replace x v).exp := by simp [Expr.exp, replace, replaceList]
@[simp] theorem replace_ln : a.ln.replace x v = (a.replace x v).ln := by simp [Expr.ln, replace, replaceList]
@[simp] theorem replace_add : (a.add b).replace x v = (a.replace x v).add (b.replace x v) := by
  simp [Expr.add, replace, replaceList]
@[simp] theorem replace_sub : (a.sub b).replace x v = (a.replace x v).sub (b.replace x v) := by
  simp [Expr.sub, replace, replaceList]
@[simp] theorem replace_mul : (a.mul b).replace x v = (a.replace x v).mul (b.replace x v) := by
  simp [Expr.mul, replace, replaceList]
@[simp] theorem replace_div : (a.div b).replace x v = (a.replace x v).div (b.replace x v) := by
  simp [Expr.div, replace, replaceList]
@[simp] theorem replace_pow : (a.pow b).replace x v = (a.replace x v).pow (b.replace x v) := by
  simp [Expr.pow, replace, replaceList]
end

section
variable (x : Variable) (a b : Expr F)
@[simp] theorem count_ofNum (n : SmartNum F) : count x (ofNum n) = 0 := by simp [ofNum, count]
@[simp] theorem count_ofVar (y : Variable) : count x (ofVar y : Expr F) = if y = x then 1 else 0 := by
  simp [ofVar, newVariable, count]
@[simp] theorem count_neg : count x a.neg = count x a := by simp [Expr.neg, count, countList]
@[simp] theorem count_sin : count x a.sin = count x a := by simp [Expr.sin, count, countList]
@[simp] theorem count_cos : count x a.cos = count x a := by simp [Expr.cos, count, countList]
@[simp] theorem count_exp : count x a.exp = count x a := by simp [Expr.exp, count, countList]
@[simp] theorem count_ln : count x a.ln = count x a := by simp [Expr.ln, count, countList]
@[simp] theorem count_add : count x (a.add b) = count x a + count x b := by simp [Expr.add, count, countList]
@[simp] theorem count_sub : count x (a.sub b) = count x a + count x b := by simp [Expr.sub, count, countList]
@[simp] theorem count_mul : count x (a.mul b) = count x a + count x b := by simp [Expr.mul, count, countList]
@[simp] theorem count_div : count x (a.div b) = count x a + count x b := by simp [Expr.div, count, countList]
@[simp] theorem count_pow : count x (a.pow b) = count x a + count x b := by simp [Expr.pow, count, countList]
end

mutual
theorem replace_of_not_occurs {e : Expr F} {x : Variable} (v : Expr F) (h : ¬ Occurs x e) :
    e.replace x v = e := by
  cases e with
  | mk r c =>
    cases r with
    | operand o =>
      cases o with
      | num n => simp [replace]
      | var y => simp only [Occurs] at h; simp [replace, h]
    | operator op =>
      simp only [Occurs] at h
      simp [replace, replaceList_of_not_occurs v h]
theorem replaceList_of_not_occurs {l : List (Expr F)} {x : Variable} (v : Expr F) (h : ¬ OccursList x l) :
    replaceList l x v = l := by
  cases l with
  | nil => rfl
  | cons e es =>
    simp only [OccursList, not_or] at h
    simp [replaceList, replace_of_not_occurs v h.1, replaceList_of_not_occurs v h.2]
end

theorem replace_self {e : Expr F} (he : Tree e) (x : Variable) : e.replace x (ofVar x) = e := by
  induction he with
  | num n => simp
  | var y => simp only [replace_ofVar]; split <;> simp_all
  | _ => simp_all

mutual
theorem occurs_replace {e : Expr F} {x y : Variable} {v : Expr F} :
    Occurs y (e.replace x v) ↔ (Occurs y e ∧ y ≠ x) ∨ (Occurs x e ∧ Occurs y v) := by
  cases e with
  | mk r c =>
    cases r with
    | operand o =>
      cases o with
      | num n => simp [replace, Occurs]
      | var z =>
        simp only [replace]
        split
        · rename_i h; subst h; simp only [Occurs, true_and]
          constructor
          · exact .inr
          · rintro (⟨h, h'⟩ | h)
            · exact absurd h.symm h'
            · exact h
        · rename_i h; simp only [Occurs, h, false_and, or_false]
          constructor
          · intro h'; exact ⟨h', fun h'' => h (h'.trans h'')⟩
          · exact fun h => h.1
    | operator op => simpa only [replace, Occurs] using occursList_replace
theorem occursList_replace {l : List (Expr F)} {x y : Variable} {v : Expr F} :
    OccursList y (replaceList l x v) ↔ (OccursList y l ∧ y ≠ x) ∨ (OccursList x l ∧ Occurs y v) := by
  cases l with
  | nil => simp [replaceList, OccursList]
  | cons e es =>
    simp only [replaceList, OccursList, occurs_replace (e := e), occursList_replace (l := es)]
    tauto
end

mutual
theorem replace_comm (e : Expr F) {x y : Variable} {v w : Expr F} (hxy : x ≠ y) (hv : ¬ Occurs y v)
    (hw : ¬ Occurs x w) : (e.replace x v).replace y w = (e.replace y w).replace x v := by
  cases e with
  | mk r c =>
    cases r with
    | operand o =>
      cases o with
      | num n => simp [replace]
      | var z =>
        simp only [replace]
        by_cases h1 : z = x
        · subst h1
          simp [hxy, replace, replace_of_not_occurs w hv]
        · by_cases h2 : z = y
          · subst h2; simp [h1, replace, replace_of_not_occurs v hw]
          · simp [h1, h2, replace]
    | operator op => simp [replace, replaceList_comm c hxy hv hw]
theorem replaceList_comm (l : List (Expr F)) {x y : Variable} {v w : Expr F} (hxy : x ≠ y)
    (hv : ¬ Occurs y v) (hw : ¬ Occurs x w) :
    replaceList (replaceList l x v) y w = replaceList (replaceList l y w) x v := by
  cases l with
  | nil => rfl
  | cons e es => simp [replaceList, replace_comm e hxy hv hw, replaceList_comm es hxy hv hw]
end

theorem size_replace {e : Expr F} (he : Tree e) (x : Variable) (v : Expr F) :
    size (e.replace x v) + count x e = size e + count x e * size v := by
  induction he with
  | num n => simp
  | var y => simp only [replace_ofVar, count_ofVar]; split <;> simp_all <;> omega
  | neg a _ ih | sin a _ ih | cos a _ ih | exp a _ ih | ln a _ ih => simp; omega
  | _ => simp [Nat.add_mul]; omega

theorem count_pos_iff {e : Expr F} (he : Tree e) (x : Variable) : 0 < count x e ↔ Occurs x e := by
  induction he with
  | num n => simp
  | var y => simp only [count_ofVar, occurs_ofVar]; split <;> simp_all
  | neg a _ ih | sin a _ ih | cos a _ ih | exp a _ ih | ln a _ ih => simpa using ih
  | add _ _ _ _ i j | sub _ _ _ _ i j | mul _ _ _ _ i j | div _ _ _ _ i j | pow _ _ _ _ i j =>
    simp only [count_add, count_sub, count_mul, count_div, count_pow, occurs_add, occurs_sub, occurs_mul,
      occurs_div, occurs_pow, ← i, ← j]; omega

theorem WF.replace {P : SmartNum F → Prop} {e v : Expr F} (he : WF P e) (hv : WF P v) (x : Variable) :
    WF P (e.replace x v) := by
  induction he with
  | num n hn => simpa using WF.num n hn
  | var y => simp only [replace_ofVar]; split; exacts [hv, .var y]
  | neg a _ ih => simpa using ih.neg
  | sin a _ ih => simpa using ih.sin
  | cos a _ ih => simpa using ih.cos
  | exp a _ ih => simpa using ih.exp
  | ln a _ ih => simpa using ih.ln
  | add _ _ _ _ i j => simpa using i.add _ _ j
  | sub _ _ _ _ i j => simpa using i.sub _ _ j
  | mul _ _ _ _ i j => simpa using i.mul _ _ j
  | div _ _ _ _ i j => simpa using i.div _ _ j
  | pow _ _ _ _ i j => simpa using i.pow _ _ j

end SymRust
